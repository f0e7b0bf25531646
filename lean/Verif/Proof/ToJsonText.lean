import Verif.Proof.ToJson

/-!
# The text of a recording that can be shown
-/

namespace Rap

variable {M : MarshalExt} {X : JsonExt} {N : Bytes → F64 → Prop}

/-- What is needed of the parts: metadata and times have texts with values, and so have numbers of captures. -/
structure Parts (M : MarshalExt) (N : Bytes → F64 → Prop) (B : Block → Prop) (T : F64 → Prop) (R : Block → JVal → Prop)
    (Q : F64 → F64 → Prop) : Prop where
  metadata : ∀ md, B md → ∃ t j, marshal M (.block md) = pure t ∧ JText N t j ∧ R md j
  time : ∀ x, T x → ∃ d, N (M.fixed x) d ∧ Q x d
  count : ∀ n : Nat, n ≤ 2 ^ 53 → ∃ d, N (V1.decimal n) d ∧ number64 d = .fin n

variable {B : Block → Prop} {T : F64 → Prop} {R : Block → JVal → Prop} {Q : F64 → F64 → Prop}

theorem plain_ascii {s : Bytes} (h : ∀ c ∈ s, 32 ≤ c ∧ c ≠ 34 ∧ c ≠ 92) : PlainText s := h

theorem event_text (hP : Parts M N B T R Q) {t : Bytes} (ht : Blank t) {e : F64 × Bytes × Block} (h1 : T e.1)
    (h2 : PlainText e.2.1) (h3 : B e.2.2) (last : Bool) :
    ∃ u j, Says (eventJson M t e last) (u ++ if last then b!"\n" else b!",\n") ∧ JText N u j ∧ ShowsEvent R Q e j := by
  obtain ⟨d, g1, g2⟩ := hP.time _ h1
  obtain ⟨m, jm, g3, g4, g5⟩ := hP.metadata _ h3
  have hs : Says (eventJson M t e last) _ := says_marshal (f := fun data => .seq
    [.say (t ++ b!"\t\t{\n"),
     .say (t ++ b!"\t\t\t\"time\": " ++ M.fixed e.1 ++ b!",\n"),
     .say (t ++ b!"\t\t\t\"name\": \"" ++ e.2.1 ++ b!"\",\n"),
     .say (t ++ b!"\t\t\t\"data\": " ++ data ++ b!"\n"),
     .say (t ++ b!"\t\t}"),
     .say (if last then b!"\n" else b!",\n")]) g3 (says_seq (.cons (says_say _) (.cons (says_say _) (.cons (says_say _)
      (.cons (says_say _) (.cons (says_say _) (.cons (says_say _) .nil)))))))
  have hj : ∃ u, JText N u (.obj [(b!"time", .num d), (b!"name", .str e.2.1), (b!"data", jm)]) ∧
      Says (eventJson M t e last) (u ++ if last then b!"\n" else b!",\n") := by
    have hb : Blank (b!"\n" ++ t ++ b!"\t\t\t") :=
      blank_append (blank_append blank_lf ht) (by simp [Blank])
    have := object_text (N := N)
      (ms := [(b!"\n" ++ t ++ b!"\t\t\t" ++ [34] ++ b!"time" ++ [34] ++ [], b!" " ++ M.fixed e.1 ++ []),
        (b!"\n" ++ t ++ b!"\t\t\t" ++ [34] ++ b!"name" ++ [34] ++ [], b!" " ++ ([34] ++ e.2.1 ++ [34]) ++ []),
        (b!"\n" ++ t ++ b!"\t\t\t" ++ [34] ++ b!"data" ++ [34] ++ [], b!" " ++ m ++ (b!"\n" ++ t ++ b!"\t\t"))])
      (d := [(b!"time", .num d), (b!"name", .str e.2.1), (b!"data", jm)])
      (.cons (plain_key hb (by simp only [PlainText]; decide) blank_nil)
        (.cons (plain_key hb (by simp only [PlainText]; decide) blank_nil)
          (.cons (plain_key hb (by simp only [PlainText]; decide) blank_nil) .nil)))
      (.cons (.pad blank_space blank_nil (.num g1)) (.cons (plain_value blank_space h2 blank_nil)
        (.cons (.pad blank_space (blank_append (blank_append blank_lf ht) (by simp [Blank])) g4) .nil)))
    refine ⟨_, .pad (w := t ++ b!"\t\t") (w' := []) (blank_append ht (by simp [Blank])) blank_nil this, ?_⟩
    convert hs using 1
    simp [commas]
  obtain ⟨u, h4, h5⟩ := hj
  exact ⟨u, _, h5, h4, d, jm, rfl, g2, g5⟩

theorem events_text (hP : Parts M N B T R Q) {t : Bytes} (ht : Blank t) : (caps : List (F64 × Bytes × Block)) →
    (∀ e ∈ caps, T e.1 ∧ PlainText e.2.1 ∧ B e.2.2) →
    ∃ us js, Says (eventsJson M t caps) (joined us ++ if us.isEmpty then [] else b!"\n") ∧
      List.Forall₂ (JText N) us js ∧ List.Forall₂ (ShowsEvent R Q) caps js
  | [], _ => ⟨[], [], says_nil, .nil, .nil⟩
  | e :: rest, h => by
    obtain ⟨h1, h2, h3⟩ := h e (by simp)
    obtain ⟨u, j, g1, g2, g3⟩ := event_text hP ht h1 h2 h3 rest.isEmpty
    obtain ⟨us, js, k1, k2, k3⟩ := events_text hP ht rest fun e he => h e (by simp [he])
    refine ⟨u :: us, j :: js, ?_, .cons g2 k2, .cons g3 k3⟩
    have := says_seq (.cons g1 (.cons k1 .nil))
    rw [eventsJson]
    convert this using 1
    cases us with
    | nil =>
      cases k2; cases k3
      simp [joined]
    | cons u' us =>
      cases k2; cases k3
      simp [joined]

theorem coll_text (hP : Parts M N B T R Q) {t : Bytes} (ht : Blank t) {c : Coll} (h : ShowableColl B T c) (last : Bool) :
    ∃ u j, Says (collJson M t c last) (u ++ if last then [] else b!",\n") ∧ JText N u j ∧ ShowsColl R Q c j := by
  obtain ⟨h1, h2, h3, h4⟩ := h
  obtain ⟨n, g1, g2⟩ := hP.count _ h3
  have hlen : c.times.length = c.captures.length := by cases c <;> simp [Coll.times, Coll.captures]
  have hb : Blank (b!"\n" ++ t ++ b!"\t") := blank_append (blank_append blank_lf ht) (by simp [Blank])
  have key : ∀ (o : JOut) (us : List Bytes) (js : List JVal),
      c.sig = sigEvent → capturesJson M t c = o →
      Says o (joined us ++ if us.isEmpty then [] else b!"\n") → List.Forall₂ (JText N) us js →
      ∃ u, Says (collJson M t c last) (u ++ if last then [] else b!",\n") ∧
        JText N u (.obj ([(b!"name", .str c.name), (b!"signature", .str c.sig), (b!"count", .num n)] ++
          [(b!"captures", .arr js)])) := by
    intro o us js hsig ho hs hu
    rw [collJson, if_pos hsig, ho]
    refine ⟨t ++ ([123] ++ commas ([(b!"\n" ++ t ++ b!"\t" ++ [34] ++ b!"name" ++ [34] ++ [], b!" " ++ ([34] ++ c.name ++ [34]) ++ []),
        (b!"\n" ++ t ++ b!"\t" ++ [34] ++ b!"signature" ++ [34] ++ b!" ", b!" " ++ ([34] ++ c.sig ++ [34]) ++ []),
        (b!"\n" ++ t ++ b!"\t" ++ [34] ++ b!"count" ++ [34] ++ b!" ", b!" " ++ V1.decimal c.times.length ++ []),
        (b!"\n" ++ t ++ b!"\t" ++ [34] ++ b!"captures" ++ [34] ++ [], b!" " ++ ([91] ++ (if us.isEmpty then [] else b!"\n") ++ joined us ++ (b!"\n" ++ t ++ b!"\t") ++ [93]) ++ (b!"\n" ++ t))].map fun m => m.1 ++ [58] ++ m.2) ++ [125]) ++ [], ?_, ?_⟩
    · have := says_seq (.cons (says_say (t ++ b!"{\n")) (.cons (says_say (t ++ b!"\t\"name\": \"" ++ c.name ++ b!"\",\n"))
        (.cons (says_say (t ++ b!"\t\"signature\" : \"" ++ c.sig ++ b!"\",\n"))
        (.cons (says_say (t ++ b!"\t\"count\" : " ++ V1.decimal c.times.length))
        (.cons (says_seq (.cons (says_say (b!",\n" ++ t ++ b!"\t\"captures\": [\n")) (.cons hs (.cons (says_say (t ++ b!"\t]\n")) .nil))))
        (.cons (says_say (t ++ b!"}")) (.cons (says_if (p := last = true) says_nil (says_say b!",\n")) .nil)))))))
      convert this using 1
      cases us <;> simp [commas, joined]
    · refine .pad ht blank_nil (object_text (.cons (plain_key hb (by simp only [PlainText]; decide) blank_nil)
        (.cons (plain_key hb (by simp only [PlainText]; decide) blank_space)
          (.cons (plain_key hb (by simp only [PlainText]; decide) blank_space)
            (.cons (plain_key hb (by simp only [PlainText]; decide) blank_nil) .nil))))
        (.cons (plain_value blank_space h1 blank_nil) (.cons (plain_value blank_space h2 blank_nil)
          (.cons (.pad blank_space blank_nil (.num (by rw [hlen]; exact g1)))
            (.cons (.pad blank_space (blank_append blank_lf ht) (lines_text hu (blank_append (blank_append blank_lf ht) (by simp [Blank])))) .nil)))))
  have key2 : c.sig ≠ sigEvent → ∃ u, Says (collJson M t c last) (u ++ if last then [] else b!",\n") ∧
        JText N u (.obj ([(b!"name", .str c.name), (b!"signature", .str c.sig), (b!"count", .num n)] ++ [])) := by
    intro hsig
    rw [collJson, if_neg hsig, List.append_nil]
    refine ⟨t ++ ([123] ++ commas ([(b!"\n" ++ t ++ b!"\t" ++ [34] ++ b!"name" ++ [34] ++ [], b!" " ++ ([34] ++ c.name ++ [34]) ++ []),
        (b!"\n" ++ t ++ b!"\t" ++ [34] ++ b!"signature" ++ [34] ++ b!" ", b!" " ++ ([34] ++ c.sig ++ [34]) ++ []),
        (b!"\n" ++ t ++ b!"\t" ++ [34] ++ b!"count" ++ [34] ++ b!" ", b!" " ++ V1.decimal c.times.length ++ (b!"\n" ++ t))].map fun m => m.1 ++ [58] ++ m.2) ++ [125]) ++ [], ?_, ?_⟩
    · have := says_seq (.cons (says_say (t ++ b!"{\n")) (.cons (says_say (t ++ b!"\t\"name\": \"" ++ c.name ++ b!"\",\n"))
        (.cons (says_say (t ++ b!"\t\"signature\" : \"" ++ c.sig ++ b!"\",\n"))
        (.cons (says_say (t ++ b!"\t\"count\" : " ++ V1.decimal c.times.length))
        (.cons (says_say b!"\n")
        (.cons (says_say (t ++ b!"}")) (.cons (says_if (p := last = true) says_nil (says_say b!",\n")) .nil)))))))
      convert this using 1
      simp [commas]
    · refine .pad ht blank_nil (object_text (.cons (plain_key hb (by simp only [PlainText]; decide) blank_nil)
        (.cons (plain_key hb (by simp only [PlainText]; decide) blank_space)
          (.cons (plain_key hb (by simp only [PlainText]; decide) blank_space) .nil)))
        (.cons (plain_value blank_space h1 blank_nil) (.cons (plain_value blank_space h2 blank_nil)
          (.cons (.pad blank_space (blank_append blank_lf ht) (.num (by rw [hlen]; exact g1))) .nil))))
  cases c with
  | event name caps =>
    obtain ⟨us, js, k1, k2, k3⟩ := events_text hP ht caps (h4 name caps rfl)
    obtain ⟨u, s1, s2⟩ := key _ us js rfl rfl k1 k2
    exact ⟨u, _, s1, s2, n, _, rfl, g2, js, rfl, k3⟩
  | other s name caps =>
    by_cases hs : s = sigEvent
    · obtain ⟨u, s1, s2⟩ := key _ [] [] hs rfl says_nil .nil
      exact ⟨u, _, s1, s2, n, _, rfl, g2, (if_pos hs).symm⟩
    · obtain ⟨u, s1, s2⟩ := key2 hs
      exact ⟨u, _, s1, s2, n, _, rfl, g2, (if_neg hs).symm⟩
  | position => obtain ⟨u, s1, s2⟩ := key2 (by simp [Coll.sig, sigPosition, sigEuler, sigEnum, sigFloat, sigEvent]); exact ⟨u, _, s1, s2, n, _, rfl, g2, rfl⟩
  | euler => obtain ⟨u, s1, s2⟩ := key2 (by simp [Coll.sig, sigPosition, sigEuler, sigEnum, sigFloat, sigEvent]); exact ⟨u, _, s1, s2, n, _, rfl, g2, rfl⟩
  | enum => obtain ⟨u, s1, s2⟩ := key2 (by simp [Coll.sig, sigPosition, sigEuler, sigEnum, sigFloat, sigEvent]); exact ⟨u, _, s1, s2, n, _, rfl, g2, rfl⟩
  | float => obtain ⟨u, s1, s2⟩ := key2 (by simp [Coll.sig, sigPosition, sigEuler, sigEnum, sigFloat, sigEvent]); exact ⟨u, _, s1, s2, n, _, rfl, g2, rfl⟩

theorem colls_text (hP : Parts M N B T R Q) {t : Bytes} (ht : Blank t) : (colls : List (Option Coll)) →
    (∀ c ∈ colls, ∃ c', c = some c' ∧ ShowableColl B T c') →
    ∃ us js, Says (collsJson M t colls) (joined us) ∧ us.length = colls.length ∧ List.Forall₂ (JText N) us js ∧
      List.Forall₂ (fun c j => ∃ c', c = some c' ∧ ShowsColl R Q c' j) colls js
  | [], _ => ⟨[], [], says_nil, rfl, .nil, .nil⟩
  | none :: rest, h => by obtain ⟨c, h1, -⟩ := h none (by simp); simp at h1
  | some c :: rest, h => by
    obtain ⟨c', h1, h2⟩ := h (some c) (by simp)
    cases h1
    obtain ⟨u, j, g1, g2, g3⟩ := coll_text hP ht h2 rest.isEmpty
    obtain ⟨us, js, k1, k2, k3, k4⟩ := colls_text hP ht rest fun e he => h e (by simp [he])
    refine ⟨u :: us, j :: js, ?_, by simp [k2], .cons g2 k3, .cons ⟨c, rfl, g3⟩ k4⟩
    have := says_seq (.cons g1 (.cons k1 .nil))
    rw [collsJson]
    convert this using 1
    cases rest with
    | nil =>
      cases us with
      | nil => simp [joined]
      | cons => simp at k2
    | cons =>
      cases us with
      | nil => simp at k2
      | cons => simp [joined]

/-- A recording is written as a document that shows it. -/
def Shown (M : MarshalExt) (N : Bytes → F64 → Prop) (R : Block → JVal → Prop) (Q : F64 → F64 → Prop) (r : Rec) : Prop :=
  ∀ depth, ∃ t j, Says (toJson M depth r) t ∧ JText N t j ∧ Shows R Q r j

theorem recs_text (depth : Nat) : (recs : List Rec) → (∀ r ∈ recs, r ≠ .nil → Shown M N R Q r) →
    ∃ us js, Says (recsJson M depth recs) (joined us) ∧ us.length = recs.length ∧ List.Forall₂ (JText N) us js ∧
      List.Forall₂ (Shows R Q) recs js
  | [], _ => ⟨[], [], by rw [recsJson]; exact says_nil, rfl, .nil, .nil⟩
  | r :: rest, h => by
    obtain ⟨us, js, k1, k2, k3, k4⟩ := recs_text depth rest fun e he => h e (by simp [he])
    have key : ∀ u : Bytes, u ++ ((if rest.isEmpty then [] else b!",\n") ++ joined us) = joined (u :: us) := by
      intro u
      cases rest <;> cases us <;> simp [joined] at k2 ⊢
    have hs : ∀ (o : JOut) (u : Bytes), Says o u →
        Says (.seq [o, if rest.isEmpty then .seq [] else .say b!",\n", recsJson M depth rest]) (joined (u :: us)) := by
      intro o u ho
      have := says_seq (.cons ho (.cons (says_if (p := rest.isEmpty = true) says_nil (says_say b!",\n")) (.cons k1 .nil)))
      rw [← key]
      simpa using this
    cases r with
    | nil =>
      exact ⟨_ :: us, _ :: js, by rw [recsJson]; exact hs _ _ (says_say _), by simp [k2], .cons .null k3, .cons .nil k4⟩
    | mk id name colls recs md bins refs =>
      obtain ⟨u, j, h1, h2, h3⟩ := h (.mk id name colls recs md bins refs) (by simp) (by simp) (depth + 2)
      refine ⟨u :: us, j :: js, ?_, by simp [k2], .cons h2 k3, .cons h3 k4⟩
      rw [recsJson]
      · exact hs _ _ (says_drop h1)
      · simp

/-- The document of a recording, whose name may hold further members. -/
theorem rec_text (hP : Parts M N B T R Q) {id name : Bytes} {colls : List (Option Coll)} {recs : List Rec} {md : Block}
    {bins : List (Option Bin)} {refs : List (Option BinRef)} (h1 : PlainText id) (h3 : B md)
    (h4 : ∀ c ∈ colls, ∃ c', c = some c' ∧ ShowableColl B T c') (h5 : ∀ r ∈ recs, r ≠ .nil → Shown M N R Q r)
    (depth : Nat) (ms : List (Bytes × Bytes)) (d : List (Bytes × JVal)) (hms : ms ≠ [])
    (e : b!"\n" ++ tabs (depth + 1) ++ b!"\"name\": \"" ++ name ++ b!"\"" = commas (ms.map fun m => m.1 ++ [58] ++ m.2))
    (hk : List.Forall₂ KeyText (ms.map (·.1)) (d.map (·.1))) (hv : List.Forall₂ (JText N) (ms.map (·.2)) (d.map (·.2))) :
    ∃ t m cs rs, Says (toJson M depth (.mk id name colls recs md bins refs)) t ∧
      JText N t (.obj ((b!"id", .str id) :: d ++ [(b!"metadata", m), (b!"collections", .arr cs),
          (b!"recordings", .arr rs)])) ∧ R md m ∧
      List.Forall₂ (fun c j => ∃ c', c = some c' ∧ ShowsColl R Q c' j) colls cs ∧ List.Forall₂ (Shows R Q) recs rs := by
  obtain ⟨m, jm, g3, g4, g5⟩ := hP.metadata _ h3
  obtain ⟨us, js, k1, k2, k3, k4⟩ := colls_text hP (blank_tabs (depth + 2)) colls h4
  obtain ⟨vs, rs, l1, l2, l3, l4⟩ := recs_text depth recs h5
  have hb : Blank (b!"\n" ++ tabs (depth + 1)) := blank_append blank_lf (blank_tabs _)
  have he1 : us.isEmpty = colls.isEmpty := by cases us <;> cases colls <;> simp_all
  have he2 : vs.isEmpty = recs.isEmpty := by cases vs <;> cases recs <;> simp_all
  refine ⟨tabs depth ++ ([123] ++ commas (((b!"\n" ++ tabs (depth + 1) ++ [34] ++ b!"id" ++ [34] ++ [], b!" " ++ ([34] ++ id ++ [34]) ++ []) :: (ms ++
      [(b!"\n" ++ tabs (depth + 1) ++ [34] ++ b!"metadata" ++ [34] ++ [], b!" " ++ m ++ []),
       (b!"\n" ++ tabs (depth + 1) ++ [34] ++ b!"collections" ++ [34] ++ [], b!" " ++ ([91] ++ (if us.isEmpty then [] else b!"\n") ++ joined us ++ (if us.isEmpty then [] else b!"\n" ++ tabs (depth + 1)) ++ [93]) ++ []),
       (b!"\n" ++ tabs (depth + 1) ++ [34] ++ b!"recordings" ++ [34] ++ [], b!" " ++ ([91] ++ (if vs.isEmpty then [] else b!"\n") ++ joined vs ++ (if vs.isEmpty then [] else b!"\n" ++ tabs (depth + 1)) ++ [93]) ++ (b!"\n" ++ tabs depth))])).map fun m => m.1 ++ [58] ++ m.2) ++ [125]) ++ [],
    jm, js, rs, ?_, ?_, g5, k4, l4⟩
  · rw [toJson]
    have := says_seq (.cons (says_say (tabs depth ++ b!"{\n"))
      (.cons (says_say (tabs (depth + 1) ++ b!"\"id\": \"" ++ id ++ b!"\",\n"))
      (.cons (says_say (tabs (depth + 1) ++ b!"\"name\": \"" ++ name ++ b!"\",\n"))
      (.cons (says_marshal (f := fun data => .say (tabs (depth + 1) ++ b!"\"metadata\": " ++ data ++ b!",\n")) g3 (says_say _))
      (.cons (says_say (tabs (depth + 1) ++ b!"\"collections\": ["))
      (.cons (says_if (p := colls.isEmpty = true) says_nil (says_say b!"\n"))
      (.cons k1
      (.cons (says_if (p := colls.isEmpty = true) (says_say b!"],\n") (says_seq (.cons (says_say b!"\n") (.cons (says_say (tabs (depth + 1) ++ b!"],\n")) .nil))))
      (.cons (says_say (tabs (depth + 1) ++ b!"\"recordings\": ["))
      (.cons (says_if (p := recs.isEmpty = true) says_nil (says_say b!"\n"))
      (.cons l1
      (.cons (says_if (p := recs.isEmpty = true) (says_say b!"]\n") (says_seq (.cons (says_say b!"\n") (.cons (says_say (tabs (depth + 1) ++ b!"]\n")) .nil))))
      (.cons (says_say (tabs depth ++ b!"}")) .nil)))))))))))))
    convert this using 1
    rw [List.map_cons, List.map_append, commas_cons (by simp), commas_append _ _ (by simpa using hms) (by simp), ← e, he1, he2]
    cases hc : colls.isEmpty <;> cases hr : recs.isEmpty <;> simp [commas]
  · refine .pad (blank_tabs _) blank_nil (object_text ?_ ?_)
    · rw [List.map_cons, List.map_append, List.map_append, List.map_cons]
      refine .cons (plain_key hb (by simp only [PlainText]; decide) blank_nil) (List.rel_append hk ?_)
      exact (.cons (plain_key hb (by simp only [PlainText]; decide) blank_nil)
          (.cons (plain_key hb (by simp only [PlainText]; decide) blank_nil)
            (.cons (plain_key hb (by simp only [PlainText]; decide) blank_nil) .nil)))
    · rw [List.map_cons, List.map_append, List.map_append, List.map_cons]
      refine .cons (plain_value blank_space h1 blank_nil) (List.rel_append hv ?_)
      have hif : ∀ l : List Bytes, Blank (if l.isEmpty then [] else b!"\n" ++ tabs (depth + 1)) := by
        intro l
        split
        · exact blank_nil
        · exact hb
      exact (.cons (.pad blank_space blank_nil g4)
            (.cons (.pad blank_space blank_nil (lines_text k3 (hif us)))
              (.cons (.pad blank_space (blank_append blank_lf (blank_tabs _)) (lines_text l3 (hif vs))) .nil)))

theorem shown_of_showable (hP : Parts M N B T R Q) {r : Rec} (h : Showable B T r) : Shown M N R Q r := by
  induction h with
  | @mk id name colls recs md bins refs h1 h2 h3 h4 _ ih =>
    intro depth
    obtain ⟨t, m, cs, rs, g1, g2, g3, g4, g5⟩ := rec_text (name := name) (bins := bins) (refs := refs) hP h1 h3 h4 ih depth
      [(b!"\n" ++ tabs (depth + 1) ++ [34] ++ b!"name" ++ [34] ++ [], b!" " ++ ([34] ++ name ++ [34]) ++ [])]
      [(b!"name", .str name)] (by simp) (by simp [commas])
      (.cons (plain_key (blank_append blank_lf (blank_tabs _)) (by simp only [PlainText]; decide) blank_nil) .nil)
      (.cons (plain_value blank_space h2 blank_nil) .nil)
    exact ⟨t, _, g1, g2, .mk g3 g4 g5⟩

end Rap
