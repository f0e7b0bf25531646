import Verif.Proof.ToJsonScan
import Verif.Props.Json

/-!
# C56: recordings as JSON
-/

namespace Rap

variable {M : MarshalExt} {X : JsonExt} {N : Bytes → F64 → Prop}

/-- Everything written, one piece after the other. -/
def JOut.text (o : JOut) : Bytes := o.texts.flatten

/-! ## Documents -/

theorem parts_portable (hM : M.Lawful X N) :
    Parts M N (fun md => Portable X (.block md)) Finite64 (fun md j => Means X j (.block md)) Rounded := by
  refine ⟨fun md h => ?_, ?_, ?_⟩
  · obtain ⟨t, j, h1, -, h3, h4, -⟩ := carried_of_portable hM h
    exact ⟨t, j, h1, h3, h4⟩
  · rintro x ⟨q, hq⟩
    obtain ⟨d, r, h1, h2, h3⟩ := hM.fixed x q hq
    exact ⟨d, h1, q, r, hq, h2, h3⟩
  · intro n hn
    obtain ⟨d, h1, h2⟩ := hM.integer _ n (decimal_spec _) (by simpa using hn)
    exact ⟨d, h1, by simpa using h2⟩

/-- C56: if texts need no escaping, metadata can be carried by JSON and the times of events are finite, the recording is
written without error, as a JSON text whose value shows it: its metadata, its child recordings, its collections with the
number of their captures, and its events with their times to within a millionth. -/
theorem C56_document (hM : M.Lawful X N) {r : Rec} (h : Showable (fun md => Portable X (.block md)) Finite64 r) (depth : Nat) :
    (toJson M depth r).result = .ok none ∧ ∃ j, JText N (toJson M depth r).text j ∧
      Shows (fun md j => Means X j (.block md)) Rounded r j := by
  obtain ⟨t, j, ⟨h1, rfl⟩, h3, h4⟩ := shown_of_showable (parts_portable hM) h depth
  exact ⟨h1, j, h3, h4⟩

/-- A recording with metadata, an event, two positions and a child. -/
def shownRec : Rec :=
  .mk b!"7" b!"walk" [some (.event b!"keys" [(0x3FF0000000000000, b!"jump", [(b!"high", .bool true)])]),
      some (.position b!"Position" [(0, ⟨0, 0, 0⟩), (0x3FF0000000000000, ⟨0, 0, 0⟩)])]
    [.nil, .mk b!"8" b!"child" [] [] [] [] []] portableBlock [] []

theorem shownRec_showable {B : Block → Prop} {T : F64 → Prop} (h1 : B portableBlock) (h2 : B [(b!"high", .bool true)]) (h3 : B [])
    (h4 : T 0x3FF0000000000000) : Showable B T shownRec := by
  refine .mk (plain_word rfl) (plain_word rfl) h1 ?_ ?_
  · simp only [List.mem_cons, List.not_mem_nil, or_false, forall_eq_or_imp, forall_eq]
    refine ⟨⟨_, rfl, plain_word rfl, plain_word rfl, by simp [Coll.captures], ?_⟩, ⟨_, rfl, plain_word rfl, plain_word rfl, by simp [Coll.captures], ?_⟩⟩
    · intro name caps e
      cases e
      simp only [List.mem_cons, List.not_mem_nil, or_false, forall_eq]
      exact ⟨h4, plain_word rfl, h2⟩
    · intro name caps e
      cases e
  · simp only [List.mem_cons, List.not_mem_nil, or_false, forall_eq_or_imp, forall_eq]
    exact ⟨fun h => absurd rfl h, fun _ => .mk (plain_word rfl) (plain_word rfl) h3 (by simp) (by simp)⟩

example : Showable (fun md => Portable sampleReader (.block md)) Finite64 shownRec := by
  refine shownRec_showable portableBlock_portable (.block (by simp) (by decide) (by decide) ?_ ?_)
    (.block (by simp) (by decide) (by decide) (by simp) (by simp)) ⟨1, by decide +kernel⟩
  · simp only [List.mem_cons, List.not_mem_nil, or_false, forall_eq]
    exact utf8_ascii _ (by decide)
  · simp only [List.mem_cons, List.not_mem_nil, or_false, forall_eq]
    exact .bool

/-! ## When the output is JSON -/

/-- C56: for recordings whose texts need no escaping, what is written is JSON exactly if all metadata of the tree could be
written and all times of its events are finite. -/
theorem C56_json_iff (hM : M.Lawful X N) {r : Rec} (h : Showable (Ends M) (fun _ => True) r) (depth : Nat) :
    (∃ j, JText N (toJson M depth r).text j) ↔ Showable (Marshals M) Finite64 r := by
  constructor
  · rintro ⟨j, hj⟩
    obtain ⟨-, n, g, hs, hc⟩ := emits_rec hM (fun md t => C55_json hM) h depth
    obtain ⟨rfl, hg⟩ := scan_jtext hM hs hj
    rcases hc with ⟨-, -, hc⟩ | ⟨-, hc⟩
    · exact hc rfl hg
    · omega
  · intro h
    have hP : Parts M N (Marshals M) Finite64 (fun _ _ => True) Rounded := by
      refine ⟨fun md ⟨t, ht⟩ => ?_, (parts_portable hM).time, (parts_portable hM).count⟩
      obtain ⟨j, hj⟩ := C55_json hM ht
      exact ⟨t, j, ht, hj, trivial⟩
    obtain ⟨t, j, ⟨h1, rfl⟩, h3, h4⟩ := shown_of_showable hP h depth
    exact ⟨j, h3⟩

/-- Metadata that can be written, and metadata that cannot: a NaN. -/
example : Marshals sampleMarshal [(b!"b", .byte 31)] ∧ Ends sampleMarshal [(b!"f", .f32 0x7FC00000)] ∧
    ¬ Marshals sampleMarshal [(b!"f", .f32 0x7FC00000)] := by
  have h : (marshal sampleMarshal (.block [(b!"f", .f32 0x7FC00000)])) = GoE.fail 21 := by
    rw [marshal, marshalMembers, marshal]
    have : sampleMarshal.float32 0x7FC00000 = none := by decide +kernel
    rw [this]
    rfl
  refine ⟨⟨_, by rw [marshal, marshalMembers, marshalMembers, marshal]; rfl⟩, ⟨.error (.parse 21), by rw [h]; rfl⟩, ?_⟩
  rintro ⟨t, ht⟩
  rw [h] at ht
  exact GoE.fail_ne ht

/-! ## What is not reported -/

/-- The first error or panic. -/
def firstErr : List (Go (Option Err)) → Go (Option Err)
  | [] => .ok none
  | .ok none :: rest => firstErr rest
  | e :: _ => e

theorem seq_result : (os : List JOut) → (JOut.seq os).result = firstErr (os.map JOut.result)
  | [] => rfl
  | o :: os => by
    rw [JOut.seq, List.map_cons]
    have ih := seq_result os
    rcases h : o.result with p | (_ | e)
    · dsimp only
      rw [h, firstErr]
      simp
    · dsimp only
      rw [firstErr, ih]
    · dsimp only
      rw [h, firstErr]
      simp

theorem recs_result (depth : Nat) : (recs : List Rec) → (∀ r ∈ recs, r ≠ .nil → ∃ e, (toJson M (depth + 2) r).result = .ok e) →
    (recsJson M depth recs).result = .ok none
  | [], _ => by rw [recsJson]; rfl
  | r :: rest, h => by
    have ih := recs_result depth rest fun r hr => h r (by simp [hr])
    have hsep : (if rest.isEmpty then JOut.seq [] else .say b!",\n").result = .ok none := by split <;> rfl
    have hsay : (JOut.say b!"null").result = .ok none := rfl
    cases r with
    | nil =>
      rw [recsJson, seq_result]
      simp only [List.map_cons, List.map_nil, hsay, ih, hsep, firstErr]
    | mk id name colls recs md bins refs =>
      obtain ⟨e, he⟩ := h (.mk id name colls recs md bins refs) (by simp) (by simp)
      have : ((toJson M (depth + 2) (.mk id name colls recs md bins refs)).drop).result = .ok none := by
        rw [JOut.drop, he]
      rw [recsJson, seq_result]
      · simp only [List.map_cons, List.map_nil, ih, hsep, this, firstErr]
      · simp

/-- C56 does not hold: errors in child recordings are lost. Unless something panics, the command reports what it would
report without the children. -/
theorem C56_children_silent {id name : Bytes} {colls : List (Option Coll)} {recs : List Rec} {md : Block}
    {bins : List (Option Bin)} {refs : List (Option BinRef)} (depth : Nat)
    (h : ∀ r ∈ recs, r ≠ .nil → ∃ e, (toJson M (depth + 2) r).result = .ok e) :
    (toJson M depth (.mk id name colls recs md bins refs)).result =
      (toJson M depth (.mk id name colls [] md bins refs)).result := by
  have h1 := recs_result depth recs h
  have h2 := recs_result (M := M) depth [] (by simp)
  have h3 : ∀ (p : Bool), (if p then JOut.seq [] else .say b!"\n").result = .ok none := by intro p; split <;> rfl
  have h4 : ∀ (p : Bool), (if p then JOut.say b!"]\n" else .seq [.say b!"\n", .say (tabs (depth + 1) ++ b!"]\n")]).result = .ok none := by
    intro p; split <;> rfl
  rw [toJson, toJson, seq_result, seq_result]
  simp only [List.map_cons, List.map_nil, h1, h2, h3, h4]

/-- C56 does not hold: a recording with a child whose metadata cannot be written gives no error, and no JSON. -/
theorem C56_child_lost (hM : M.Lawful X N) {id name id' name' : Bytes} {md md' : Block} {colls' : List (Option Coll)} {recs' : List Rec}
    (h1 : PlainText id) (h2 : PlainText name) (h3 : Marshals M md)
    (hc : Showable (Ends M) (fun _ => True) (.mk id' name' colls' recs' md' [] [])) (h : ¬ Marshals M md') (depth : Nat) :
    (toJson M depth (.mk id name [] [.mk id' name' colls' recs' md' [] []] md [] [])).result = .ok none ∧
    ∀ j, ¬ JText N (toJson M depth (.mk id name [] [.mk id' name' colls' recs' md' [] []] md [] [])).text j := by
  constructor
  · rw [C56_children_silent]
    · obtain ⟨t, ht⟩ := h3
      rw [toJson, seq_result]
      have : (JOut.marshal M md fun data => .say (tabs (depth + 1) ++ b!"\"metadata\": " ++ data ++ b!",\n")).result = .ok none :=
        (says_marshal (f := fun data => .say (tabs (depth + 1) ++ b!"\"metadata\": " ++ data ++ b!",\n")) ht (says_say _)).1
      simp only [List.map_cons, List.map_nil, this]
      rw [recsJson]
      rfl
    · simp only [List.mem_cons, List.not_mem_nil, or_false, forall_eq]
      intro _
      obtain ⟨-, n, g, -, hc⟩ := emits_rec hM (fun md t => C55_json hM) hc (depth + 2)
      rcases hc with ⟨h, -⟩ | ⟨⟨e, h⟩, -⟩
      · exact ⟨_, h⟩
      · exact ⟨_, h⟩
  · intro j hj
    have hs : Showable (Ends M) (fun _ => True) (.mk id name [] [.mk id' name' colls' recs' md' [] []] md [] []) :=
      .mk h1 h2 (marshals_ends h3) (by simp) (by simpa using hc)
    have := (C56_json_iff hM hs depth).1 ⟨j, hj⟩
    cases this with
    | mk _ _ _ _ hr =>
      have := hr (.mk id' name' colls' recs' md' [] []) (by simp) (by simp)
      cases this with
      | mk _ _ hm => exact h hm

/-! ## Names -/

theorem toJson_start (depth : Nat) (id name : Bytes) (colls : List (Option Coll)) (recs : List Rec) (md : Block)
    (bins : List (Option Bin)) (refs : List (Option BinRef)) : ∃ more,
    (toJson M depth (.mk id name colls recs md bins refs)).text =
      tabs depth ++ b!"{\n" ++ (tabs (depth + 1) ++ b!"\"id\": \"" ++ id ++ b!"\",\n") ++
        (tabs (depth + 1) ++ b!"\"name\": \"" ++ name ++ b!"\",\n") ++ more := by
  have key : ∀ (b : Bytes) (os : List JOut), (JOut.seq (.say b :: os)).texts = b :: (JOut.seq os).texts := fun b os => rfl
  rw [JOut.text, toJson, key, key, key, List.flatten_cons, List.flatten_cons, List.flatten_cons, ← List.append_assoc, ← List.append_assoc]
  exact ⟨_, rfl⟩

theorem lex_str_inv (hN : NumberTexts N) {s u r : Bytes} {l : List Token} (hu : Unescapes s u) (h : Lex N (34 :: (s ++ 34 :: r)) l) :
    ∃ l', l = .str u :: l' ∧ Lex N r l' := by
  generalize e : 34 :: (s ++ 34 :: r) = t at h
  cases h with
  | nil => simp at e
  | blank hb => cases e; exact absurd hb (by decide)
  | punct hb => cases e; exact absurd hb (by decide)
  | word hw => rcases word_cases hw with rfl | rfl | rfl <;> simp at e
  | @str s' u' r' ts' hu' h =>
    simp only [List.cons.injEq, true_and] at e
    have e1 := strEnd_unescapes hu r
    rw [e, strEnd_unescapes hu' r'] at e1
    simp only [Option.some.injEq, Prod.mk.injEq] at e1
    obtain ⟨rfl, rfl⟩ := e1
    have := requote_iff.2 hu
    rw [requote_iff.2 hu', Option.some.injEq] at this
    exact ⟨_, by rw [this], h⟩
  | num hd =>
    obtain ⟨c', t', rfl, hc'⟩ := num_cons hN hd
    have e := congrArg List.head? e
    simp only [List.cons_append, List.head?_cons, Option.some.injEq] at e
    subst e
    exact absurd hc' (by decide)

theorem lex_head (hN : NumberTexts N) {c k : UInt8} {r : Bytes} {l : List Token} (h : Lex N (c :: r) (.punct k :: l)) :
    c ∈ blanks ∨ c = k := by
  generalize e : c :: r = t at h
  generalize e' : Token.punct k :: l = ts at h
  cases h with
  | nil => simp at e
  | blank hb => cases e; exact .inl hb
  | punct hb => cases e; cases e'; exact .inr rfl
  | word hw => simp at e'
  | str => simp at e'
  | num => simp at e'

theorem toks_str {j : JVal} {s : Bytes} {l r : List Token} (h : toks j ++ l = .str s :: r) : j = .str s ∧ l = r := by
  cases j <;> simp [toks] at h ⊢
  exact h

/-- After the second member follows a comma or a brace. -/
theorem second_member {j : JVal} {k1 s1 k2 s2 : Bytes} {l : List Token}
    (h : toks j = [.punct 123, .str k1, .punct 58, .str s1, .punct 44, .str k2, .punct 58] ++ (.str s2 :: l)) :
    ∃ k l', l = .punct k :: l' ∧ (k = 44 ∨ k = 125) := by
  cases j with
  | obj d =>
    rw [toks] at h
    simp only [List.cons_append, List.nil_append, List.cons.injEq, true_and] at h
    cases d with
    | nil => simp [memberToks] at h
    | cons m d =>
      obtain ⟨k, v⟩ := m
      rw [memberToks] at h
      simp only [List.cons_append, List.append_assoc, List.cons.injEq, true_and] at h
      obtain ⟨-, h⟩ := h
      obtain ⟨-, h⟩ := toks_str h
      cases d with
      | nil => simp at h
      | cons m d =>
        obtain ⟨k, v⟩ := m
        rw [memberToks] at h
        simp only [List.isEmpty_cons, Bool.false_eq_true, if_false, List.cons_append, List.append_assoc, List.cons.injEq, true_and] at h
        obtain ⟨-, h⟩ := h
        obtain ⟨-, h⟩ := toks_str h
        cases d with
        | nil => exact ⟨125, _, h.symm, .inr rfl⟩
        | cons m d =>
          simp only [List.isEmpty_cons, Bool.false_eq_true, if_false, List.cons_append] at h
          exact ⟨44, _, h.symm, .inl rfl⟩
  | _ => simp [toks] at h

/-- C56 does not hold: a name with a quote gives no JSON, unless what follows the quote is made for it: white space, a comma
or a brace. -/
theorem C56_unescaped (hM : M.Lawful X N) (depth : Nat) {id p q : Bytes} {colls : List (Option Coll)} {recs : List Rec} {md : Block}
    {bins : List (Option Bin)} {refs : List (Option BinRef)} (h1 : PlainText id) (h2 : PlainText p)
    (hq : ∀ c ∈ q.head?, c ∉ blanks ∧ c ≠ 44 ∧ c ≠ 125) (j : JVal) :
    ¬ JText N (toJson M depth (.mk id (p ++ [34] ++ q) colls recs md bins refs)).text j := by
  intro hj
  obtain ⟨more, e⟩ := toJson_start (M := M) depth id (p ++ [34] ++ q) colls recs md bins refs
  rw [e] at hj
  have hl := lex_of_text hj
  have hs : Lex N (tabs depth ++ b!"{\n" ++ (tabs (depth + 1) ++ b!"\"id\": \"" ++ id ++ b!"\",\n") ++
      (tabs (depth + 1) ++ b!"\"name\": "))
      [.punct 123, .str b!"id", .punct 58, .str id, .punct 44, .str b!"name", .punct 58] := by
    have := lex_blank (blank_tabs depth) (Lex.punct (N := N) (c := 123) (by decide) (lex_blank blank_lf
      (lex_blank (blank_tabs (depth + 1)) (Lex.str (plain_text (s := b!"id") (plain_word rfl)) (Lex.punct (c := 58) (by decide)
      (lex_blank blank_space (Lex.str (plain_text h1) (Lex.punct (c := 44) (by decide) (lex_blank blank_lf
      (lex_blank (blank_tabs (depth + 1)) (Lex.str (plain_text (s := b!"name") (plain_word rfl)) (Lex.punct (c := 58) (by decide)
      (lex_blank blank_space .nil)))))))))))))
    simpa using this
  have e2 : tabs depth ++ b!"{\n" ++ (tabs (depth + 1) ++ b!"\"id\": \"" ++ id ++ b!"\",\n") ++
        (tabs (depth + 1) ++ b!"\"name\": \"" ++ (p ++ [34] ++ q) ++ b!"\",\n") ++ more =
      (tabs depth ++ b!"{\n" ++ (tabs (depth + 1) ++ b!"\"id\": \"" ++ id ++ b!"\",\n") ++
      (tabs (depth + 1) ++ b!"\"name\": ")) ++ (34 :: (p ++ 34 :: (q ++ (b!"\",\n" ++ more)))) := by simp
  rw [e2] at hl
  obtain ⟨l, e3, hl⟩ := lex_split hM.numbers hs (delim_cons (by decide)) hl
  obtain ⟨l, rfl, hl2⟩ := lex_str_inv hM.numbers (plain_text h2) hl
  obtain ⟨c, r, hc, hq⟩ : ∃ c r, q ++ (b!"\",\n" ++ more) = c :: r ∧ c ∉ blanks ∧ c ≠ 44 ∧ c ≠ 125 := by
    cases q with
    | nil => exact ⟨34, _, rfl, by decide, by decide, by decide⟩
    | cons c q => exact ⟨c, _, rfl, hq c (by simp)⟩
  rw [hc] at hl2
  obtain ⟨k, l', rfl, hk⟩ := second_member e3
  rcases lex_head hM.numbers hl2 with h | h
  · exact hq.1 h
  · rcases hk with rfl | rfl
    · exact hq.2.1 h
    · exact hq.2.2 h

/-- `say "hi"` -/
example : PlainText b!"say " ∧ ∀ c ∈ (b!"hi\"").head?, c ∉ blanks ∧ c ≠ 44 ∧ c ≠ 125 := by
  refine ⟨plain_word rfl, ?_⟩
  simp only [List.head?_cons, Option.mem_def, Option.some.injEq, forall_eq']
  decide

/-- C56 does not hold: a name can bring members of its own. The document of a recording named `a", "k": "v` has the name a
and a further member. -/
theorem C56_injected (hM : M.Lawful X N) (depth : Nat) {id a k v : Bytes} {colls : List (Option Coll)} {recs : List Rec}
    {md : Block} {bins : List (Option Bin)} {refs : List (Option BinRef)} (h : ∀ s ∈ [id, a, k, v], PlainText s)
    (hr : Showable (fun md => Portable X (.block md)) Finite64 (.mk id [] colls recs md bins refs)) :
    ∃ more, JText N (toJson M depth (.mk id (a ++ b!"\", \"" ++ k ++ b!"\": \"" ++ v) colls recs md bins refs)).text
      (.obj ([(b!"id", .str id), (b!"name", .str a), (k, .str v)] ++ more)) := by
  cases hr with
  | mk _ _ h3 h4 h5 =>
    simp only [List.mem_cons, List.not_mem_nil, or_false, forall_eq_or_imp, forall_eq] at h
    obtain ⟨g1, g2, g3, g4⟩ := h
    have hP := parts_portable hM
    have hb : Blank (b!"\n" ++ tabs (depth + 1)) := blank_append blank_lf (blank_tabs _)
    obtain ⟨t, m, cs, rs, ⟨-, rfl⟩, k2, -⟩ := rec_text (name := a ++ b!"\", \"" ++ k ++ b!"\": \"" ++ v) (bins := bins) (refs := refs) hP g1 h3 h4
      (fun r hr hn => shown_of_showable hP (h5 r hr hn)) depth
      [(b!"\n" ++ tabs (depth + 1) ++ [34] ++ b!"name" ++ [34] ++ [], b!" " ++ ([34] ++ a ++ [34]) ++ []),
       (b!" " ++ [34] ++ k ++ [34] ++ [], b!" " ++ ([34] ++ v ++ [34]) ++ [])]
      [(b!"name", .str a), (k, .str v)] (by simp) (by simp [commas])
      (.cons (plain_key hb (plain_word rfl) blank_nil) (.cons (plain_key blank_space g3 blank_nil) .nil))
      (.cons (plain_value blank_space g2 blank_nil) (.cons (plain_value blank_space g4 blank_nil) .nil))
    exact ⟨_, k2⟩

/-- The name `a", "name": "b`. -/
example : ∀ s ∈ [b!"1", b!"a", b!"name", b!"b"], PlainText s := by
  simp only [List.mem_cons, List.not_mem_nil, or_false, forall_eq_or_imp, forall_eq]
  exact ⟨plain_word rfl, plain_word rfl, plain_word rfl, plain_word rfl⟩

/-! ## The command -/

theorem emit_buf : (l : List Bytes) → (out : Buf) → (emit l out).bytes = out.bytes ++ l.flatten
  | [], out => by simp [emit]
  | b :: bs, out => by
    rw [emit, emit_buf bs]
    simp [Snk.write]

/-- C56: the command writes the document of the recording it loaded. -/
theorem C56_command (hM : M.Lawful X N) {σ : Type} [Drain σ] {F : Flate} {E : Ext} {unmarshal : Bytes → Except Err V1.Recording}
    {s s' : σ} {r : Rec} {n : Nat} (hl : load F E unmarshal s = .ok ((r, n, none), s'))
    (h : Showable (fun md => Portable X (.block md)) Finite64 r) :
    ∃ out : Buf, toJsonCmd M F E unmarshal s (⟨[]⟩ : Buf) = .ok (none, out) ∧ ∃ j, JText N out.bytes j ∧
      Shows (fun md j => Means X j (.block md)) Rounded r j := by
  obtain ⟨h1, j, h2, h3⟩ := C56_document hM h 0
  refine ⟨emit (toJson M 0 r).texts ⟨[]⟩, ?_, j, ?_, h3⟩
  · rw [toJsonCmd, hl]
    cases h with
    | mk =>
      show ((toJson M 0 _).result >>= _) = _
      rw [h1]
      rfl
  · rw [emit_buf, List.nil_append]
    exact h2

/-- C56 does not hold: errors of the output are lost. What the command reports does not depend on the output. -/
theorem C56_output_ignored {σ τ τ' : Type} [Drain σ] [Snk τ] [Snk τ'] {F : Flate} {E : Ext}
    {unmarshal : Bytes → Except Err V1.Recording} (s : σ) (out : τ) (out' : τ') :
    (toJsonCmd M F E unmarshal s out).map Prod.fst = (toJsonCmd M F E unmarshal s out').map Prod.fst := by
  rw [toJsonCmd, toJsonCmd]
  cases load F E unmarshal s with
  | error p => rfl
  | ok v =>
    obtain ⟨⟨r, n, err⟩, s'⟩ := v
    cases err with
    | some e => rfl
    | none =>
      cases r with
      | nil => rfl
      | mk id name colls recs md bins refs =>
        show (((toJson M 0 _).result >>= _ : Go _).map _) = ((toJson M 0 _).result >>= _ : Go _).map _
        cases (toJson M 0 (.mk id name colls recs md bins refs)).result <;> rfl

/-- C56: if the file cannot be read, its error is the command's and nothing is written; success means that the file was read. -/
theorem C56_unreadable {σ τ : Type} [Drain σ] [Snk τ] {F : Flate} {E : Ext} {unmarshal : Bytes → Except Err V1.Recording}
    (s : σ) (out : τ) :
    (∀ r n e s', load F E unmarshal s = .ok ((r, n, some e), s') → toJsonCmd M F E unmarshal s out = .ok (some e, out)) ∧
    ∀ out', toJsonCmd M F E unmarshal s out = .ok (none, out') →
      ∃ r n s', load F E unmarshal s = .ok ((r, n, none), s') ∧ r ≠ .nil := by
  constructor
  · intro r n e s' h
    rw [toJsonCmd, h]; rfl
  · intro out' h
    rw [toJsonCmd] at h
    cases hl : load F E unmarshal s with
    | error p => rw [hl] at h; cases h
    | ok v =>
      obtain ⟨⟨r, n, err⟩, s'⟩ := v
      rw [hl] at h
      cases err with
      | some e => cases h
      | none =>
        cases r with
        | nil => cases h
        | mk => exact ⟨_, n, s', rfl, by simp⟩

/-- An empty file cannot be read. -/
example : ∃ r n e s', load storeFlate oneExt (fun _ => .error .eof) (⟨[], .eof⟩ : Flat) = .ok ((r, n, some e), s') :=
  ⟨_, _, _, _, rfl⟩

/-- C56: a nil collection panics. -/
theorem C56_nil_collection {id name : Bytes} {colls : List (Option Coll)} {recs : List Rec} {md : Block}
    {bins : List (Option Bin)} {refs : List (Option BinRef)} (h : Marshals M md) (depth : Nat) :
    (toJson M depth (.mk id name (none :: colls) recs md bins refs)).result = .error .nilDeref := by
  obtain ⟨t, ht⟩ := h
  have : (JOut.marshal M md fun data => .say (tabs (depth + 1) ++ b!"\"metadata\": " ++ data ++ b!",\n")).result = .ok none :=
    (says_marshal (f := fun data => .say (tabs (depth + 1) ++ b!"\"metadata\": " ++ data ++ b!",\n")) ht (says_say _)).1
  rw [toJson, seq_result]
  simp only [List.map_cons, List.map_nil, this]
  rfl

example : Marshals sampleMarshal [] := ⟨_, by rw [marshal, marshalMembers]; rfl⟩

/-! ## Back from JSON -/

/-- No collections, binaries, references or nil child recordings. -/
inductive Bare : Rec → Prop
  | mk {id name : Bytes} {recs : List Rec} {md : Block} : (∀ r ∈ recs, Bare r) → Bare (.mk id name [] recs md [] [])

theorem properItems_iff : (l : List JVal) → (properItems l ↔ ∀ v ∈ l, v.Proper)
  | [] => by simp [properItems]
  | v :: l => by simp [properItems, properItems_iff l]

theorem properMembers_iff : (l : List (Bytes × JVal)) → (properMembers l ↔ ∀ v ∈ l.map (·.2), v.Proper)
  | [] => by simp [properMembers]
  | (k, v) :: l => by
    rw [properMembers, properMembers_iff l]
    simp

theorem proper_of_means {j : JVal} {p : Property} (h : Means X j p) : j.Proper := by
  refine Means.rec (motive_1 := fun j p _ => j.Proper) (motive_2 := fun l ps _ => ∀ v ∈ l, v.Proper)
    ?int ?float ?bool ?byte ?binary ?time ?text ?vec2 ?vec3 ?block ?bools ?array (by simp) ?cons h
  case cons => intro a b l1 l2 _ _ h1 h2; simpa using ⟨h1, h2⟩
  case vec2 =>
    intro d x y h
    have hk := h.map (·.1)
    rw [JVal.Proper, properMembers_iff]
    refine ⟨hk.nodup_iff.2 (by simp), fun v hv => ?_⟩
    have := (h.map (·.2)).mem_iff.1 hv
    simp at this
    rcases this with rfl | rfl <;> simp [JVal.Proper]
  case vec3 =>
    intro d x y z h
    have hk := h.map (·.1)
    rw [JVal.Proper, properMembers_iff]
    refine ⟨hk.nodup_iff.2 (by simp), fun v hv => ?_⟩
    have := (h.map (·.2)).mem_iff.1 hv
    simp at this
    rcases this with rfl | rfl | rfl <;> simp [JVal.Proper]
  case block =>
    intro d kvs h1 _ _ _ _ ih
    rw [JVal.Proper, properMembers_iff]
    exact ⟨h1, ih⟩
  case bools =>
    intro bs _
    rw [JVal.Proper, properItems_iff]
    intro v hv
    obtain ⟨b, -, rfl⟩ := List.mem_map.1 hv
    simp [JVal.Proper]
  case array =>
    intro items props c _ _ _ _ ih
    rw [JVal.Proper, properItems_iff]
    exact ih
  all_goals intros; simp [JVal.Proper]

theorem means_obj {j : JVal} {md : Block} (h : Means X j (.block md)) : ∃ m, j = .obj m := by
  cases h with
  | block => exact ⟨_, rfl⟩

theorem describes_of_shows {Q : F64 → F64 → Prop} {r : Rec} {j : JVal} (hb : Bare r)
    (h : Shows (fun md j => Means X j (.block md)) Q r j) : Describes (documentReading X) j r ∧ j.Proper := by
  induction hb generalizing j with
  | @mk id name recs md hbs ih =>
    clear hbs
    generalize e : Rec.mk id name [] recs md [] [] = r at h
    cases h with
    | nil => simp at e
    | @mk _ _ _ _ _ _ _ m cs rs h1 h2 h3 =>
      cases e
      cases h2
      obtain ⟨m, rfl⟩ := means_obj h1
      have hrs : List.Forall₂ (fun j r => Describes (documentReading X) j r ∧ j.Proper) rs recs := by
        clear h1
        induction h3 with
        | nil => exact .nil
        | cons h _ ih' => exact .cons (ih _ (by simp) h) (ih' fun r hr => ih r (by simp [hr]))
      constructor
      · exact .mk (by simp) (by simp) (.inl (by simp)) (hrs.imp fun _ _ h => h.1) (.inl ⟨m, by simp, h1⟩)
          (refNodes := []) (refs := []) (.inr ⟨rfl, by simp⟩) .nil (collNodes := []) (colls := []) (.inl (by simp)) .nil
      · rw [JVal.Proper, properMembers_iff]
        refine ⟨by simp, ?_⟩
        simp only [List.map_cons, List.map_nil, List.mem_cons, List.not_mem_nil, or_false, forall_eq_or_imp, forall_eq]
        refine ⟨by simp [JVal.Proper], by simp [JVal.Proper], proper_of_means h1, by simp [JVal.Proper, properItems], ?_⟩
        rw [JVal.Proper, properItems_iff]
        intro v hv
        clear h1 ih h3
        induction hrs with
        | nil => simp at hv
        | cons h _ ih =>
          rcases List.mem_cons.1 hv with rfl | hv
          · exact h.2
          · exact ih hv

/-- C56: recordings without collections, binaries, references and nil child recordings come back from their documents (of
which there is one value). -/
theorem C56_back_partial (hX : X.Lawful) (hM : M.Lawful X N) {r : Rec} (hb : Bare r)
    (h : Showable (fun md => Portable X (.block md)) Finite64 r) (depth : Nat) :
    (toJson M depth r).result = .ok none ∧ (∃ j, JText N (toJson M depth r).text j) ∧
    ∀ j, JText N (toJson M depth r).text j → fromJSON X (.ok j) = pure r := by
  obtain ⟨h1, j, h2, h3⟩ := C56_document hM h depth
  obtain ⟨h4, h5⟩ := describes_of_shows hb h3
  refine ⟨h1, ⟨j, h2⟩, fun j' hj' => ?_⟩
  rw [← C55_one_value hM h2 hj']
  exact C50_accepted hX h5 h4

/-- A recording with a child. -/
example : Bare (.mk b!"1" b!"a" [] [.mk b!"2" b!"b" [] [] [] [] []] portableBlock [] []) :=
  .mk (by simp only [List.mem_cons, List.not_mem_nil, or_false, forall_eq]; exact .mk (by simp))

/-- C56 does not hold: the document of a recording with a collection is never accepted by the JSON reader. (Collections
are written with a signature; the reader looks for their type.) -/
theorem C56_not_back (hX : X.Lawful) (hM : M.Lawful X N) {id name : Bytes} {colls : List (Option Coll)} {recs : List Rec}
    {md : Block} {bins : List (Option Bin)} {refs : List (Option BinRef)} (hc : colls ≠ [])
    (h : Showable (Marshals M) Finite64 (.mk id name colls recs md bins refs)) (depth : Nat) :
    (∃ j, JText N (toJson M depth (.mk id name colls recs md bins refs)).text j) ∧
    ∀ j r, JText N (toJson M depth (.mk id name colls recs md bins refs)).text j → fromJSON X (.ok j) ≠ pure r := by
  have hP : Parts M N (Marshals M) Finite64 (fun _ _ => True) Rounded := by
    refine ⟨fun md ⟨t, ht⟩ => ?_, (parts_portable hM).time, (parts_portable hM).count⟩
    obtain ⟨j, hj⟩ := C55_json hM ht
    exact ⟨t, j, ht, hj, trivial⟩
  obtain ⟨t, j, ⟨h1, rfl⟩, h3, h4⟩ := shown_of_showable hP h depth
  refine ⟨⟨j, h3⟩, fun j' r hj' hf => ?_⟩
  rw [← C55_one_value hM h3 hj'] at hf
  have hd := C50_parsed hX hf
  cases h4 with
  | @mk _ _ _ _ _ _ _ m cs rs g1 g2 g3 =>
    cases hd with
    | mk _ _ _ _ _ _ _ k1 k2 =>
      rcases k1 with k1 | ⟨-, k1⟩
      · simp at k1
        subst k1
        cases g2 with
        | nil => exact hc rfl
        | cons g =>
          obtain ⟨c, -, n, more, rfl, -, g⟩ := g
          cases k2 with
          | cons k =>
            obtain ⟨d, items, k3, -, k4, -⟩ := k
            cases k3
            cases c with
            | event =>
              obtain ⟨items, rfl, -⟩ := g
              simp at k4
            | other =>
              dsimp only at g
              subst g
              split at k4 <;> simp at k4
            | _ =>
              dsimp only at g
              subst g
              simp at k4
      · exact k1 (.arr cs) (by simp)

example : Showable (Marshals sampleMarshal) Finite64 shownRec := by
  refine shownRec_showable ?_ ⟨_, by rw [marshal, marshalMembers, marshalMembers, marshal]; rfl⟩ ⟨_, by rw [marshal, marshalMembers]; rfl⟩
    ⟨1, by decide +kernel⟩
  obtain ⟨t, h, -⟩ := C55_roundtrip_partial sampleReader_lawful sampleMarshal_lawful portableBlock_portable
  exact ⟨t, h⟩

end Rap
