import Verif.Proof.Tree

/-! # Which encoder gets which collection -/

namespace Rap

/-- The collections of a mapping with their stream numbers. -/
def Mapping.pairs (m : Mapping) : List (Coll × Nat) := m.colls.zip m.order

theorem pickStreams_spec (e : Encoder) (i : Nat) (flags : List (Coll × Bool)) :
    (pickStreams e i flags).1.length = (pickStreams e i flags).2.1.length ∧
    (pickStreams e i flags).1.zip (pickStreams e i flags).2.1 =
      ((flags.zipIdx i).filter fun x => !x.1.2 && e.accepts x.1.1).map (fun x => (x.1.1, x.2)) ∧
    (pickStreams e i flags).2.2 = flags.map fun x => (x.1, x.2 || e.accepts x.1) := by
  induction flags generalizing i with
  | nil => simp [pickStreams]
  | cons x flags ih =>
    obtain ⟨c, sat⟩ := x
    obtain ⟨h1, h2, h3⟩ := ih (i + 1)
    simp only [pickStreams, List.zipIdx_cons, List.filter_cons, List.map_cons]
    cases sat <;> cases ha : e.accepts c <;> simp [h1, h2, h3]

theorem filter_zipIdx_map (cs : List Coll) (f : Coll → Bool) (q : Bool → Coll → Bool) (i : Nat) :
    (((cs.map fun c => (c, f c)).zipIdx i).filter fun x => q x.1.2 x.1.1).map (fun x => (x.1.1, x.2)) =
      (cs.zipIdx i).filter fun p => q (f p.1) p.1 := by
  induction cs generalizing i with
  | nil => rfl
  | cons c cs ih =>
    simp only [List.map_cons, List.zipIdx_cons, List.filter_cons]
    cases q (f c) c <;> simp [ih]

theorem find_append_none {encs es : List Encoder} {e : Encoder} {c : Coll}
    (h1 : encs.any (fun e => e.accepts c) = false) (h2 : e.accepts c = true) :
    (encs ++ e :: es).find? (fun e => e.accepts c) = some e := by
  rw [List.find?_append]
  have : encs.find? (fun e => e.accepts c) = none := by
    rw [List.find?_eq_none]
    intro x hx hxa
    rw [List.any_eq_false] at h1
    exact h1 x hx hxa
  rw [this]
  simp [h2]

theorem perm_filter_split {α : Type} (l : List α) (q r : α → Bool) :
    ((l.filter fun x => q x && r x) ++ (l.filter fun x => q x && !r x)).Perm (l.filter q) := by
  have := List.filter_append_perm r (l.filter q)
  simp only [List.filter_filter] at this
  have e1 : (fun x => q x && r x) = fun a => r a && q a := by funext x; rw [Bool.and_comm]
  have e2 : (fun x => q x && !r x) = fun a => !r a && q a := by funext x; rw [Bool.and_comm]
  rw [e1, e2]
  exact this

theorem ownMappings_spec (es pre : List Encoder) (offset : Nat) (cs : List Coll) :
    let r := ownMappings es offset (cs.map fun c => (c, pre.any fun e => e.accepts c))
    r.2 = (cs.map fun c => (c, (pre ++ es).any fun e => e.accepts c)) ∧
    (∀ m ∈ r.1, m.encoder ∈ es ∧ m.colls.length = m.order.length ∧ m.colls ≠ [] ∧
      ∀ c ∈ m.colls, (pre.any fun e => e.accepts c) = false ∧
        (pre ++ es).find? (fun e => e.accepts c) = some m.encoder) ∧
    r.1.Pairwise (fun m m' => ∀ c ∈ m'.colls, m.encoder.accepts c = false) ∧
    (r.1.flatMap Mapping.pairs).Perm ((cs.zipIdx offset).filter fun p =>
      !(pre.any fun e => e.accepts p.1) && es.any fun e => e.accepts p.1) := by
  induction es generalizing pre with
  | nil => simp [ownMappings]
  | cons e es ih =>
    obtain ⟨p1, p2, p3⟩ := pickStreams_spec e offset (cs.map fun c => (c, pre.any fun e => e.accepts c))
    rw [filter_zipIdx_map cs (fun c => pre.any fun e => e.accepts c) (fun b c => !b && e.accepts c)] at p2
    have hflags : (pickStreams e offset (cs.map fun c => (c, pre.any fun e => e.accepts c))).2.2 =
        cs.map fun c => (c, (pre ++ [e]).any fun e => e.accepts c) := by
      rw [p3, List.map_map]; simp [Function.comp_def]
    obtain ⟨i1, i2, i3, i4⟩ := ih (pre ++ [e])
    rw [← hflags] at i1 i2 i3 i4
    have happ : pre ++ [e] ++ es = pre ++ e :: es := by simp
    rw [happ] at i1 i2
    simp only [ownMappings]
    generalize pickStreams e offset (cs.map fun c => (c, pre.any fun e => e.accepts c)) = ps at *
    obtain ⟨cs1, os1, flags1⟩ := ps
    simp only at *
    generalize ownMappings es offset flags1 = r at *
    obtain ⟨ms, flags2⟩ := r
    simp only at *
    -- what the mapping of `e` holds
    have hmine : ∀ c ∈ cs1, (pre.any fun e => e.accepts c) = false ∧ e.accepts c = true := by
      intro c hc
      obtain ⟨t, ht, rfl⟩ := List.getElem_of_mem hc
      have hmem : (cs1[t], os1[t]'(p1 ▸ ht)) ∈ cs1.zip os1 := by
        rw [List.mem_iff_getElem]
        exact ⟨t, by simp [← p1, ht], by simp⟩
      rw [p2, List.mem_filter] at hmem
      simpa using hmem.2
    have hperm : (cs1.zip os1 ++ ms.flatMap Mapping.pairs).Perm ((cs.zipIdx offset).filter fun p =>
        !(pre.any fun e => e.accepts p.1) && (e :: es).any fun e => e.accepts p.1) := by
      rw [p2]
      refine (List.Perm.append (List.Perm.refl _) i4).trans ?_
      have := perm_filter_split (cs.zipIdx offset)
        (fun p => !(pre.any fun e => e.accepts p.1) && (e :: es).any fun e => e.accepts p.1)
        (fun p => e.accepts p.1)
      refine List.Perm.trans (List.Perm.of_eq ?_) this
      congr 1
      · apply List.filter_congr
        intro p _
        simp only [List.any_cons]
        cases e.accepts p.1 <;> simp
      · apply List.filter_congr
        intro p _
        simp only [List.any_cons, List.any_append, List.any_nil]
        cases e.accepts p.1 <;> simp
    refine ⟨i1, ?_, ?_, ?_⟩
    · intro m hm
      have hm' : m = ⟨e, cs1, os1⟩ ∧ cs1 ≠ [] ∨ m ∈ ms := by
        split at hm
        · exact Or.inr hm
        · rename_i hne
          rcases List.mem_cons.1 hm with h | h
          · exact Or.inl ⟨h, by simpa using hne⟩
          · exact Or.inr h
      rcases hm' with ⟨rfl, hne⟩ | hm'
      · refine ⟨by simp, p1, hne, fun c hc => ?_⟩
        obtain ⟨h1, h2⟩ := hmine c hc
        exact ⟨h1, find_append_none h1 h2⟩
      · obtain ⟨g1, g2, g3, g4⟩ := i2 m hm'
        refine ⟨by simp [g1], g2, g3, fun c hc => ?_⟩
        obtain ⟨h1, h2⟩ := g4 c hc
        refine ⟨?_, h2⟩
        rw [List.any_append] at h1
        exact (Bool.or_eq_false_iff.1 h1).1
    · split
      · exact i3
      · rw [List.pairwise_cons]
        refine ⟨fun m hm c hc => ?_, i3⟩
        have := ((i2 m hm).2.2.2 c hc).1
        rw [List.any_append] at this
        simpa using (Bool.or_eq_false_iff.1 this).2
    · split
      · rename_i he
        rw [List.isEmpty_iff] at he
        subst he
        simpa using hperm
      · rw [List.flatMap_cons]
        exact hperm

/-- What is known of a list of mappings covering the numbered collections `ps`. -/
def MapInv (encs : List Encoder) (ms : List Mapping) (ps : List (Coll × Nat)) : Prop :=
  (ms.map fun m => m.encoder.sig).Nodup ∧
  (∀ m ∈ ms, m.colls.length = m.order.length ∧ m.colls ≠ [] ∧ ∀ c ∈ m.colls, chosen encs c = some m.encoder) ∧
  (ms.flatMap Mapping.pairs).Perm ps

theorem own_inv {encs : List Encoder} (hsd : SigDetermines encs) (offset : Nat) (cs : List Coll)
    (hall : ∀ c ∈ cs, (chosen encs c).isSome) :
    MapInv encs (ownMappings encs offset (cs.map fun c => (c, false))).1 (cs.zipIdx offset) := by
  have := ownMappings_spec encs [] offset cs
  simp only [List.any_nil, List.nil_append] at this
  obtain ⟨_, h2, h3, h4⟩ := this
  refine ⟨?_, fun m hm => ⟨(h2 m hm).2.1, (h2 m hm).2.2.1, fun c hc => ((h2 m hm).2.2.2 c hc).2⟩, ?_⟩
  · rw [List.Nodup, List.pairwise_map]
    refine List.Pairwise.imp_of_mem ?_ h3
    intro m m' hm hm' hacc heq
    obtain ⟨_, _, hne, hch⟩ := h2 m hm
    obtain ⟨_, _, hne', hch'⟩ := h2 m' hm'
    obtain ⟨c, hc⟩ := List.exists_mem_of_ne_nil _ hne
    obtain ⟨c', hc'⟩ := List.exists_mem_of_ne_nil _ hne'
    have he := hsd c c' _ _ (hch c hc).2 (hch' c' hc').2 heq
    have h5 := List.find?_some (hch' c' hc').2
    rw [← he, hacc c' hc'] at h5
    exact absurd h5 (by simp)
  · refine h4.trans (List.Perm.of_eq ?_)
    rw [List.filter_eq_self]
    intro p hp
    simp only [Bool.not_false, Bool.true_and]
    have := hall p.1 (by
      have := List.mem_zipIdx hp
      rw [this.2.2]; exact List.getElem_mem _)
    rw [chosen, List.find?_isSome] at this
    rw [List.any_eq_true]; exact this

theorem merge_inv {encs : List Encoder} (hsd : SigDetermines encs) {ms : List Mapping} {ps : List (Coll × Nat)}
    (hi : MapInv encs ms ps) (m : Mapping) (hl : m.colls.length = m.order.length) (hne : m.colls ≠ [])
    (hch : ∀ c ∈ m.colls, chosen encs c = some m.encoder) :
    MapInv encs (mergeMapping ms m) (ps ++ m.pairs) := by
  obtain ⟨h1, h2, h3⟩ := hi
  unfold mergeMapping
  split
  · rename_i hany
    have hsame : ∀ o ∈ ms, o.encoder.sig = m.encoder.sig → o.encoder = m.encoder := by
      intro o ho hs
      obtain ⟨_, g2, g3⟩ := h2 o ho
      obtain ⟨c, hc⟩ := List.exists_mem_of_ne_nil _ g2
      obtain ⟨c', hc'⟩ := List.exists_mem_of_ne_nil _ hne
      exact hsd c c' _ _ (g3 c hc) (hch c' hc') hs
    refine ⟨?_, ?_, ?_⟩
    · rw [List.map_map]
      have : (ms.map ((fun m => m.encoder.sig) ∘ fun o =>
          if (o.encoder.sig == m.encoder.sig) = true then
            { o with colls := o.colls ++ m.colls, order := o.order ++ m.order } else o)) =
          ms.map fun m => m.encoder.sig := by
        apply List.map_congr_left
        intro o _
        simp only [Function.comp_apply]
        split <;> rfl
      rw [this]; exact h1
    · intro o ho
      obtain ⟨o', ho', rfl⟩ := List.mem_map.1 ho
      obtain ⟨g1, g2, g3⟩ := h2 o' ho'
      split
      · rename_i hs
        have hs' : o'.encoder.sig = m.encoder.sig := by simpa using hs
        refine ⟨by simp [g1, hl], by simp [hne], fun c hc => ?_⟩
        simp only [List.mem_append] at hc
        rcases hc with hc | hc
        · exact g3 c hc
        · rw [hch c hc, hsame o' ho' hs']
      · exact ⟨g1, g2, g3⟩
    · refine List.Perm.trans ?_ (List.Perm.append h3 (List.Perm.refl _))
      clear h3
      induction ms with
      | nil => simp at hany
      | cons o ms ih =>
        simp only [List.map_cons, List.nodup_cons] at h1
        simp only [List.map_cons, List.flatMap_cons]
        have hzip : (o.colls ++ m.colls).zip (o.order ++ m.order) = o.pairs ++ m.pairs :=
          List.zip_append ((h2 o (by simp)).1)
        by_cases hs : o.encoder.sig = m.encoder.sig
        · have hrest : ms.map (fun o => if (o.encoder.sig == m.encoder.sig) = true then
              { o with colls := o.colls ++ m.colls, order := o.order ++ m.order } else o) = ms := by
            conv => rhs; rw [← List.map_id ms]
            apply List.map_congr_left
            intro o' ho'
            rw [if_neg, id]
            intro hs'
            have hs'' : o'.encoder.sig = m.encoder.sig := by simpa using hs'
            exact h1.1 (List.mem_map.2 ⟨o', ho', hs''.trans hs.symm⟩)
          rw [hrest, if_pos (by simpa using hs)]
          show ((o.colls ++ m.colls).zip (o.order ++ m.order) ++ _).Perm _
          rw [hzip, List.append_assoc, List.append_assoc]
          exact List.Perm.append (List.Perm.refl _) List.perm_append_comm
        · rw [if_neg (by simpa using hs), List.append_assoc]
          refine List.Perm.append (List.Perm.refl _) (ih h1.2 (fun o ho => h2 o (by simp [ho])) ?_
            (fun o ho => hsame o (by simp [ho])))
          simp only [List.any_cons, Bool.or_eq_true] at hany
          rcases hany with h | h
          · exact absurd (by simpa using h) hs
          · exact h
  · rename_i hany
    refine ⟨?_, ?_, ?_⟩
    · rw [List.map_append, List.nodup_append]
      refine ⟨h1, by simp, ?_⟩
      intro a ha b hb hab
      simp only [List.map_cons, List.map_nil, List.mem_singleton] at hb
      obtain ⟨o, ho, rfl⟩ := List.mem_map.1 ha
      apply hany
      rw [List.any_eq_true]
      exact ⟨o, ho, by simp [hab, hb]⟩
    · intro o ho
      rcases List.mem_append.1 ho with ho | ho
      · exact h2 o ho
      · rw [List.mem_singleton] at ho; subst ho; exact ⟨hl, hne, hch⟩
    · rw [List.flatMap_append]
      simp only [List.flatMap_cons, List.flatMap_nil, List.append_nil]
      exact List.Perm.append h3 (List.Perm.refl _)

theorem merge_all_inv {encs : List Encoder} (hsd : SigDetermines encs) (childMs : List Mapping) {ms : List Mapping}
    {ps : List (Coll × Nat)} (hi : MapInv encs ms ps)
    (hc : ∀ m ∈ childMs, m.colls.length = m.order.length ∧ m.colls ≠ [] ∧
      ∀ c ∈ m.colls, chosen encs c = some m.encoder) :
    MapInv encs (childMs.foldl mergeMapping ms) (ps ++ childMs.flatMap Mapping.pairs) := by
  induction childMs generalizing ms ps with
  | nil => simpa using hi
  | cons m childMs ih =>
    obtain ⟨h1, h2, h3⟩ := hc m (by simp)
    have := ih (merge_inv hsd hi m h1 h2 h3) (fun m hm => hc m (by simp [hm]))
    simpa [List.flatMap_cons, List.append_assoc] using this

theorem allSome_eq {α : Type} {l : List (Option α)} {as : List α} (h : allSome l = some as) : l = as.map some := by
  induction l generalizing as with
  | nil => simp only [allSome, Option.some.injEq] at h; subst h; rfl
  | cons a l ih =>
    cases a with
    | none => simp [allSome] at h
    | some a =>
      cases hl : allSome l with
      | none => simp [allSome, hl] at h
      | some as' =>
        simp only [allSome, hl, Option.some.injEq] at h
        subst h
        rw [ih hl]; rfl

theorem allSome_map {α : Type} (as : List α) : allSome (as.map some) = some as := by
  induction as with
  | nil => rfl
  | cons a as ih => simp [allSome, ih]

theorem own_flags (encs : List Encoder) (offset : Nat) (cs : List Coll) :
    ((ownMappings encs offset (cs.map fun c => (c, false))).2.any fun f => !f.2) = false ↔
      ∀ c ∈ cs, (chosen encs c).isSome := by
  have := (ownMappings_spec encs [] offset cs).1
  simp only [List.any_nil, List.nil_append] at this
  rw [this, List.any_eq_false]
  simp only [List.mem_map, forall_exists_index, and_imp, Bool.not_eq_true, Bool.not_eq_false', chosen]
  constructor
  · intro h c hc
    have := h _ c hc rfl
    rw [List.find?_isSome]
    simpa using this
  · intro h x c hc hx
    subst hx
    have := h c hc
    rw [List.find?_isSome] at this
    simpa using this

mutual
theorem evaluate_inv {encs : List Encoder} (hsd : SigDetermines encs) :
    (rec : Rec) → (offset : Nat) → (ms : List Mapping) → (off' : Nat) →
      evaluateCollections encs rec offset = .ok (.ok (ms, off')) →
      off' = offset + rec.flat.length ∧ MapInv encs ms (rec.flat.zipIdx offset)
  | .nil, offset, ms, off', h => by simp [evaluateCollections] at h
  | .mk id name colls recs md bins refs, offset, ms, off', h => by
    simp only [evaluateCollections] at h
    cases ha : allSome colls with
    | none => simp [ha] at h
    | some cs =>
      rw [ha] at h
      simp only at h
      rcases ho : ownMappings encs offset (cs.map fun c => (c, false)) with ⟨oms, flags⟩
      rw [ho] at h
      simp only at h
      split at h
      · simp at h
      rename_i hflags
      have hall : ∀ c ∈ cs, (chosen encs c).isSome := by
        rw [← own_flags encs offset cs, ho]
        simpa using hflags
      have hinv := own_inv hsd offset cs hall
      rw [ho] at hinv
      have hcl := allSome_eq ha
      have hlen : colls.length = cs.length := by rw [hcl, List.length_map]
      rw [hlen] at h
      obtain ⟨h1, h2⟩ := evaluateChildren_inv hsd recs oms (offset + cs.length) ms off' (cs.zipIdx offset) hinv h
      have hflat : (Rec.mk id name colls recs md bins refs).flat = cs ++ Rec.flatList recs := by
        rw [Rec.flat, hcl, flat_some]
      rw [hflat, List.zipIdx_append, List.length_append]
      exact ⟨by omega, h2⟩
theorem evaluateChildren_inv {encs : List Encoder} (hsd : SigDetermines encs) :
    (recs : List Rec) → (ms0 : List Mapping) → (offset : Nat) → (ms : List Mapping) → (off' : Nat) →
      (ps : List (Coll × Nat)) → MapInv encs ms0 ps →
      evaluateChildren encs recs ms0 offset = .ok (.ok (ms, off')) →
      off' = offset + (Rec.flatList recs).length ∧ MapInv encs ms (ps ++ (Rec.flatList recs).zipIdx offset)
  | [], ms0, offset, ms, off', ps, hi, h => by
    simp only [evaluateChildren, Except.ok.injEq, Prod.mk.injEq] at h
    obtain ⟨rfl, rfl⟩ := h
    simpa [Rec.flatList] using hi
  | r :: rs, ms0, offset, ms, off', ps, hi, h => by
    simp only [evaluateChildren] at h
    cases he : evaluateCollections encs r offset with
    | error x => simp [he, bind, Except.bind] at h
    | ok res =>
      cases res with
      | error e => simp [he, bind, Except.bind] at h
      | ok res =>
        obtain ⟨childMs, off1⟩ := res
        simp only [he, bind, Except.bind] at h
        obtain ⟨g1, g2⟩ := evaluate_inv hsd r offset childMs off1 he
        have hm := merge_all_inv hsd childMs hi g2.2.1
        have hm' : MapInv encs (childMs.foldl mergeMapping ms0) (ps ++ r.flat.zipIdx offset) :=
          ⟨hm.1, hm.2.1, hm.2.2.trans (List.Perm.append (List.Perm.refl _) g2.2.2)⟩
        obtain ⟨k1, k2⟩ := evaluateChildren_inv hsd rs _ off1 ms off' _ hm' h
        rw [Rec.flatList, List.zipIdx_append, List.length_append]
        refine ⟨by omega, ?_⟩
        rw [← List.append_assoc]
        rw [g1] at k2
        exact k2
end

end Rap
