import Mathlib.Data.List.Nodup
import Verif.Proof.WriteOk
import Verif.Spec.File

/-! # Lemmas about whole files -/

namespace Rap

/-! ## Rejected recordings -/

theorem allSome_none {α : Type} {l : List (Option α)} : allSome l = none ↔ none ∈ l := by
  induction l with
  | nil => simp [allSome]
  | cons a l ih =>
    cases a with
    | none => simp [allSome]
    | some a =>
      cases h : allSome l with
      | none => simpa [allSome, h] using ih
      | some as => simpa [allSome, h] using ih

mutual
theorem evaluate_total (encs : List Encoder) : (rec : Rec) → (offset : Nat) → checkForNil rec = none →
    ∃ r, evaluateCollections encs rec offset = .ok r ∧
      (∀ x, r = .ok x → ∀ r', Within r' rec → ¬ Faulty encs r')
  | .nil, offset, h => by simp [checkForNil] at h
  | .mk id name colls recs md bins refs, offset, h => by
    simp only [checkForNil] at h
    split at h
    · simp at h
    · rename_i href
      split at h
      · simp at h
      · rename_i hbin
        simp only [evaluateCollections]
        cases ha : allSome colls with
        | none => exact ⟨_, rfl, by simp⟩
        | some cs =>
          simp only
          split
          · exact ⟨_, rfl, by simp⟩
          · rename_i hflags
            have hok := (own_flags encs offset cs).1 (by simpa using hflags)
            have hcs := allSome_eq ha
            obtain ⟨r, hr, hf⟩ := evaluateChildren_total encs recs
              (ownMappings encs offset (cs.map fun c => (c, false))).1 (offset + colls.length) h
            refine ⟨r, hr, fun x hx r' hw => ?_⟩
            cases hw with
            | self =>
              simp only [Faulty, not_or, not_exists, not_and]
              refine ⟨?_, ?_, ?_, ?_⟩
              · subst hcs; simp
              · simpa using hbin
              · simpa using href
              · intro c hc hno
                have : c ∈ cs := by subst hcs; simpa using hc
                have := hok c this
                rw [chosen, List.find?_isSome] at this
                obtain ⟨e, he, hacc⟩ := this
                simp [hno e he] at hacc
            | child hmem hw => exact hf x hx _ hmem _ hw
theorem evaluateChildren_total (encs : List Encoder) : (recs : List Rec) → (ms : List Mapping) → (offset : Nat) →
    checkForNilList recs = none →
    ∃ r, evaluateChildren encs recs ms offset = .ok r ∧
      (∀ x, r = .ok x → ∀ rec ∈ recs, ∀ r', Within r' rec → ¬ Faulty encs r')
  | [], ms, offset, _ => ⟨_, rfl, by simp⟩
  | rec :: recs, ms, offset, h => by
    simp only [checkForNilList] at h
    cases h0 : checkForNil rec with
    | some e => simp [h0] at h
    | none =>
      simp only [h0] at h
      obtain ⟨r, hr, hf⟩ := evaluate_total encs rec offset h0
      simp only [evaluateChildren, hr, bind, Except.bind]
      cases r with
      | error e => exact ⟨_, rfl, by simp⟩
      | ok x =>
        obtain ⟨r2, hr2, hf2⟩ := evaluateChildren_total encs recs (x.1.foldl mergeMapping ms) x.2 h
        refine ⟨r2, hr2, fun y hy r' hmem => ?_⟩
        rcases List.mem_cons.1 hmem with rfl | hmem
        · exact hf x rfl
        · exact hf2 y hy r' hmem
end

/-! ## The parts of a written file -/

theorem write_checked {σ : Type} [Snk σ] {F : Flate} {cfg : WriterCfg} {orders : List (List Bytes)} {rec : Rec} {out out' : σ} {n : Nat}
    (h : write F cfg orders rec out = .ok (n, none, out')) : checkForNil rec = none := by
  cases rec with
  | nil => simp [write] at h
  | mk id name colls recs md bins refs =>
    simp only [write] at h
    cases hc : checkForNil (.mk id name colls recs md bins refs) with
    | none => rfl
    | some e => simp [hc] at h

/-- The same recording written with and without compression. -/
theorem write_other {F : Flate} {cfg : WriterCfg} {orders : List (List Bytes)} {rec : Rec} {out out' : Buf} {n : Nat}
    (h : write F cfg orders rec out = .ok (n, none, out')) (F' : Flate) (compress : Bool) (buf : Buf) :
    ∃ buf', write F' { cfg with compress := compress } orders rec buf = .ok (n, none, buf') := by
  obtain ⟨ms, off, hs, blocks, idx, x, ws, h1, h2, h3, h4, -⟩ := write_shape F cfg orders rec out out' n h
  obtain ⟨n', buf', h'⟩ := write_of_parts F' { cfg with compress := compress } orders rec buf (write_checked h) h1 h2 h3
  obtain ⟨ms', off', hs', blocks', idx', x', ws', g1, g2, g3, g4, -⟩ := write_shape F' _ orders rec buf buf' n' h'
  simp only [h1, Except.ok.injEq, Prod.mk.injEq] at g1
  obtain ⟨rfl, rfl⟩ := g1
  simp only [h2, Except.ok.injEq, Prod.mk.injEq] at g2
  obtain ⟨rfl, rfl, rfl⟩ := g2
  simp only [h3, Except.ok.injEq, Prod.mk.injEq] at g3
  obtain ⟨rfl, rfl⟩ := g3
  exact ⟨buf', by rw [h', g4, h4]⟩

theorem dictAddAll_nodup (d ks : List Bytes) (hd : d.Nodup) :
    (dictAddAll d ks).1.Nodup ∧ ∀ k, k ∈ (dictAddAll d ks).1 ↔ k ∈ d ∨ k ∈ ks := by
  induction ks generalizing d with
  | nil => simp [dictAddAll, hd]
  | cons a ks ih =>
    simp only [dictAddAll]
    have : (dictAdd d a).1.Nodup ∧ ∀ k, k ∈ (dictAdd d a).1 ↔ k ∈ d ∨ k = a := by
      unfold dictAdd
      split
      · rename_i h
        exact ⟨hd, fun k => ⟨Or.inl, fun h' => h'.elim id fun h' => h' ▸ h⟩⟩
      · rename_i h
        refine ⟨?_, fun k => by simp⟩
        rw [List.nodup_append]
        exact ⟨hd, by simp, by rintro x hx y hy rfl; simp only [List.mem_singleton] at hy; exact h (hy ▸ hx)⟩
    obtain ⟨i1, i2⟩ := ih _ this.1
    refine ⟨i1, fun k => ?_⟩
    rw [i2, this.2, List.mem_cons, or_assoc]

theorem mem_optBlocks {α : Type} (f : α → Block) (l : List (Option α)) (b : Block) :
    b ∈ optBlocks f l ↔ ∃ a, some a ∈ l ∧ f a = b := by
  induction l with
  | nil => simp [optBlocks]
  | cons a l ih =>
    cases a with
    | none => simpa [optBlocks] using ih
    | some a =>
      simp only [optBlocks, List.mem_cons, ih, Option.some.injEq]
      constructor
      · rintro (rfl | ⟨a', h, rfl⟩)
        · exact ⟨a, Or.inl rfl, rfl⟩
        · exact ⟨a', Or.inr h, rfl⟩
      · rintro ⟨a', rfl | h, rfl⟩
        · exact Or.inl rfl
        · exact Or.inr ⟨a', h, rfl⟩

theorem mem_visitedBlocksList (recs : List Rec) (b : Block) :
    b ∈ visitedBlocksList recs ↔ ∃ r ∈ recs, b ∈ visitedBlocks r := by
  induction recs with
  | nil => simp [visitedBlocksList]
  | cons r recs ih => simp [visitedBlocksList, ih]

mutual
theorem visited_iff (k : Bytes) : (rec : Rec) →
    ((∃ b ∈ visitedBlocks rec, k ∈ b.map (·.1)) ↔ ∃ r, Within r rec ∧ UsesKey k r)
  | .nil => by
    simp only [visitedBlocks, List.not_mem_nil, false_and, exists_false, false_iff, not_exists, not_and]
    intro r hw; cases hw; simp [UsesKey]
  | .mk id name colls recs md bins refs => by
    have hrec := visitedList_iff k recs
    have hsplit : (∃ r, Within r (.mk id name colls recs md bins refs) ∧ UsesKey k r) ↔
        UsesKey k (.mk id name colls recs md bins refs) ∨ ∃ r' ∈ recs, ∃ r, Within r r' ∧ UsesKey k r := by
      constructor
      · rintro ⟨r, hw, hu⟩
        cases hw with
        | self => exact Or.inl hu
        | child hm hw => exact Or.inr ⟨_, hm, _, hw, hu⟩
      · rintro (hu | ⟨r', hm, r, hw, hu⟩)
        · exact ⟨_, .self _, hu⟩
        · exact ⟨r, .child hm hw, hu⟩
    rw [hsplit, ← hrec]
    simp only [visitedBlocks, UsesKey, List.mem_cons, List.mem_append, mem_optBlocks]
    constructor
    · rintro ⟨b, rfl | (⟨a, ha, rfl⟩ | ⟨a, ha, rfl⟩) | h, hk⟩
      · exact Or.inl (Or.inl hk)
      · exact Or.inl (Or.inr (Or.inl ⟨a, ha, hk⟩))
      · exact Or.inl (Or.inr (Or.inr ⟨a, ha, hk⟩))
      · exact Or.inr ⟨b, h, hk⟩
    · rintro ((hk | ⟨a, ha, hk⟩ | ⟨a, ha, hk⟩) | ⟨b, h, hk⟩)
      · exact ⟨_, Or.inl rfl, hk⟩
      · exact ⟨_, Or.inr (Or.inl (Or.inl ⟨a, ha, rfl⟩)), hk⟩
      · exact ⟨_, Or.inr (Or.inl (Or.inr ⟨a, ha, rfl⟩)), hk⟩
      · exact ⟨b, Or.inr (Or.inr h), hk⟩
theorem visitedList_iff (k : Bytes) : (recs : List Rec) →
    ((∃ b ∈ visitedBlocksList recs, k ∈ b.map (·.1)) ↔ ∃ r' ∈ recs, ∃ r, Within r r' ∧ UsesKey k r)
  | [] => by simp [visitedBlocksList]
  | rec :: recs => by
    have h1 := visited_iff k rec
    have h2 := visitedList_iff k recs
    simp only [visitedBlocksList, List.mem_append, List.mem_cons]
    constructor
    · rintro ⟨b, hb | hb, hk⟩
      · exact ⟨rec, Or.inl rfl, h1.1 ⟨b, hb, hk⟩⟩
      · obtain ⟨r', hm, hr⟩ := h2.1 ⟨b, hb, hk⟩
        exact ⟨r', Or.inr hm, hr⟩
    · rintro ⟨r', rfl | hm, hr⟩
      · obtain ⟨b, hb, hk⟩ := h1.2 hr
        exact ⟨b, Or.inl hb, hk⟩
      · obtain ⟨b, hb, hk⟩ := h2.2 ⟨r', hm, hr⟩
        exact ⟨b, Or.inr hb, hk⟩
end

theorem accumulateKeys_spec {rec : Rec} {orders : List (List Bytes)} (h : KeyOrders rec orders) :
    (accumulateKeys orders).Nodup ∧ ∀ k, k ∈ accumulateKeys orders ↔ ∃ r, Within r rec ∧ UsesKey k r := by
  obtain ⟨h1, h2⟩ := dictAddAll_nodup [] orders.flatten (by simp)
  refine ⟨h1, fun k => ?_⟩
  rw [accumulateKeys, h2, ← visited_iff k rec]
  simp only [List.not_mem_nil, false_or, List.mem_flatten]
  unfold KeyOrders at h
  clear h1 h2
  revert h
  generalize visitedBlocks rec = bs
  intro h
  induction h with
  | nil => simp
  | cons h1 _ ih =>
    simp only [List.mem_cons, exists_eq_or_imp, ih, h1.mem_iff]

/-- The encoders listed in a file. -/
theorem used_spec {encs : List Encoder} (hsd : SigDetermines encs) {rec : Rec} {ms : List Mapping} {off : Nat}
    (h : evaluateCollections encs rec 0 = .ok (.ok (ms, off))) :
    (ms.map fun m => m.encoder.sig).Nodup ∧
      (∀ e, (∃ m ∈ ms, m.encoder = e) ↔ ∃ c ∈ rec.flat, chosen encs c = some e) ∧
      ∀ m ∈ ms, ∀ c, c ∈ m.colls ↔ c ∈ rec.flat ∧ chosen encs c = some m.encoder := by
  obtain ⟨-, i1, i2, i3⟩ := evaluate_inv hsd rec 0 ms off h
  have hin : ∀ m ∈ ms, ∀ c ∈ m.colls, c ∈ rec.flat := by
    intro m hm c hc
    obtain ⟨l1, l2, l3⟩ := i2 m hm
    obtain ⟨t, htt, rfl⟩ := List.getElem_of_mem hc
    have hp : (m.colls[t], m.order[t]'(l1 ▸ htt)) ∈ ms.flatMap Mapping.pairs :=
      List.mem_flatMap.2 ⟨m, hm, by
        rw [Mapping.pairs, List.mem_iff_getElem]; exact ⟨t, by simp [← l1, htt], by simp⟩⟩
    rw [i3.mem_iff] at hp
    have := List.mem_zipIdx hp
    rw [this.2.2]; exact List.getElem_mem _
  have hex : ∀ c ∈ rec.flat, ∃ m ∈ ms, c ∈ m.colls := by
    intro c hc
    obtain ⟨t, htt, rfl⟩ := List.getElem_of_mem hc
    have hp : (rec.flat[t], t) ∈ rec.flat.zipIdx 0 := by
      rw [List.mem_zipIdx_iff_getElem?]; exact List.getElem?_eq_getElem htt
    rw [← i3.mem_iff, List.mem_flatMap] at hp
    obtain ⟨m, hm, hp⟩ := hp
    exact ⟨m, hm, (List.of_mem_zip hp).1⟩
  refine ⟨i1, fun e => ⟨?_, ?_⟩, fun m hm c => ⟨fun hc => ⟨hin m hm c hc, (i2 m hm).2.2 c hc⟩, ?_⟩⟩
  · rintro ⟨m, hm, rfl⟩
    obtain ⟨c, hc⟩ := List.exists_mem_of_ne_nil _ (i2 m hm).2.1
    exact ⟨c, hin m hm c hc, (i2 m hm).2.2 c hc⟩
  · rintro ⟨c, hc, he⟩
    obtain ⟨m, hm, hcm⟩ := hex c hc
    refine ⟨m, hm, ?_⟩
    have := (i2 m hm).2.2 c hcm
    rw [he] at this
    exact (Option.some.inj this).symm
  · rintro ⟨hc, he⟩
    obtain ⟨m', hm', hcm⟩ := hex c hc
    have h' := (i2 m' hm').2.2 c hcm
    rw [he, Option.some.injEq] at h'
    have : m' = m := by
      obtain ⟨a, ha, rfl⟩ := List.getElem_of_mem hm'
      obtain ⟨b, hb, rfl⟩ := List.getElem_of_mem hm
      have hab : (ms.map fun m => m.encoder.sig)[a]'(by simpa using ha) =
          (ms.map fun m => m.encoder.sig)[b]'(by simpa using hb) := by simp [h']
      have := (List.Nodup.getElem_inj_iff i1).1 hab
      subst this; rfl
    exact this ▸ hcm

/-! ## The same recording in another order -/

theorem SameBlock.refl (b : Block) : SameBlock b b :=
  ⟨b, rfl, List.forall₂_same.2 fun p _ => .refl p, .refl _⟩

theorem SameColl.sig {c c' : Coll} (h : SameColl c c') : c.sig = c'.sig := by cases h <;> rfl

theorem SameColl.times {c c' : Coll} (h : SameColl c c') : c.times = c'.times := by
  cases h with
  | refl => rfl
  | event name h =>
    simp only [Coll.times]
    induction h with
    | nil => rfl
    | cons h1 _ ih => simp only [List.map_cons, ih, h1.1]

theorem SameColl.good {c c' : Coll} (h : SameColl c c') : GoodColl c' → Native c → Native c' := by
  intro _; cases h <;> simp [Native]

theorem same_zip {caps caps' : List (F64 × Bytes × Block)}
    (h : List.Forall₂ (fun a b => a.1 = b.1 ∧ a.2.1 = b.2.1 ∧ SameBlock a.2.2 b.2.2) caps caps') (ts : List F64) :
    List.Forall₂ (fun a b => a.1 = b.1 ∧ a.2.1 = b.2.1 ∧ SameBlock a.2.2 b.2.2)
      (ts.zip (caps.map (·.2))) (ts.zip (caps'.map (·.2))) := by
  induction h generalizing ts with
  | nil => simp
  | cons h1 _ ih =>
    cases ts with
    | nil => simp
    | cons t ts =>
      simp only [List.map_cons, List.zip_cons_cons]
      exact .cons ⟨rfl, h1.2⟩ (ih ts)

theorem SameColl.stored {c c' : Coll} (h : SameColl c c') (b : Builtin) (ts : List F64) (hs : c.sig = b.encoder.sig) :
    SameColl (b.stored c ts) (b.stored c' ts) := by
  cases h with
  | refl => exact .refl _
  | event name h =>
    cases b with
    | event => exact .event _ (same_zip h ts)
    | enum => exfalso; revert hs; simp only [Coll.sig, Builtin.encoder, enumEncoder]; decide
    | position t => exact .refl _
    | euler t => exact .refl _
    | float t => exact .refl _

theorem Builtin.chosen_some {ws : List Builtin} {c : Coll} {b : Builtin} (h : Builtin.chosen ws c = some b) :
    b ∈ ws ∧ c.sig = b.encoder.sig := by
  obtain ⟨h1, h2⟩ := List.find?_eq_some_iff_append.1 h
  obtain ⟨as, bs, rfl, -⟩ := h2
  exact ⟨by simp, by rwa [accepts_iff] at h1⟩

theorem SameColl.chosen {c c' : Coll} (h : SameColl c c') (ws : List Builtin) :
    Builtin.chosen ws c = Builtin.chosen ws c' := by
  unfold Builtin.chosen
  congr 1
  funext b
  rw [Bool.eq_iff_iff, accepts_iff, accepts_iff, h.sig]

theorem SameColl.storedColl {c c' : Coll} (h : SameColl c c') (ws : List Builtin) (tech : Nat) :
    SameColl (storedColl ws c (storedTimes tech c.times)) (storedColl ws c' (storedTimes tech c'.times)) := by
  unfold Rap.storedColl
  rw [← h.chosen ws, ← h.times]
  cases hb : Builtin.chosen ws c with
  | none => exact h
  | some b => exact h.stored b _ (Builtin.chosen_some hb).2

theorem OptRel.map {α : Type} {R : α → α → Prop} {f : α → α} (hf : ∀ a b, R a b → R (f a) (f b)) {a b : Option α}
    (h : OptRel R a b) : OptRel R (a.map f) (b.map f) := by
  cases a <;> cases b <;> simp_all [OptRel]

mutual
theorem SameRec.mapColls {f : Coll → Coll} (hf : ∀ a b, SameColl a b → SameColl (f a) (f b)) {r r' : Rec}
    (h : SameRec r r') : SameRec (r.mapColls f) (r'.mapColls f) := by
  cases h with
  | nil => exact .nil
  | mk id name h1 h2 h3 h4 h5 =>
    refine .mk id name ?_ (SameRec.mapCollsList hf h2) h3 h4 h5
    simp only [List.forall₂_map_left_iff, List.forall₂_map_right_iff]
    exact h1.imp fun a b h => h.map hf
theorem SameRec.mapCollsList {f : Coll → Coll} (hf : ∀ a b, SameColl a b → SameColl (f a) (f b)) {rs rs' : List Rec}
    (h : List.Forall₂ SameRec rs rs') : List.Forall₂ SameRec (Rec.mapCollsList f rs) (Rec.mapCollsList f rs') := by
  cases h with
  | nil => exact .nil
  | cons h1 h2 => exact .cons (SameRec.mapColls hf h1) (SameRec.mapCollsList hf h2)
end

/-! ## Lossless techniques -/

theorem zip_times {α : Type} (l : List (F64 × α)) : (l.map (·.1)).zip (l.map (·.2)) = l := by
  induction l with
  | nil => rfl
  | cons c l ih => simp only [List.map_cons, List.zip_cons_cons, ih]

theorem lossless_stored {b : Builtin} (hb : Lossless b) {c : Coll} (hn : Native c) (hs : c.sig = b.encoder.sig) :
    b.stored c (storedTimes 0 c.times) = c := by
  have h0 : ∀ ts, storedTimes 0 ts = ts := fun ts => rfl
  rw [h0]
  cases b <;> cases c <;> first
    | exact hn.elim
    | (exfalso; revert hs; simp only [Coll.sig, Builtin.encoder, eventEncoder, enumEncoder, positionEncoder, eulerEncoder, floatEncoder]; decide)
    | (simp only [Lossless] at hb; subst hb; simp only [Builtin.stored, Coll.times]; congr 1; exact zip_times _)
    | (simp only [Builtin.stored, Coll.times, zip_times])

mutual
theorem mapColls_id {f : Coll → Coll} : (rec : Rec) → (∀ c ∈ rec.flat, f c = c) → rec.mapColls f = rec
  | .nil, _ => rfl
  | .mk id name colls recs md bins refs, h => by
    simp only [Rec.flat, List.mem_append, List.mem_filterMap, id_eq, exists_eq_right] at h
    simp only [Rec.mapColls, mapCollsList_id recs fun c hc => h c (Or.inr hc)]
    have : colls.map (Option.map f) = colls := by
      conv_rhs => rw [← List.map_id colls]
      apply List.map_congr_left
      intro o ho
      cases o with
      | none => rfl
      | some c => simp [h c (Or.inl ho)]
    rw [this]
theorem mapCollsList_id {f : Coll → Coll} : (recs : List Rec) → (∀ c ∈ Rec.flatList recs, f c = c) →
    Rec.mapCollsList f recs = recs
  | [], _ => rfl
  | r :: rs, h => by
    simp only [Rec.flatList, List.mem_append] at h
    simp only [Rec.mapCollsList, mapColls_id r fun c hc => h c (Or.inl hc), mapCollsList_id rs fun c hc => h c (Or.inr hc)]
end

end Rap
