import Verif.Spec.Cost
import Verif.Proof.LayoutWrite

/-! # Sizes of what is written -/

namespace Rap

open WProg (Emits)

theorem putUvarint_size (x : Nat) : (putUvarint x).length = varintSize x := by
  induction x using varintSize.induct with
  | case1 n h => rw [putUvarint, varintSize, if_pos h, if_pos h]; rfl
  | case2 n h ih =>
    rw [putUvarint, varintSize, if_neg h, if_neg h, List.length_cons, Nat.shiftRight_eq_div_pow]
    rw [ih]; omega

theorem u64_small {n : Nat} (h : n < 2 ^ 64) : u64 n = n := Nat.mod_eq_of_lt h

theorem encTime_size (tech : Nat) (ht : tech ≤ 2) (ts : List F64) (hl : ts.length < 2 ^ 64) :
    (encTime tech ts).length = timesSize tech ts.length := by
  have h64 := flatten_length_const (fun t : F64 => leBytes 8 t.toNat) 8 (fun _ => leBytes_length _ _) ts
  have h32 := flatten_length_const putF32 4 putF32_length ts
  rw [encTime, List.length_cons, List.length_append, putUvarint_size, u64_small hl]
  match tech, ht with
  | 0, _ => simp only [encTime64, timesSize, if_true, h64]; omega
  | 1, _ => simp only [encTime32, timesSize, if_true, h32, Nat.one_ne_zero, if_false]; omega
  | 2, _ =>
    match ts with
    | [] => simp [encTimeBst, timesSize]; omega
    | [t] => simp [encTimeBst, timesSize, putF32_length]; omega
    | t :: u :: ts =>
      show _ + (encTimeBst (t :: u :: ts)).length + 1 = _
      simp only [encTimeBst, timesSize, List.length_append, putF32_length, encTimeLoop_length, List.length_cons]
      omega

theorem octEncLoop_length (n : Nat) (min max q : V3) (ps : List V3) : (octEncLoop n min max q ps).length = 3 * n * ps.length := by
  induction ps generalizing q with
  | nil => simp [octEncLoop]
  | cons p ps ih => simp only [octEncLoop, List.length_append, octBytes_length, ih, List.length_cons, Nat.mul_add]; omega

theorem putV32_length (v : V3) : (putV32 v).length = 12 := by simp [putV32, putF32_length]

theorem encOct_length (n : Nat) (p q : V3) (ps : List V3) : (encOct n (p :: q :: ps)).length = 36 + 3 * n * (ps.length + 1) := by
  simp only [encOct, List.length_append, putV32_length, octEncLoop_length, List.length_cons]

theorem positions_size (t : Fin 4) (vs : List V3) : (t.val.toUInt8 ::
    (if t.val = 0 then encRaw64 8 vs else if t.val = 1 then encRaw32 vs
     else if t.val = 2 then encOct 2 vs else if t.val = 3 then encOct 1 vs else [])).length =
      positionsSize t vs.length := by
  have h64 := flatten_length_const (fun v : V3 => putRaw64 8 v.x ++ putRaw64 8 v.y ++ putRaw64 8 v.z) 24
    (fun _ => by simp [putRaw64_length 8 (Nat.le_refl 8)]) vs
  have h32 := flatten_length_const putV32 12 putV32_length vs
  match t with
  | 0 => simp [encRaw64, positionsSize]; simp at h64; omega
  | 1 => simp [encRaw32, positionsSize]; simp at h32; omega
  | 2 =>
    match vs with
    | [] => rfl
    | [v] => simp [encOct, putV32_length, positionsSize]
    | v :: w :: vs => simp [encOct_length, positionsSize]; omega
  | 3 =>
    show (encOct 1 vs).length + 1 = _
    match vs with
    | [] => rfl
    | [v] => simp [encOct, putV32_length, positionsSize]
    | v :: w :: vs => simp [encOct_length, positionsSize]; omega

theorem rotations_size (t : Fin 3) (vs : List V3) : (t.val.toUInt8 ::
    (if t.val = 0 then encRaw64 10 vs else if t.val = 1 then encRaw32 vs
     else if t.val = 2 then encRaw16 vs else [])).length = rotationsSize t vs.length := by
  have h64 := flatten_length_const (fun v : V3 => putRaw64 10 v.x ++ putRaw64 10 v.y ++ putRaw64 10 v.z) 30
    (fun _ => by simp [putRaw64_length 10 (by omega)]) vs
  have h32 := flatten_length_const putV32 12 putV32_length vs
  have h16 := flatten_length_const (fun v : V3 => putAngle v.x ++ putAngle v.y ++ putAngle v.z) 6
    (fun _ => by simp [putAngle, bstEnc_length]) vs
  match t with
  | 0 => simp [encRaw64, rotationsSize]; simp at h64; omega
  | 1 => simp [encRaw32, rotationsSize]; simp at h32; omega
  | 2 =>
    match vs with
    | [] => rfl
    | [v] => simp [encRaw16, putV32_length, rotationsSize]
    | v :: w :: vs =>
      show ((v :: w :: vs).map fun v : V3 => putAngle v.x ++ putAngle v.y ++ putAngle v.z).flatten.length + 1 =
        1 + 6 * (v :: w :: vs).length
      rw [h16]
      omega

theorem floats_size (t : Fin 3) (vs : List F64) : (t.val.toUInt8 ::
    (if t.val = 0 then floatEnc64 vs else if t.val = 1 then floatEnc32 vs else floatEncBst vs)).length =
      floatsSize t vs.length := by
  have h64 := flatten_length_const (fun v : F64 => leBytes 8 v.toNat) 8 (fun _ => leBytes_length _ _) vs
  have h32 := flatten_length_const putF32 4 putF32_length vs
  match t with
  | 0 => simp [floatEnc64, floatsSize]; simp at h64; omega
  | 1 => simp [floatEnc32, floatsSize]; simp at h32; omega
  | 2 =>
    have h16 := flatten_length_const (fun v : F64 => bstEnc v (vs.foldl fmin F64.inf)
      ((vs.foldl fmax F64.ninf).sub (vs.foldl fmin F64.inf)) 2) 2 (fun _ => bstEnc_length _ _ _ _) vs
    show (floatEncBst vs).length + 1 = 9 + 2 * vs.length
    simp only [floatEncBst, List.length_append, putF32_length, h16]
    omega

theorem mapGo_get {α β : Type} {f : α → Go β} {as : List α} {bs : List β} (h : mapGo f as = .ok bs) :
    bs.length = as.length ∧ ∀ (j : Nat) (a : α) (b : β), as[j]? = some a → bs[j]? = some b → f a = .ok b := by
  induction as generalizing bs with
  | nil =>
    simp only [mapGo, Except.ok.injEq] at h
    subst h; simp
  | cons a as ih =>
    simp only [mapGo] at h
    cases h1 : f a with
    | error x => simp [h1, bind, Except.bind] at h
    | ok b =>
      cases h2 : mapGo f as with
      | error x => simp [h1, h2, bind, Except.bind] at h
      | ok bs' =>
        simp only [h1, h2, bind, Except.bind, Except.ok.injEq] at h
        subst h
        obtain ⟨g1, g2⟩ := ih h2
        refine ⟨by simp [g1], fun j a' b' ha hb => ?_⟩
        cases j with
        | zero => simp at ha hb; subst ha hb; exact h1
        | succ j => exact g2 j a' b' (by simpa using ha) (by simpa using hb)

theorem position1_size (t : Fin 4) (c : Coll) (b : Bytes) (h : positionEncode1 t.val c = .ok b) :
    b.length = positionsSize t c.times.length := by
  unfold positionEncode1 at h
  cases hc : castPosition c with
  | error x => simp [hc, bind, Except.bind] at h
  | ok caps =>
    simp only [hc, bind, Except.bind, Except.ok.injEq] at h
    have hl : caps.length = c.times.length := by
      cases c <;> simp only [castPosition] at hc
      · cases hc; simp [Coll.times]
      all_goals
        split at hc
        · rename_i he; cases hc; simp [List.isEmpty_iff.1 he]
        · cases hc
    subst h
    rw [← hl, ← List.length_map (f := (·.2)) (as := caps)]
    exact positions_size t _

theorem euler1_size (t : Fin 3) (c : Coll) (b : Bytes) (h : eulerEncode1 t.val c = .ok b) :
    b.length = rotationsSize t c.times.length := by
  unfold eulerEncode1 at h
  cases hc : castEuler c with
  | error x => simp [hc, bind, Except.bind] at h
  | ok caps =>
    simp only [hc, bind, Except.bind, Except.ok.injEq] at h
    have hl : caps.length = c.times.length := by
      cases c <;> simp only [castEuler] at hc
      case euler => cases hc; simp [Coll.times]
      all_goals
        split at hc
        · rename_i he; cases hc; simp [List.isEmpty_iff.1 he]
        · cases hc
    subst h
    rw [← hl, ← List.length_map (f := (·.2)) (as := caps)]
    exact rotations_size t _

theorem float1_size (t : Fin 3) (c : Coll) (b : Bytes) (h : floatEncode1 t.val c = .ok b) :
    b.length = floatsSize t c.times.length := by
  unfold floatEncode1 at h
  rw [if_pos (by omega)] at h
  cases hc : castFloat c with
  | error x => simp [hc] at h
  | ok vs =>
    simp only [hc, Except.ok.injEq] at h
    have hl : vs.length = c.times.length := by
      cases c <;> simp only [castFloat] at hc
      case float => cases hc; simp [Coll.times]
      all_goals
        split at hc
        · rename_i he; cases hc; simp [List.isEmpty_iff.1 he]
        · cases hc
    subst h
    rw [← hl]
    exact floats_size t _

theorem floatStreams_get {t : Nat} {cs : List Coll} {bs : List Bytes} (h : floatStreams t cs = .ok bs) :
    bs.length = cs.length ∧ ∀ (j : Nat) (c : Coll) (b : Bytes), cs[j]? = some c → bs[j]? = some b → floatEncode1 t c = .ok b := by
  induction cs generalizing bs with
  | nil =>
    simp only [floatStreams, Except.ok.injEq] at h
    subst h; simp
  | cons c cs ih =>
    simp only [floatStreams] at h
    cases h1 : floatEncode1 t c with
    | error x => simp [h1] at h
    | ok b =>
      cases h2 : floatStreams t cs with
      | error x => simp [h1, h2] at h
      | ok bs' =>
        simp only [h1, h2, Except.ok.injEq] at h
        subst h
        obtain ⟨g1, g2⟩ := ih h2
        refine ⟨by simp [g1], fun j a' b' ha hb => ?_⟩
        cases j with
        | zero => simp at ha hb; subst ha hb; exact h1
        | succ j => exact g2 j a' b' (by simpa using ha) (by simpa using hb)

/-- The encoders with techniques have no header, and blocks of known size. -/
theorem encode_size (b : Builtin) (cs : List Coll) (h : Bytes) (bs : List Bytes) (he : b.encoder.encode cs = .ok (.ok (h, bs)))
    (k0 : Nat → Nat) (hk : ∀ n, blockSize b n = some (k0 n)) :
    h = [] ∧ bs.length = cs.length ∧ ∀ (j : Nat) (c : Coll) (x : Bytes), cs[j]? = some c → bs[j]? = some x →
      x.length = k0 c.times.length := by
  cases b with
  | event => exact absurd (hk 0) (by simp [blockSize])
  | enum => exact absurd (hk 0) (by simp [blockSize])
  | position t =>
    simp only [Builtin.encoder, positionEncoder, positionEncode] at he
    cases hm : mapGo (positionEncode1 t.val) cs with
    | error x => simp [hm, bind, Except.bind] at he
    | ok blocks =>
      simp only [hm, bind, Except.bind, Except.ok.injEq, Prod.mk.injEq] at he
      obtain ⟨rfl, rfl⟩ := he
      obtain ⟨g1, g2⟩ := mapGo_get hm
      refine ⟨rfl, g1, fun j c x hc hx => ?_⟩
      have h1 := position1_size t c x (g2 j c x hc hx)
      have h2 := hk c.times.length
      simp only [blockSize, Option.some.injEq] at h2
      omega
  | euler t =>
    simp only [Builtin.encoder, eulerEncoder, eulerEncode] at he
    cases hm : mapGo (eulerEncode1 t.val) cs with
    | error x => simp [hm, bind, Except.bind] at he
    | ok blocks =>
      simp only [hm, bind, Except.bind, Except.ok.injEq, Prod.mk.injEq] at he
      obtain ⟨rfl, rfl⟩ := he
      obtain ⟨g1, g2⟩ := mapGo_get hm
      refine ⟨rfl, g1, fun j c x hc hx => ?_⟩
      have h1 := euler1_size t c x (g2 j c x hc hx)
      have h2 := hk c.times.length
      simp only [blockSize, Option.some.injEq] at h2
      omega
  | float t =>
    simp only [Builtin.encoder, floatEncoder, floatEncode] at he
    cases hm : floatStreams t.val cs with
    | error x => simp [hm] at he
    | ok blocks =>
      simp only [hm, Except.ok.injEq, Prod.mk.injEq] at he
      obtain ⟨rfl, rfl⟩ := he
      obtain ⟨g1, g2⟩ := floatStreams_get hm
      refine ⟨rfl, g1, fun j c x hc hx => ?_⟩
      have h1 := float1_size t c x (g2 j c x hc hx)
      have h2 := hk c.times.length
      simp only [blockSize, Option.some.injEq] at h2
      omega

/-! ## Two selections of techniques for the same kinds of collections -/

theorem SameKind.sig {b b' : Builtin} (h : SameKind b b') : b.encoder.sig = b'.encoder.sig := by
  cases h <;> rfl

/-- Mappings that differ in the technique only. -/
structure MapRel (m m' : Mapping) : Prop where
  colls : m.colls = m'.colls
  order : m.order = m'.order
  enc : ∃ b b' : Builtin, m.encoder = b.encoder ∧ m'.encoder = b'.encoder ∧ b.encoder.sig = b'.encoder.sig

theorem MapRel.sig {m m' : Mapping} (h : MapRel m m') : m.encoder.sig = m'.encoder.sig := by
  obtain ⟨b, b', h1, h2, h3⟩ := h.enc
  rw [h1, h2, h3]

theorem accepts_same {b b' : Builtin} (h : b.encoder.sig = b'.encoder.sig) : b.encoder.accepts = b'.encoder.accepts := by
  funext c
  rw [Bool.eq_iff_iff, accepts_iff, accepts_iff, h]

theorem pickStreams_same {e e' : Encoder} (h : e.accepts = e'.accepts) (i : Nat) (flags : List (Coll × Bool)) :
    pickStreams e i flags = pickStreams e' i flags := by
  induction flags generalizing i with
  | nil => rfl
  | cons f flags ih =>
    obtain ⟨c, s⟩ := f
    simp only [pickStreams, ih, h]

theorem ownMappings_same {ws ws' : List Builtin} (h : SameKinds ws ws') (offset : Nat) (flags : List (Coll × Bool)) :
    List.Forall₂ MapRel (ownMappings (ws.map Builtin.encoder) offset flags).1
      (ownMappings (ws'.map Builtin.encoder) offset flags).1 ∧
    (ownMappings (ws.map Builtin.encoder) offset flags).2 = (ownMappings (ws'.map Builtin.encoder) offset flags).2 := by
  induction h generalizing flags with
  | nil => exact ⟨.nil, rfl⟩
  | @cons b b' ws ws' hb _ ih =>
    simp only [List.map_cons, ownMappings, pickStreams_same (accepts_same hb.sig)]
    rcases hp : pickStreams b'.encoder offset flags with ⟨cs, os, flags1⟩
    obtain ⟨h1, h2⟩ := ih flags1
    simp only
    refine ⟨?_, h2⟩
    split
    · exact h1
    · exact .cons ⟨rfl, rfl, b, b', rfl, rfl, hb.sig⟩ h1

theorem any_sig_same {ms ms' : List Mapping} (h : List.Forall₂ MapRel ms ms') (s : Bytes) :
    (ms.any fun o => o.encoder.sig == s) = ms'.any fun o => o.encoder.sig == s := by
  induction h with
  | nil => rfl
  | cons h1 _ ih => simp only [List.any_cons, ih, h1.sig]

theorem mergeMapping_same {ms ms' : List Mapping} (h : List.Forall₂ MapRel ms ms') {m m' : Mapping} (hm : MapRel m m') :
    List.Forall₂ MapRel (mergeMapping ms m) (mergeMapping ms' m') := by
  unfold mergeMapping
  rw [any_sig_same h, hm.sig]
  split
  · rename_i hany
    clear hany
    induction h with
    | nil => exact .nil
    | cons h1 _ ih =>
      refine .cons ?_ ih
      simp only [h1.sig]
      split
      · obtain ⟨b, b', e1, e2, e3⟩ := h1.enc
        exact ⟨by simp only [h1.colls, hm.colls], by simp only [h1.order, hm.order], b, b', e1, e2, e3⟩
      · exact h1
  · clear * - h hm
    induction h with
    | nil => exact .cons hm .nil
    | cons h1 _ ih => exact .cons h1 ih

theorem mergeAll_same {cs cs' : List Mapping} (hc : List.Forall₂ MapRel cs cs') {ms ms' : List Mapping}
    (h : List.Forall₂ MapRel ms ms') : List.Forall₂ MapRel (cs.foldl mergeMapping ms) (cs'.foldl mergeMapping ms') := by
  induction hc generalizing ms ms' with
  | nil => exact h
  | cons h1 _ ih => exact ih (mergeMapping_same h h1)

mutual
theorem evaluate_same {ws ws' : List Builtin} (hk : SameKinds ws ws') : (rec : Rec) → (offset : Nat) →
    (ms : List Mapping) → (off' : Nat) →
    evaluateCollections (ws.map Builtin.encoder) rec offset = .ok (.ok (ms, off')) →
    ∃ ms', evaluateCollections (ws'.map Builtin.encoder) rec offset = .ok (.ok (ms', off')) ∧ List.Forall₂ MapRel ms ms'
  | .nil, _, _, _, h => by simp [evaluateCollections] at h
  | .mk id name colls recs md bins refs, offset, ms, off', h => by
    simp only [evaluateCollections] at h ⊢
    cases ha : allSome colls with
    | none => simp [ha] at h
    | some cs =>
      rw [ha] at h
      simp only at h ⊢
      obtain ⟨o1, o2⟩ := ownMappings_same hk offset (cs.map fun c => (c, false))
      rw [← o2]
      split at h
      · simp at h
      · rename_i hf
        rw [if_neg hf]
        exact evaluateChildren_same hk recs _ _ o1 _ ms off' h
theorem evaluateChildren_same {ws ws' : List Builtin} (hk : SameKinds ws ws') : (recs : List Rec) →
    (ms0 ms0' : List Mapping) → List.Forall₂ MapRel ms0 ms0' → (offset : Nat) → (ms : List Mapping) → (off' : Nat) →
    evaluateChildren (ws.map Builtin.encoder) recs ms0 offset = .ok (.ok (ms, off')) →
    ∃ ms', evaluateChildren (ws'.map Builtin.encoder) recs ms0' offset = .ok (.ok (ms', off')) ∧
      List.Forall₂ MapRel ms ms'
  | [], ms0, ms0', hr, offset, ms, off', h => by
    simp only [evaluateChildren, Except.ok.injEq, Prod.mk.injEq] at h
    obtain ⟨rfl, rfl⟩ := h
    exact ⟨_, rfl, hr⟩
  | r :: rs, ms0, ms0', hr, offset, ms, off', h => by
    simp only [evaluateChildren] at h ⊢
    cases he : evaluateCollections (ws.map Builtin.encoder) r offset with
    | error x => simp [he, bind, Except.bind] at h
    | ok res =>
      cases res with
      | error e => simp [he, bind, Except.bind] at h
      | ok res =>
        obtain ⟨childMs, off1⟩ := res
        simp only [he, bind, Except.bind] at h
        obtain ⟨childMs', g1, g2⟩ := evaluate_same hk r offset childMs off1 he
        simp only [g1, bind, Except.bind]
        exact evaluateChildren_same hk rs _ _ (mergeAll_same g2 hr) off1 ms off' h
end

/-- Encoders of one kind are the same, or both have techniques. -/
theorem same_or_sized {b b' : Builtin} (h : b.encoder.sig = b'.encoder.sig) :
    (b = b' ∧ ∀ n, blockSize b n = none) ∨
      ∃ k k' : Nat → Nat, (∀ n, blockSize b n = some (k n)) ∧ ∀ n, blockSize b' n = some (k' n) := by
  cases b <;> cases b' <;> first
    | exact .inl ⟨rfl, fun _ => rfl⟩
    | exact .inr ⟨_, _, fun _ => rfl, fun _ => rfl⟩
    | exact absurd h (by
        simp only [Builtin.encoder, eventEncoder, enumEncoder, positionEncoder, eulerEncoder, floatEncoder]; decide)

theorem assign_idx (k : Nat) (os : List Nat) (bs bs' : List Bytes) (acc acc' r r' : List Bytes × List Nat)
    (h : assignBlocks k os bs acc = .ok r) (h' : assignBlocks k os bs' acc' = .ok r') (he : acc.2 = acc'.2) : r.2 = r'.2 := by
  induction os generalizing bs bs' acc acc' with
  | nil =>
    simp only [assignBlocks, Except.ok.injEq] at h h'
    subst h h'; exact he
  | cons o os ih =>
    cases bs with
    | nil => simp [assignBlocks] at h
    | cons b bs =>
      cases bs' with
      | nil => simp [assignBlocks] at h'
      | cons b' bs' =>
        obtain ⟨blocks, idx⟩ := acc
        obtain ⟨blocks', idx'⟩ := acc'
        simp only at he
        subst he
        simp only [assignBlocks] at h h'
        cases h1 : goSet blocks o b with
        | error x => simp [h1, bind, Except.bind] at h
        | ok blocks1 =>
          cases h1' : goSet blocks' o b' with
          | error x => simp [h1', bind, Except.bind] at h'
          | ok blocks1' =>
            cases h2 : goSet idx o k with
            | error x => simp [h1, h2, bind, Except.bind] at h
            | ok idx1 =>
              simp only [h1, h1', h2, bind, Except.bind] at h h'
              exact ih _ _ _ _ h h' rfl

theorem encodeAll_same {ms ms' : List Mapping} (hr : List.Forall₂ MapRel ms ms') (k : Nat) (acc acc' r r' : List Bytes × List Nat)
    (hs hs' : List Bytes) (h : encodeAll ms k acc = .ok (.ok (hs, r))) (h' : encodeAll ms' k acc' = .ok (.ok (hs', r')))
    (he : acc.2 = acc'.2) : hs = hs' ∧ r.2 = r'.2 := by
  induction hr generalizing k acc acc' hs hs' with
  | nil =>
    simp only [encodeAll, Except.ok.injEq, Prod.mk.injEq] at h h'
    obtain ⟨rfl, rfl⟩ := h
    obtain ⟨rfl, rfl⟩ := h'
    exact ⟨rfl, he⟩
  | cons hm _ ih =>
    obtain ⟨hd, st, acc1, hs1, a1, a2, a3, rfl⟩ := encodeAll_cons h
    obtain ⟨hd', st', acc1', hs1', b1, b2, b3, rfl⟩ := encodeAll_cons h'
    rw [hm.order] at a2
    have hidx := assign_idx _ _ _ _ _ _ _ _ a2 b2 he
    obtain ⟨e1, e2⟩ := ih _ _ _ _ _ a3 b3 hidx
    refine ⟨?_, e2⟩
    rw [e1]
    congr 1
    obtain ⟨b, b', g1, g2, g3⟩ := hm.enc
    rw [g1, hm.colls] at a1
    rw [g2] at b1
    rcases same_or_sized g3 with ⟨rfl, -⟩ | ⟨k1, k2, s1, s2⟩
    · rw [a1] at b1
      simp only [Except.ok.injEq, Prod.mk.injEq] at b1
      exact b1.1
    · rw [(encode_size b _ _ _ a1 k1 s1).1, (encode_size b' _ _ _ b1 k2 s2).1]

/-- The part of `techniqueCost` that is not the times. -/
def blockCost (ws : List Builtin) (c : Coll) : Nat :=
  match (Builtin.chosen ws c).bind fun b => blockSize b c.times.length with
  | some k => varintSize k + k
  | none => 0

theorem techniqueCost_eq (ws : List Builtin) (tech : Nat) (c : Coll) :
    techniqueCost ws tech c = timesSize tech c.times.length + blockCost ws c := rfl

/-- The bytes of the streams, apart from times and blocks the same with other techniques. -/
theorem streams_cost (T T' : Tables) (ws ws' : List Builtin) (hi : T.encIdx = T'.encIdx) (ht : T.tech ≤ 2) (ht' : T'.tech ≤ 2)
    (cs : List Coll) (off : Nat) (h : ∀ (i : Nat) (c : Coll), cs[i]? = some c → c.times.length < 2 ^ 64 ∧
      off + i < T.encIdx.length ∧ ∃ x x', T.blocks[off + i]? = some x ∧ T'.blocks[off + i]? = some x' ∧
      (bytesArrayToBytes x).length + blockCost ws' c = (bytesArrayToBytes x').length + blockCost ws c) :
    ∃ d d', Emits (writeStreams T off (cs.map some)) () d ∧ Emits (writeStreams T' off (cs.map some)) () d' ∧
      d.length + (cs.map (techniqueCost ws' T'.tech)).sum = d'.length + (cs.map (techniqueCost ws T.tech)).sum := by
  induction cs generalizing off with
  | nil => exact ⟨[], [], Emits.pure (), Emits.pure (), rfl⟩
  | cons c cs ih =>
    obtain ⟨d, d', e, e', hd⟩ := ih (off + 1) (fun i c hc => by
      have := h (i + 1) c (by simpa using hc)
      rwa [show off + (i + 1) = off + 1 + i by omega] at this)
    obtain ⟨h1, h2, x, x', h3, h4, h5⟩ := h 0 c rfl
    rw [Nat.add_zero] at h2 h3 h4
    have g1 : goGet T.encIdx off = .ok T.encIdx[off] := by simp [goGet, List.getElem?_eq_getElem h2]
    have g1' : goGet T'.encIdx off = .ok T.encIdx[off] := by rw [← hi]; exact g1
    have g2 : goGet T.blocks off = .ok x := by simp [goGet, h3]
    have g2' : goGet T'.blocks off = .ok x' := by simp [goGet, h4]
    refine ⟨_, _, Emits.ofGo_bind g1 ((Emits.put _).bind ((Emits.put _).bind ((Emits.put _).bind
      (Emits.ofGo_bind g2 ((Emits.put _).bind e))))), Emits.ofGo_bind g1' ((Emits.put _).bind ((Emits.put _).bind
      ((Emits.put _).bind (Emits.ofGo_bind g2' ((Emits.put _).bind e'))))), ?_⟩
    simp only [List.length_append, List.map_cons, List.sum_cons, techniqueCost_eq, encTime_size _ ht _ h1,
      encTime_size _ ht' _ h1]
    omega

theorem refs_same (T T' : Tables) (hk : T.keys = T'.keys) (refs : List (Option BinRef)) : writeRefs T refs = writeRefs T' refs := by
  induction refs with
  | nil => rfl
  | cons r refs ih => cases r <;> simp only [writeRefs, hk, ih]

theorem bins_same (T T' : Tables) (hk : T.keys = T'.keys) (bins : List (Option Bin)) : writeBins T bins = writeBins T' bins := by
  induction bins with
  | nil => rfl
  | cons r bins ih => cases r <;> simp only [writeBins, hk, ih]

theorem tree_cost (T T' : Tables) (ws ws' : List Builtin) (hk : T.keys = T'.keys) (hi : T.encIdx = T'.encIdx)
    (ht : T.tech ≤ 2) (ht' : T'.tech ≤ 2) (rec : Rec) (hg : GoodRec rec) :
    ∀ off, (∀ (i : Nat) (c : Coll), rec.flat[i]? = some c → c.times.length < 2 ^ 64 ∧ off + i < T.encIdx.length ∧
        ∃ x x', T.blocks[off + i]? = some x ∧ T'.blocks[off + i]? = some x' ∧
        (bytesArrayToBytes x).length + blockCost ws' c = (bytesArrayToBytes x').length + blockCost ws c) →
      ∃ d d', Emits (recurseWrite T rec off) (.ok (off + rec.flat.length)) d ∧
        Emits (recurseWrite T' rec off) (.ok (off + rec.flat.length)) d' ∧
        d.length + (rec.flat.map (techniqueCost ws' T'.tech)).sum = d'.length + (rec.flat.map (techniqueCost ws T.tech)).sum := by
  induction hg with
  | mk id name colls recs md bins refs hc hr hm hb href ih =>
    intro off h
    rw [Rec.flat, flat_some] at *
    obtain ⟨d1, e1⟩ := md_emits T.keys md hm
    obtain ⟨d2, d2', e2, e2', h2⟩ := streams_cost T T' ws ws' hi ht ht' colls off (fun i c hic => by
      refine h i c ?_
      rw [List.getElem?_append_left (List.getElem?_eq_some_iff.1 hic).1]; exact hic)
    obtain ⟨d3, e3⟩ := refs_emits T refs href
    obtain ⟨d4, e4⟩ := bins_emits T bins hb
    have hlist : ∀ (rs : List Rec), (∀ r ∈ rs, ∀ off, (∀ (i : Nat) (c : Coll), r.flat[i]? = some c →
        c.times.length < 2 ^ 64 ∧ off + i < T.encIdx.length ∧
        ∃ x x', T.blocks[off + i]? = some x ∧ T'.blocks[off + i]? = some x' ∧
        (bytesArrayToBytes x).length + blockCost ws' c = (bytesArrayToBytes x').length + blockCost ws c) →
        ∃ d d', Emits (recurseWrite T r off) (.ok (off + r.flat.length)) d ∧
          Emits (recurseWrite T' r off) (.ok (off + r.flat.length)) d' ∧
          d.length + (r.flat.map (techniqueCost ws' T'.tech)).sum =
            d'.length + (r.flat.map (techniqueCost ws T.tech)).sum) →
        ∀ off, (∀ (i : Nat) (c : Coll), (Rec.flatList rs)[i]? = some c → c.times.length < 2 ^ 64 ∧
          off + i < T.encIdx.length ∧
          ∃ x x', T.blocks[off + i]? = some x ∧ T'.blocks[off + i]? = some x' ∧
          (bytesArrayToBytes x).length + blockCost ws' c = (bytesArrayToBytes x').length + blockCost ws c) →
        ∃ d d', Emits (recurseWriteList T rs off) (.ok (off + (Rec.flatList rs).length)) d ∧
          Emits (recurseWriteList T' rs off) (.ok (off + (Rec.flatList rs).length)) d' ∧
          d.length + ((Rec.flatList rs).map (techniqueCost ws' T'.tech)).sum =
            d'.length + ((Rec.flatList rs).map (techniqueCost ws T.tech)).sum := by
      intro rs
      induction rs with
      | nil =>
        intro _ off _
        exact ⟨[], [], by rw [recurseWriteList]; exact Emits.pure _, by rw [recurseWriteList]; exact Emits.pure _, rfl⟩
      | cons r rs ih2 =>
        intro hall off g
        rw [Rec.flatList] at *
        obtain ⟨d, d', hd, hd', hs⟩ := hall r (by simp) off (fun i c hic => g i c (by
          rw [List.getElem?_append_left (List.getElem?_eq_some_iff.1 hic).1]; exact hic))
        obtain ⟨f, f', hf, hf', hs'⟩ := ih2 (fun r hr => hall r (by simp [hr])) (off + r.flat.length) (fun i c hic => by
          have := g (r.flat.length + i) c (by rw [List.getElem?_append_right (by omega)]; simpa using hic)
          rwa [← Nat.add_assoc] at this)
        refine ⟨d ++ f, d' ++ f', ?_, ?_, ?_⟩
        · rw [recurseWriteList]
          refine hd.bind (d' := f) ?_
          simp only
          rw [List.length_append, ← Nat.add_assoc]; exact hf
        · rw [recurseWriteList]
          refine hd'.bind (d' := f') ?_
          simp only
          rw [List.length_append, ← Nat.add_assoc]; exact hf'
        · simp only [List.length_append, List.map_append, List.sum_append]; omega
    obtain ⟨d5, d5', e5, e5', h5⟩ := hlist recs ih (off + colls.length) (fun i c hic => by
      have := h (colls.length + i) c (by rw [List.getElem?_append_right (by omega)]; simpa using hic)
      rwa [← Nat.add_assoc] at this)
    rw [recurseWrite, recurseWrite, ← refs_same T T' hk, ← bins_same T T' hk, ← hk]
    have tail : ∀ (T : Tables) (d : Bytes), Emits (recurseWriteList T recs (off + colls.length))
        (.ok (off + colls.length + (Rec.flatList recs).length)) d →
        Emits ((recurseWriteList T recs (off + (colls.map some).length)).bind fun (x : Except Err Nat) =>
          (match x with
          | .error e => WProg.pure (.error e)
          | .ok newOffset => .err fun e => match e with
            | some e => .pure (.error e)
            | none => .pure (.ok newOffset) : WProg (Except Err Nat))) (.ok (off + (colls ++ Rec.flatList recs).length)) (d ++ []) := by
      intro T d hd
      refine Emits.bind (d' := []) (a := .ok (off + colls.length + (Rec.flatList recs).length)) (d := d) ?_ ?_
      · rw [List.length_map]; exact hd
      · refine Emits.err ?_
        rw [List.length_append, ← Nat.add_assoc]
        exact Emits.pure _
    refine ⟨_, _, (Emits.put _).bind ((Emits.put _).bind (e1.bind ((Emits.put _).bind (e2.bind ((Emits.put _).bind (e3.bind
      ((Emits.put _).bind (e4.bind ((Emits.put _).bind (tail T d5 e5)))))))))), (Emits.put _).bind ((Emits.put _).bind
      (e1.bind ((Emits.put _).bind (e2'.bind ((Emits.put _).bind (e3.bind
      ((Emits.put _).bind (e4.bind ((Emits.put _).bind (tail T' d5' e5')))))))))), ?_⟩
    simp only [List.length_append, List.map_append, List.sum_append]
    omega

theorem orders_nodup {ms : List Mapping} {cs : List Coll} (i2 : ∀ m ∈ ms, m.colls.length = m.order.length)
    (i3 : (ms.flatMap Mapping.pairs).Perm (cs.zipIdx 0)) : (ms.flatMap Mapping.order).Nodup := by
  have hmap : (ms.flatMap Mapping.pairs).map (·.2) = ms.flatMap Mapping.order := by
    clear i3
    induction ms with
    | nil => rfl
    | cons m ms ih =>
      rw [List.flatMap_cons, List.map_append, List.flatMap_cons, ih (fun m hm => i2 m (by simp [hm]))]
      congr 1
      rw [Mapping.pairs, List.map_snd_zip]
      exact Nat.le_of_eq (i2 m (by simp)).symm
  rw [← hmap]
  refine (i3.map (·.2)).nodup_iff.2 ?_
  show (List.map Prod.snd _).Nodup
  rw [List.zipIdx_map_snd]
  exact List.nodup_range'

theorem bytesArray_size (x : Bytes) (h : x.length < 2 ^ 64) :
    (bytesArrayToBytes x).length = varintSize x.length + x.length := by
  rw [bytesArrayToBytes, List.length_append, putUvarint_size, u64_small h]

theorem forall2_get {α β : Type} {R : α → β → Prop} {as : List α} {bs : List β} (h : List.Forall₂ R as bs) (j : Nat) (a : α)
    (ha : as[j]? = some a) : ∃ b, bs[j]? = some b ∧ R a b := by
  induction h generalizing j with
  | nil => simp at ha
  | @cons x y _ _ hxy _ ih =>
    cases j with
    | zero => simp only [List.getElem?_cons_zero, Option.some.injEq] at ha; subst ha; exact ⟨y, rfl, hxy⟩
    | succ j => exact ih j (by simpa using ha)

theorem prelude_same {ms ms' : List Mapping} (h : List.Forall₂ MapRel ms ms') : prelude ms 0 = prelude ms' 0 := by
  have h1 : (ms.map fun m => m.encoder.sig) = ms'.map fun m => m.encoder.sig := by
    induction h with
    | nil => rfl
    | cons h1 _ ih => simp only [List.map_cons, ih, h1.sig]
  have h2 : (ms.map fun m => putUvarint (u64 m.encoder.version)) = ms'.map fun m => putUvarint (u64 m.encoder.version) := by
    clear h1
    induction h with
    | nil => rfl
    | cons h1 _ ih =>
      obtain ⟨b, b', e1, e2, -⟩ := h1.enc
      have hv : ∀ b : Builtin, b.encoder.version = 0 := by intro b; cases b <;> rfl
      simp only [List.map_cons, ih, e1, e2, hv]
  rw [prelude, prelude, h1, h2]

theorem blockSize_bound (b : Builtin) (n k : Nat) (h : blockSize b n = some k) : k ≤ 40 + 30 * n := by
  cases b with
  | event => simp [blockSize] at h
  | enum => simp [blockSize] at h
  | position t =>
    simp only [blockSize, Option.some.injEq, positionsSize] at h
    split at h <;> [skip; split at h] <;> [skip; skip; split at h] <;> [skip; skip; skip; split at h] <;>
      [skip; skip; skip; skip; split at h] <;> omega
  | euler t =>
    simp only [blockSize, Option.some.injEq] at h
    unfold rotationsSize at h
    split at h <;> omega
  | float t =>
    simp only [blockSize, Option.some.injEq] at h
    unfold floatsSize at h
    split at h <;> omega

/-- The sizes of two files of one recording differ by what the techniques contribute. -/
theorem write_cost (F F' : Flate) (ws ws' : List Builtin) (hk : SameKinds ws ws') (tech tech' : Nat) (ht : tech ≤ 2)
    (ht' : tech' ≤ 2) (z z' : Bool) (orders : List (List Bytes)) (rec : Rec) (hg : GoodRec rec)
    (hl : ∀ c ∈ rec.flat, c.times.length ≤ maxAlloc) (a a' o o' : Buf) (n n' : Nat)
    (h : write F ⟨ws.map Builtin.encoder, tech, z⟩ orders rec a = .ok (n, none, o))
    (h' : write F' ⟨ws'.map Builtin.encoder, tech', z'⟩ orders rec a' = .ok (n', none, o')) :
    n + (rec.flat.map (techniqueCost ws' tech')).sum = n' + (rec.flat.map (techniqueCost ws tech)).sum := by
  obtain ⟨ms, off, hs, blocks, idx, x, wr, h1, h2, h3, h4, -⟩ := write_shape F _ orders rec a o n h
  obtain ⟨ms', off', hs', blocks', idx', x', wr', h1', h2', h3', h4', -⟩ := write_shape F' _ orders rec a' o' n' h'
  obtain ⟨ms2, hm2, hrel⟩ := evaluate_same hk rec 0 ms off h1
  simp only at h1'
  rw [hm2] at h1'
  simp only [Except.ok.injEq, Prod.mk.injEq] at h1'
  obtain ⟨rfl, -⟩ := h1'
  obtain ⟨-, i1, i2, i3⟩ := evaluate_inv (builtin_sigDetermines ws) rec 0 ms off h1
  obtain ⟨-, j1, j2, j3⟩ := evaluate_inv (builtin_sigDetermines ws') rec 0 ms2 off hm2
  obtain ⟨rfl, hidx⟩ := encodeAll_same hrel 0 _ _ _ _ hs hs' h2 h2' rfl
  simp only at hidx
  subst hidx
  obtain ⟨a1, -, a3⟩ := encodeAll_spec ms 0 _ _ hs h2 (orders_nodup (fun m hm => (i2 m hm).1) i3)
  obtain ⟨b1, -, b3⟩ := encodeAll_spec ms2 0 _ _ hs h2' (orders_nodup (fun m hm => (j2 m hm).1) j3)
  obtain ⟨d, d', e, e', hd⟩ := tree_cost ⟨accumulateKeys orders, blocks, idx, tech⟩ ⟨accumulateKeys orders, blocks', idx, tech'⟩
    ws ws' rfl rfl ht ht' rec hg 0 (by
      intro i c hic
      rw [Nat.zero_add]
      have hlen := hl c (List.mem_of_getElem? hic)
      have hlen' : c.times.length < 2 ^ 48 + 1 := by simp only [maxAlloc] at hlen; omega
      have hp : (c, i) ∈ rec.flat.zipIdx 0 := by
        rw [List.mem_zipIdx_iff_getElem?]; exact hic
      rw [← i3.mem_iff, List.mem_flatMap] at hp
      obtain ⟨m, hm, hmp⟩ := hp
      obtain ⟨j, hj, rfl⟩ := List.getElem_of_mem hm
      have hj' : ms[j]? = some ms[j] := List.getElem?_eq_getElem hj
      obtain ⟨t, htt, hte⟩ := List.getElem_of_mem hmp
      have ht1 : ms[j].colls[t]? = some c := by
        simp only [Mapping.pairs, List.getElem_zip, Prod.mk.injEq] at hte
        simp only [Mapping.pairs, List.length_zip] at htt
        rw [← hte.1]; exact List.getElem?_eq_getElem (by omega)
      have ht2 : ms[j].order[t]? = some i := by
        simp only [Mapping.pairs, List.getElem_zip, Prod.mk.injEq] at hte
        simp only [Mapping.pairs, List.length_zip] at htt
        rw [← hte.2]; exact List.getElem?_eq_getElem (by omega)
      obtain ⟨m', hm', hmr⟩ := forall2_get hrel j _ hj'
      obtain ⟨hd, bs, g1, g2, g3⟩ := a3 j ms[j] hj'
      obtain ⟨y, y1, y2, y3⟩ := g3 t i ht2
      obtain ⟨hd', bs', g1', g2', g3'⟩ := b3 j m' hm'
      obtain ⟨y', y1', y2', y3'⟩ := g3' t i (by rw [← hmr.order]; exact ht2)
      obtain ⟨w, hw, hwe⟩ := Layout.chosen_builtin ((i2 ms[j] hm).2.2 c (List.mem_of_getElem? ht1))
      have ht1' : m'.colls[t]? = some c := by rw [← hmr.colls]; exact ht1
      obtain ⟨w', hw', hwe'⟩ := Layout.chosen_builtin ((j2 m' (List.mem_of_getElem? hm')).2.2 c (List.mem_of_getElem? ht1'))
      have hsig : w.encoder.sig = w'.encoder.sig := by rw [← hwe, ← hwe', hmr.sig]
      rw [hwe] at g2
      rw [hwe', ← hmr.colls] at g2'
      refine ⟨by omega, (List.getElem?_eq_some_iff.1 y3).1, y, y', y2, y2', ?_⟩
      rw [blockCost, blockCost, hw, hw']
      simp only [Option.bind_some]
      rcases same_or_sized hsig with ⟨rfl, hn⟩ | ⟨k, k', hk1, hk2⟩
      · rw [hn]
        rw [g2] at g2'
        simp only [Except.ok.injEq, Prod.mk.injEq] at g2'
        obtain ⟨-, rfl⟩ := g2'
        rw [y1] at y1'
        simp only [Option.some.injEq] at y1'
        rw [y1']
      · rw [hk1, hk2]
        have z1 := (encode_size w _ _ _ g2 k hk1).2.2 t c y ht1 y1
        have z2 := (encode_size w' _ _ _ g2' k' hk2).2.2 t c y' ht1 y1'
        have q1 := blockSize_bound w _ _ (hk1 c.times.length)
        have q2 := blockSize_bound w' _ _ (hk2 c.times.length)
        rw [bytesArray_size y (by omega), bytesArray_size y' (by omega), z1, z2]
        simp only
        omega)
  have hd1 : d = wr.flatten := (WProg.Emits.det e ⟨wr, h3, rfl⟩).2
  have hd2 : d' = wr'.flatten := (WProg.Emits.det e' ⟨wr', h3', rfl⟩).2
  subst hd1 hd2
  rw [prelude_same hrel] at h4
  simp only [bodyWrites, List.flatten_append, List.flatten_cons, List.length_append] at h4 h4'
  simp only at hd
  omega

end Rap
