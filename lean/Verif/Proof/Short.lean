import Verif.Spec.Short
import Verif.Proof.LayoutBasic
import Verif.Proof.Prog
import Mathlib.Data.List.GetD
import Mathlib.Order.Basic

/-!
# Decoding data that ends early
-/

namespace Rap

/-! ## The last group that has an item -/

theorem getD_of_lt {α : Type} (l : List α) (n : Nat) (h : n < l.length) (x y : α) : l.getD n x = l.getD n y := by
  rw [List.getD_eq_getElem _ _ h, List.getD_eq_getElem _ _ h]

theorem getD_of_ge {α : Type} (l : List α) (n : Nat) (h : l.length ≤ n) (x : α) : l.getD n x = x :=
  List.getD_eq_default _ _ h

theorem getD_drop {α : Type} (l : List α) (m n : Nat) (x : α) : (l.drop m).getD n x = l.getD (m + n) x := by
  simp [List.getD_eq_getElem?_getD, List.getElem?_drop]

theorem lastOf_zero {α : Type} (w : Nat) (l : List α) (x : α) (k : Nat) : lastOf w l x 0 k = l.getD k x := by
  simp [lastOf]

theorem lastOf_succ {α : Type} {w k : Nat} (hk : k < w) (l : List α) (x : α) (i : Nat) :
    lastOf w l x (i + 1) k = lastOf w (l.drop w) (l.getD k x) i k := by
  unfold lastOf
  rw [List.length_drop, getD_drop]
  by_cases h : w + k < l.length
  · have e : l.length - 1 - k = (l.length - w - 1 - k) + w := by omega
    rw [e, Nat.add_div_right _ (by omega)]
    have e2 : min (i + 1) ((l.length - w - 1 - k) / w + 1) = min i ((l.length - w - 1 - k) / w) + 1 := by omega
    rw [e2]
    have hle : w * min i ((l.length - w - 1 - k) / w) ≤ l.length - w - 1 - k :=
      Nat.le_trans (Nat.mul_le_mul_left w (Nat.min_le_right _ _)) (Nat.mul_div_le _ _)
    have e3 : w * (min i ((l.length - w - 1 - k) / w) + 1) + k = w + (w * min i ((l.length - w - 1 - k) / w) + k) := by
      rw [Nat.mul_add, Nat.mul_one]; omega
    rw [e3]
    exact getD_of_lt _ _ (by omega) _ _
  · have e : (l.length - 1 - k) / w = 0 := Nat.div_eq_of_lt (by omega)
    rw [e, Nat.min_zero, Nat.mul_zero, Nat.zero_add]
    rw [getD_of_ge l (w + _) (by omega)]

/-- `held` with the bytes the buffer holds before. -/
def heldFrom (w : Nat) (d buf : Bytes) (i : Nat) : Bytes := (List.range w).map fun k => lastOf w d (buf.getD k 0) i k

theorem heldFrom_length (w : Nat) (d buf : Bytes) (i : Nat) : (heldFrom w d buf i).length = w := by simp [heldFrom]

theorem held_eq (w : Nat) (d : Bytes) (i : Nat) : held w d i = heldFrom w d (List.replicate w 0) i := by
  unfold held heldFrom
  apply List.map_congr_left
  intro k hk
  have hk := List.mem_range.1 hk
  rw [List.getD_replicate (x := (0 : UInt8)) (y := 0) hk]

theorem heldFrom_succ (w : Nat) (d buf : Bytes) (i : Nat) :
    heldFrom w d buf (i + 1) = heldFrom w (d.drop w) (heldFrom w d buf 0) i := by
  unfold heldFrom
  apply List.map_congr_left
  intro k hk
  have hk := List.mem_range.1 hk
  rw [lastOf_succ hk]
  congr 1
  rw [List.getD_eq_getElem (List.map _ _) _ (by simpa using hk)]
  simp only [List.getElem_map, List.getElem_range, lastOf_zero]

theorem heldFrom_three (w : Nat) (d buf : Bytes) (i : Nat) :
    heldFrom w d buf (i + 3) = heldFrom w (d.drop (3 * w)) (heldFrom w d buf 2) i := by
  rw [heldFrom_succ w d buf (i + 2), heldFrom_succ w _ _ (i + 1), heldFrom_succ w _ _ i, heldFrom_succ w d buf 1,
    heldFrom_succ w _ _ 0, List.drop_drop, List.drop_drop]
  congr 2
  omega

/-! ## Reading -/

theorem run_readInto (buf d : Bytes) (fin : Err) :
    (readInto buf).run (⟨d, fin⟩ : Flat) =
      .ok ((heldFrom buf.length d buf 0, if d.isEmpty then some fin else none), ⟨d.drop buf.length, fin⟩) := by
  have hb : ∀ got : Bytes, got = d.take buf.length → got ++ buf.drop got.length = heldFrom buf.length d buf 0 := by
    rintro got rfl
    apply List.ext_getElem
    · simp [heldFrom]; omega
    · intro k h1 h2
      rw [heldFrom_length] at h2
      simp only [heldFrom, List.getElem_map, List.getElem_range, lastOf_zero]
      by_cases hk : k < d.length
      · rw [List.getElem_append_left (by simp; omega), List.getElem_take, List.getD_eq_getElem _ _ hk]
      · rw [List.getElem_append_right (by simp; omega), getD_of_ge _ _ (by omega), List.getD_eq_getElem _ _ h2,
          List.getElem_drop]
        congr 1
        simp; omega
  unfold readInto
  simp only [Prog.run]
  by_cases he : d.isEmpty = true
  · have hd : d = [] := by simpa using he
    subst hd
    simp only [Src.read, List.isEmpty_nil, if_true, List.drop_nil]
    rw [hb [] (by simp)]
  · simp only [Src.read, he, Bool.false_eq_true, if_false]
    rw [hb _ rfl]

theorem littleNat_eq (b : Bytes) : littleNat b = leNat b := by
  induction b with
  | nil => rfl
  | cons c b ih => rw [leNat, ← ih]; rfl

theorem wholeWords_length (d : Bytes) : (wholeWords d).length = d.length / 4 := by simp [wholeWords]

theorem wholeWords_drop (d : Bytes) : wholeWords (d.drop 4) = (wholeWords d).drop 1 := by
  apply List.ext_getElem
  · simp [wholeWords]; omega
  · intro i h1 h2
    simp [wholeWords, List.drop_drop]
    congr 4
    omega

theorem wholeWords_zero (d : Bytes) (x : F32) :
    (wholeWords d).getD 0 x = if 4 ≤ d.length then BitVec.ofNat 32 (leNat (d.take 4)) else x := by
  split
  · rename_i h
    rw [List.getD_eq_getElem _ _ (by rw [wholeWords_length]; omega)]
    simp [wholeWords, littleNat_eq]
  · rename_i h
    rw [getD_of_ge _ _ (by rw [wholeWords_length]; omega)]

/-- The error of a full read. -/
def fullErr (n : Nat) (d : Bytes) (fin : Err) : Option Err :=
  if n ≤ d.length then none else some (if d.isEmpty then fin else midErr fin)

theorem fullErr_isSome (n : Nat) (d : Bytes) (fin : Err) : (fullErr n d fin).isSome = true ↔ d.length < n := by
  unfold fullErr
  split <;> simp <;> omega

theorem run_readF32 (old : F32) (d : Bytes) (fin : Err) :
    (readF32 old).run (⟨d, fin⟩ : Flat) = .ok (((wholeWords d).getD 0 old, fullErr 4 d fin), ⟨d.drop 4, fin⟩) := by
  rw [wholeWords_zero]
  unfold readF32 fullErr
  simp only [Prog.run, Src.readFull]
  by_cases h : 4 ≤ d.length
  · simp only [h, if_true]
    rfl
  · simp only [h, if_false]
    rw [List.drop_eq_nil_of_le (by omega)]
    rfl

theorem words_getD_drop (d : Bytes) (n : Nat) (x : F32) : (wholeWords (d.drop 4)).getD n x = (wholeWords d).getD (n + 1) x := by
  rw [wholeWords_drop, getD_drop, Nat.add_comm]

/-- The three singles at the beginning, missing ones being 0. -/
def wordVec (W : List F32) (i : Nat) : V3 :=
  ⟨widen (W.getD (3 * i) 0), widen (W.getD (3 * i + 1) 0), widen (W.getD (3 * i + 2) 0)⟩

theorem run_readV32 (d : Bytes) (fin : Err) :
    readV32.run (⟨d, fin⟩ : Flat) = .ok ((wordVec (wholeWords d) 0, fullErr 4 (d.drop 8) fin), ⟨d.drop 12, fin⟩) := by
  unfold readV32
  simp only [Prog.bind_eq, Prog.run_bind, run_readF32, Except.bind, Prog.run, List.drop_drop, pure, words_getD_drop]
  rw [show d.drop 8 = (d.drop 4).drop 4 by rw [List.drop_drop], words_getD_drop, words_getD_drop]
  rfl

/-! ## The decoders -/

theorem zip_range_succ {α : Type} (t : F64) (ts : List F64) (f : Nat → α) :
    (t :: ts).zip ((List.range (t :: ts).length).map f) = (t, f 0) :: ts.zip ((List.range ts.length).map fun i => f (i + 1)) := by
  rw [List.length_cons, List.range_succ_eq_map]
  simp [Function.comp_def]

theorem wordVec_succ (d : Bytes) (i : Nat) : wordVec (wholeWords d) (i + 1) = wordVec (wholeWords (d.drop 12)) i := by
  unfold wordVec
  have h : ∀ n, (wholeWords (d.drop 12)).getD n 0 = (wholeWords d).getD (n + 3) 0 := by
    intro n
    rw [show d.drop 12 = ((d.drop 4).drop 4).drop 4 by simp [List.drop_drop], words_getD_drop, words_getD_drop,
      words_getD_drop]
  rw [h, h, h]
  congr 3

theorem words_drop8 (d : Bytes) (n : Nat) (x : F32) : (wholeWords (d.drop 8)).getD n x = (wholeWords d).getD (n + 2) x := by
  rw [show d.drop 8 = (d.drop 4).drop 4 by simp [List.drop_drop], words_getD_drop, words_getD_drop]

theorem run_decRaw32_fresh (ts : List F64) (x y z : F32) (d : Bytes) (fin : Err) :
    ∃ s, (decRaw32 false ts x y z).run (⟨d, fin⟩ : Flat) =
      .ok (ts.zip ((List.range ts.length).map (wordVec (wholeWords d))), s) := by
  induction ts generalizing x y z d with
  | nil => exact ⟨_, rfl⟩
  | cons t ts ih =>
    obtain ⟨s, hs⟩ := ih ((wholeWords d).getD 0 0) ((wholeWords d).getD 1 0) ((wholeWords d).getD 2 0) (d.drop 12)
    refine ⟨s, ?_⟩
    simp only [decRaw32, Prog.bind_eq, Prog.run_bind, run_readF32, Except.bind, List.drop_drop, Bool.false_eq_true,
      if_false, words_getD_drop, words_drop8, Nat.zero_add, Nat.reduceAdd, hs, zip_range_succ, wordVec_succ]
    rfl

/-- Rotations: the variables keep their values. -/
def lastVec (W : List F32) (x y z : F32) (i : Nat) : V3 :=
  ⟨widen (lastOf 3 W x i 0), widen (lastOf 3 W y i 1), widen (lastOf 3 W z i 2)⟩

theorem wholeWords_drop12 (d : Bytes) : wholeWords (d.drop 12) = (wholeWords d).drop 3 := by
  rw [show d.drop 12 = ((d.drop 4).drop 4).drop 4 by simp [List.drop_drop], wholeWords_drop, wholeWords_drop,
    wholeWords_drop, List.drop_drop, List.drop_drop]

theorem lastVec_succ (d : Bytes) (x y z : F32) (i : Nat) : lastVec (wholeWords d) x y z (i + 1) =
    lastVec (wholeWords (d.drop 12)) ((wholeWords d).getD 0 x) ((wholeWords d).getD 1 y) ((wholeWords d).getD 2 z) i := by
  unfold lastVec
  rw [lastOf_succ (by omega), lastOf_succ (by omega), lastOf_succ (by omega), wholeWords_drop12]

theorem run_decRaw32_stale (ts : List F64) (x y z : F32) (d : Bytes) (fin : Err) :
    ∃ s, (decRaw32 true ts x y z).run (⟨d, fin⟩ : Flat) =
      .ok (ts.zip ((List.range ts.length).map (lastVec (wholeWords d) x y z)), s) := by
  induction ts generalizing x y z d with
  | nil => exact ⟨_, rfl⟩
  | cons t ts ih =>
    obtain ⟨s, hs⟩ := ih ((wholeWords d).getD 0 x) ((wholeWords d).getD 1 y) ((wholeWords d).getD 2 z) (d.drop 12)
    refine ⟨s, ?_⟩
    simp only [decRaw32, Prog.bind_eq, Prog.run_bind, run_readF32, Except.bind, List.drop_drop,
      if_true, words_getD_drop, words_drop8, Nat.zero_add, Nat.reduceAdd, hs, zip_range_succ, lastVec_succ]
    simp only [lastVec, lastOf_zero]
    rfl

/-- Three angles from the buffers held. -/
def angleVec (d buf : Bytes) (i : Nat) : V3 :=
  ⟨bstDec 0 f360 (heldFrom 2 d buf (3 * i)), bstDec 0 f360 (heldFrom 2 d buf (3 * i + 1)),
   bstDec 0 f360 (heldFrom 2 d buf (3 * i + 2))⟩

theorem run_three {w : Nat} (d buf : Bytes) :
    heldFrom w (d.drop w) (heldFrom w d buf 0) 0 = heldFrom w d buf 1 ∧
    heldFrom w (d.drop (w + w)) (heldFrom w d buf 1) 0 = heldFrom w d buf 2 := by
  constructor
  · rw [← heldFrom_succ]
  · rw [heldFrom_succ w d buf 1, heldFrom_succ w (d.drop w) _ 0, List.drop_drop, ← heldFrom_succ]

theorem run_decRaw16Loop (ts : List F64) (buf d : Bytes) (hb : buf.length = 2) (fin : Err) :
    ∃ s, (decRaw16Loop ts buf).run (⟨d, fin⟩ : Flat) = .ok (ts.zip ((List.range ts.length).map (angleVec d buf)), s) := by
  induction ts generalizing buf d with
  | nil => exact ⟨_, rfl⟩
  | cons t ts ih =>
    obtain ⟨s, hs⟩ := ih (heldFrom 2 d buf 2) (d.drop 6) (heldFrom_length ..)
    refine ⟨s, ?_⟩
    obtain ⟨h1, h2⟩ := run_three (w := 2) d buf
    simp only [decRaw16Loop, Prog.bind_eq, Prog.run_bind, run_readInto, Except.bind, List.drop_drop, hb, heldFrom_length,
      h1, h2, Nat.reduceAdd, hs, zip_range_succ]
    have e : ∀ i, angleVec d buf (i + 1) = angleVec (d.drop 6) (heldFrom 2 d buf 2) i := by
      intro i
      simp only [angleVec, show 3 * (i + 1) = 3 * i + 3 by omega, show 3 * i + 3 + 1 = (3 * i + 1) + 3 by omega,
        show 3 * i + 3 + 2 = (3 * i + 2) + 3 by omega, heldFrom_three]
    simp only [e]
    rfl

/-- Three doubles from the buffers held. -/
def doubleVec (w : Nat) (d buf : Bytes) (i : Nat) : V3 :=
  ⟨bufF64 (heldFrom w d buf (3 * i)), bufF64 (heldFrom w d buf (3 * i + 1)), bufF64 (heldFrom w d buf (3 * i + 2))⟩

theorem doubleVec_succ (w : Nat) (d buf : Bytes) (i : Nat) :
    doubleVec w d buf (i + 1) = doubleVec w (d.drop (3 * w)) (heldFrom w d buf 2) i := by
  simp only [doubleVec, show 3 * (i + 1) = 3 * i + 3 by omega, show 3 * i + 3 + 1 = (3 * i + 1) + 3 by omega,
    show 3 * i + 3 + 2 = (3 * i + 2) + 3 by omega, heldFrom_three]

theorem run_decRaw64 (w : Nat) (hw : 0 < w) (ts : List F64) (buf d : Bytes) (hb : buf.length = w) (fin : Err) :
    ∃ s, (decRaw64 ts buf).run (⟨d, fin⟩ : Flat) =
      .ok (if ts ≠ [] ∧ d.length ≤ w * (3 * ts.length - 1) then .error fin
        else .ok (ts.zip ((List.range ts.length).map (doubleVec w d buf))), s) := by
  induction ts generalizing buf d with
  | nil => exact ⟨_, by simp [decRaw64]; rfl⟩
  | cons t ts ih =>
    obtain ⟨h1, h2⟩ := run_three (w := w) d buf
    have hlen : w * (3 * (t :: ts).length - 1) = w * (3 * ts.length) + w + w := by
      rw [List.length_cons, show 3 * (ts.length + 1) - 1 = 3 * ts.length + 1 + 1 by omega, Nat.mul_add, Nat.mul_add]
      omega
    by_cases c1 : d.length = 0
    · have hd : d = [] := List.length_eq_zero_iff.1 c1
      refine ⟨⟨[], fin⟩, ?_⟩
      rw [if_pos ⟨by simp, by omega⟩]
      simp [decRaw64, Prog.run_bind, run_readInto, Except.bind, hd, Prog.run, pure]
    · have i1 : d.isEmpty = false := by
        cases d
        · simp at c1
        · rfl
      by_cases c2 : d.length ≤ w
      · have i2 : (d.drop w) = [] := List.drop_eq_nil_of_le c2
        refine ⟨⟨[], fin⟩, ?_⟩
        rw [if_pos ⟨by simp, by omega⟩]
        simp [decRaw64, Prog.run_bind, run_readInto, Except.bind, Prog.run, pure, i1, i2, hb]
      · have i2 : (d.drop w).isEmpty = false := by
          rw [List.isEmpty_eq_false_iff, Ne, List.drop_eq_nil_iff]; omega
        by_cases c3 : d.length ≤ w + w
        · have i3 : (d.drop (w + w)) = [] := List.drop_eq_nil_of_le c3
          refine ⟨⟨[], fin⟩, ?_⟩
          rw [if_pos ⟨by simp, by omega⟩]
          simp only [decRaw64, Prog.bind_eq, Prog.run_bind, run_readInto, Except.bind, hb, i1, i2, heldFrom_length, h1,
            List.drop_drop, i3, Bool.false_eq_true, if_false, List.isEmpty_nil, if_true]
          simp [Prog.run, pure]
        · have i3 : (d.drop (w + w)).isEmpty = false := by
            rw [List.isEmpty_eq_false_iff, Ne, List.drop_eq_nil_iff]; omega
          obtain ⟨s, hs⟩ := ih (heldFrom w d buf 2) (d.drop (w + w + w)) (heldFrom_length ..)
          have e : ∀ i, doubleVec w d buf (i + 1) = doubleVec w (d.drop (w + w + w)) (heldFrom w d buf 2) i := by
            intro i
            rw [doubleVec_succ, show 3 * w = w + w + w by omega]
          refine ⟨s, ?_⟩
          simp only [decRaw64, Prog.bind_eq, Prog.run_bind, run_readInto, Except.bind, hb, i1, i2, heldFrom_length, h1, h2,
            List.drop_drop, i3, Bool.false_eq_true, if_false, hs, zip_range_succ, e]
          have hc : (ts ≠ [] ∧ (d.drop (w + w + w)).length ≤ w * (3 * ts.length - 1)) ↔
              ((t :: ts) ≠ [] ∧ d.length ≤ w * (3 * (t :: ts).length - 1)) := by
            rw [hlen, List.length_drop]
            cases ts with
            | nil => simp; omega
            | cons t' ts =>
              have : w * (3 * (t' :: ts).length) = w * (3 * (t' :: ts).length - 1) + w := by
                rw [List.length_cons, show 3 * (ts.length + 1) = (3 * (ts.length + 1) - 1) + 1 by omega, Nat.mul_add]
                simp
              simp only [ne_eq, reduceCtorEq, not_false_eq_true, true_and]
              omega
          by_cases h : ts ≠ [] ∧ (d.drop (w + w + w)).length ≤ w * (3 * ts.length - 1)
          · rw [if_pos h, if_pos (hc.1 h)]; rfl
          · rw [if_neg h, if_neg (mt hc.2 h)]; rfl

/-- Positions from the codes held. -/
def walk (min max : V3) (w : Nat) (d buf : Bytes) : Nat → Nat → V3 → List V3
  | 0, _, _ => []
  | n + 1, i, cur =>
    let next := cur.add (octCellsToVec3 min max (octCells (heldFrom w d buf i)))
    next :: walk min max w d buf n (i + 1) next

theorem walk_succ (min max : V3) (w : Nat) (d buf : Bytes) (n i : Nat) (cur : V3) :
    walk min max w d buf n (i + 1) cur = walk min max w (d.drop w) (heldFrom w d buf 0) n i cur := by
  induction n generalizing i cur with
  | zero => rfl
  | succ n ih => simp only [walk, heldFrom_succ w d buf i, ih]

theorem run_octDecodeLoop (min max : V3) (w : Nat) (ts : List F64) (cur : V3) (buf d : Bytes) (hb : buf.length = w)
    (fin : Err) :
    ∃ s, (octDecodeLoop min max ts cur buf).run (⟨d, fin⟩ : Flat) = .ok (ts.zip (walk min max w d buf ts.length 0 cur), s) := by
  induction ts generalizing buf d cur with
  | nil => exact ⟨_, rfl⟩
  | cons t ts ih =>
    obtain ⟨s, hs⟩ := ih (cur.add (octCellsToVec3 min max (octCells (heldFrom w d buf 0)))) (heldFrom w d buf 0) (d.drop w)
      (heldFrom_length ..)
    refine ⟨s, ?_⟩
    simp only [octDecodeLoop, Prog.bind_eq, Prog.run_bind, run_readInto, Except.bind, hb, hs, List.length_cons, walk,
      walk_succ, List.zip_cons_cons]
    rfl

theorem walk_scanl (min max : V3) (m : Nat) (d : Bytes) (n i : Nat) (cur : V3) :
    cur :: walk min max (3 * m) d (List.replicate (3 * m) 0) n i cur =
      (((List.range n).map fun j => held (3 * m) d (i + j)).scanl (Layout.move min max) cur) := by
  induction n generalizing i cur with
  | zero => simp [walk]
  | succ n ih =>
    rw [List.range_succ_eq_map, List.map_cons, List.scanl_cons, walk, List.map_map]
    have e : Layout.move min max cur (held (3 * m) d (i + 0)) =
        cur.add (octCellsToVec3 min max (octCells (heldFrom (3 * m) d (List.replicate (3 * m) 0) i))) := by
      rw [Nat.add_zero, held_eq, Layout.move_eq _ _ _ m _ (heldFrom_length ..)]
    rw [e]
    rw [ih (i + 1)]
    congr 2
    apply List.map_congr_left
    intro j _
    simp only [Function.comp]
    congr 1
    omega

end Rap
