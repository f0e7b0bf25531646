import Verif.Proof.Short
import Verif.Model.Time

/-!
# Decoding capture times that end early
-/

namespace Rap

theorem wholeDoubles_length (d : Bytes) : (wholeDoubles d).length = d.length / 8 := by simp [wholeDoubles]

theorem wholeDoubles_drop (d : Bytes) : wholeDoubles (d.drop 8) = (wholeDoubles d).drop 1 := by
  apply List.ext_getElem
  · simp [wholeDoubles]; omega
  · intro i h1 h2
    simp [wholeDoubles, List.drop_drop]
    congr 4
    omega

theorem wholeDoubles_zero (d : Bytes) (x : F64) :
    (wholeDoubles d).getD 0 x = if 8 ≤ d.length then BitVec.ofNat 64 (leNat (d.take 8)) else x := by
  split
  · rename_i h
    rw [List.getD_eq_getElem _ _ (by rw [wholeDoubles_length]; omega)]
    simp [wholeDoubles, littleNat_eq]
  · rename_i h
    rw [getD_of_ge _ _ (by rw [wholeDoubles_length]; omega)]

theorem doubles_getD_drop (d : Bytes) (n : Nat) (x : F64) :
    (wholeDoubles (d.drop 8)).getD n x = (wholeDoubles d).getD (n + 1) x := by
  rw [wholeDoubles_drop, getD_drop, Nat.add_comm]

theorem run_decTime64Loop (n : Nat) (d : Bytes) (fin : Err) :
    ∃ s, (decTime64Loop n).run (⟨d, fin⟩ : Flat) = .ok ((List.range n).map fun i => (wholeDoubles d).getD i 0, s) := by
  induction n generalizing d with
  | zero => exact ⟨_, rfl⟩
  | succ n ih =>
    obtain ⟨s, hs⟩ := ih (d.drop 8)
    refine ⟨s, ?_⟩
    rw [List.range_succ_eq_map, List.map_cons, List.map_map, wholeDoubles_zero]
    simp only [decTime64Loop, Prog.run, Src.readFull]
    by_cases h : 8 ≤ d.length
    · simp only [h, if_true, Prog.bind_eq, Prog.run_bind, hs, Except.bind, doubles_getD_drop]
      rfl
    · rw [List.drop_eq_nil_of_le (by omega)] at hs
      simp only [h, if_false, Prog.bind_eq, Prog.run_bind, hs, Except.bind]
      have e : (fun i => (wholeDoubles ([] : Bytes)).getD i 0) = (fun i => (wholeDoubles d).getD i 0) ∘ Nat.succ := by
        funext i
        have := doubles_getD_drop d i 0
        rw [List.drop_eq_nil_of_le (by omega)] at this
        exact this
      rw [e]
      rfl

theorem run_decTime32Loop (n : Nat) (d : Bytes) (fin : Err) :
    ∃ s, (decTime32Loop n).run (⟨d, fin⟩ : Flat) = .ok ((List.range n).map fun i => widen ((wholeWords d).getD i 0), s) := by
  induction n generalizing d with
  | zero => exact ⟨_, rfl⟩
  | succ n ih =>
    obtain ⟨s, hs⟩ := ih (d.drop 4)
    refine ⟨s, ?_⟩
    rw [List.range_succ_eq_map, List.map_cons, List.map_map]
    simp only [decTime32Loop, Prog.bind_eq, Prog.run_bind, run_readF32, Except.bind, hs, words_getD_drop]
    rfl

theorem run_decTimeBstLoop (gap : F64) (n : Nat) (cur : F64) (buf d : Bytes) (hb : buf.length = 2) (fin : Err) :
    ∃ ts s, (decTimeBstLoop gap n cur buf).run (⟨d, fin⟩ : Flat) = .ok (ts, s) ∧
      cur :: ts = ((List.range n).map (heldFrom 2 d buf)).scanl (fun t c => t.add (Layout.point 0 gap c)) cur := by
  induction n generalizing cur buf d with
  | zero => exact ⟨[], _, rfl, rfl⟩
  | succ n ih =>
    obtain ⟨ts, s, hs, he⟩ := ih (cur.add (bstDec 0 gap (heldFrom 2 d buf 0))) (heldFrom 2 d buf 0) (d.drop 2)
      (heldFrom_length ..)
    refine ⟨cur.add (bstDec 0 gap (heldFrom 2 d buf 0)) :: ts, s, ?_, ?_⟩
    · simp only [decTimeBstLoop, Prog.bind_eq, Prog.run_bind, run_readInto, Except.bind, hb, hs]
      rfl
    · rw [List.range_succ_eq_map, List.map_cons, List.scanl_cons, List.map_map, Layout.point_eq, he]
      congr 3
      funext i
      exact (heldFrom_succ ..).symm

end Rap
