import Verif.Proof.Short
import Verif.Proof.ShortCut
import Verif.Proof.ShortTimes
import Verif.Proof.LayoutRead

/-!
# C72: stream data that ends early

A reader of a damaged or hand-made file can be given the data of a collection cut off. Whether the decoder of the
collection notices, and what it returns if it does not.
-/

namespace Rap

open Layout

theorem onBytes_of_run {α : Type} {p : Prog α} {d : Bytes} {a : α} {s : Flat} (h : p.run (⟨d, .eof⟩ : Flat) = .ok (a, s)) :
    p.onBytes d = .ok a := by
  unfold Prog.onBytes; rw [h]; rfl

theorem ok_congr (f : List (F64 × V3) → Coll) {a b : List (F64 × V3)} (h : a = b) :
    (.ok (some (f a), none) : Go (Option Coll × Option Err)) = .ok (some (f b), none) := by rw [h]

/-- Three doubles, each from the first eight of `w` bytes. -/
def doubles (w : Nat) (d : Bytes) (i : Nat) : V3 :=
  ⟨BitVec.ofNat 64 (littleNat ((held w d (3 * i)).take 8)), BitVec.ofNat 64 (littleNat ((held w d (3 * i + 1)).take 8)),
   BitVec.ofNat 64 (littleNat ((held w d (3 * i + 2)).take 8))⟩

theorem doubleVec_eq (w : Nat) (d : Bytes) : doubleVec w d (List.replicate w 0) = doubles w d := by
  funext i
  simp only [doubleVec, doubles, ← held_eq, littleNat_eq]
  rfl

/-- C72: doubles of positions and rotations. An error is reported if no byte of the last component is there; if some
of its bytes are missing, those of the component before it are taken for them. -/
theorem C72_raw64 (name h d : Bytes) (ts : List F64) :
    (positionDecode name h (0 :: d) ts = if ts ≠ [] ∧ d.length ≤ 8 * (3 * ts.length - 1) then .ok (none, some .eof)
      else .ok (some (.position name (ts.zip ((List.range ts.length).map (doubles 8 d)))), none)) ∧
    (eulerDecode name h (0 :: d) ts = if ts ≠ [] ∧ d.length ≤ 10 * (3 * ts.length - 1) then .ok (none, some .eof)
      else .ok (some (.euler name (ts.zip ((List.range ts.length).map (doubles 10 d)))), none)) := by
  constructor
  · obtain ⟨s, hs⟩ := run_decRaw64 8 (by omega) ts (List.replicate 8 0) d rfl .eof
    have : (positionCaptures ts).run (⟨0 :: d, .eof⟩ : Flat) = (decRaw64 ts (List.replicate 8 0)).run (⟨d, .eof⟩ : Flat) := rfl
    rw [hs, doubleVec_eq] at this
    unfold positionDecode
    rw [onBytes_of_run this]
    split <;> rfl
  · obtain ⟨s, hs⟩ := run_decRaw64 10 (by omega) ts (List.replicate 10 0) d rfl .eof
    have : (eulerCaptures ts).run (⟨0 :: d, .eof⟩ : Flat) = (decRaw64 ts (List.replicate 10 0)).run (⟨d, .eof⟩ : Flat) := rfl
    rw [hs, doubleVec_eq] at this
    unfold eulerDecode
    rw [onBytes_of_run this]
    split <;> rfl

/-- One position of which the last seven bytes are missing: accepted, with the bytes of the second component. -/
example : positionDecode [] [] (0 :: [1, 1, 1, 1, 1, 1, 1, 1, 2, 2, 2, 2, 2, 2, 2, 2, 3]) [0] =
    .ok (some (.position [] [(0, ⟨0x0101010101010101, 0x0202020202020202, 0x0202020202020203⟩)]), none) := by
  rfl

/-- C72: singles of positions. Nothing is ever reported: missing components are 0. -/
theorem C72_position_raw32 (name h d : Bytes) (ts : List F64) :
    positionDecode name h (1 :: d) ts = .ok (some (.position name (ts.zip ((List.range ts.length).map fun i =>
      ⟨widen ((wholeWords d).getD (3 * i) 0), widen ((wholeWords d).getD (3 * i + 1) 0),
       widen ((wholeWords d).getD (3 * i + 2) 0)⟩))), none) := by
  obtain ⟨s, hs⟩ := run_decRaw32_fresh ts 0 0 0 d .eof
  have : (positionCaptures ts).run (⟨1 :: d, .eof⟩ : Flat) =
      ((decRaw32 false ts 0 0 0).bind fun caps => .pure (.ok caps)).run (⟨d, .eof⟩ : Flat) := rfl
  rw [Prog.run_bind, hs] at this
  unfold positionDecode
  rw [onBytes_of_run this]
  rfl

/-- Two positions, of which only the first x is there. -/
example : positionDecode [] [] [1, 0, 0, 0x80, 0x3F] [0, 0x3FF0000000000000] =
    .ok (some (.position [] [(0, ⟨0x3FF0000000000000, 0, 0⟩), (0x3FF0000000000000, ⟨0, 0, 0⟩)]), none) :=
  by rw [C72_position_raw32]; exact ok_congr (.position []) (by decide +kernel)

/-- C72: singles of rotations. Nothing is ever reported: a missing component is that of the capture before. -/
theorem C72_euler_raw32 (name h d : Bytes) (ts : List F64) :
    eulerDecode name h (1 :: d) ts = .ok (some (.euler name (ts.zip ((List.range ts.length).map fun i =>
      ⟨widen (lastOf 3 (wholeWords d) 0 i 0), widen (lastOf 3 (wholeWords d) 0 i 1),
       widen (lastOf 3 (wholeWords d) 0 i 2)⟩))), none) := by
  obtain ⟨s, hs⟩ := run_decRaw32_stale ts 0 0 0 d .eof
  have : (eulerCaptures ts).run (⟨1 :: d, .eof⟩ : Flat) =
      ((decRaw32 true ts 0 0 0).bind fun caps => .pure (.ok caps)).run (⟨d, .eof⟩ : Flat) := rfl
  rw [Prog.run_bind, hs] at this
  unfold eulerDecode
  rw [onBytes_of_run this]
  rfl

/-- Two rotations, of which only the first x is there. -/
example : eulerDecode [] [] [1, 0, 0, 0x80, 0x3F] [0, 0x3FF0000000000000] =
    .ok (some (.euler [] [(0, ⟨0x3FF0000000000000, 0, 0⟩), (0x3FF0000000000000, ⟨0x3FF0000000000000, 0, 0⟩)]), none) :=
  by rw [C72_euler_raw32]; exact ok_congr (.euler []) (by decide +kernel)

/-- C72: angles in two bytes. Nothing is reported unless there is exactly one capture, stored as three singles, of
which the last must be there. A missing angle, or byte of one, is that before it. -/
theorem C72_angles (name h d : Bytes) (ts : List F64) :
    (ts.length ≠ 1 → eulerDecode name h (2 :: d) ts = .ok (some (.euler name (ts.zip ((List.range ts.length).map fun i =>
      ⟨point 0 0x4076800000000000 (held 2 d (3 * i)), point 0 0x4076800000000000 (held 2 d (3 * i + 1)),
       point 0 0x4076800000000000 (held 2 d (3 * i + 2))⟩))), none)) ∧
    (∀ t, ts = [t] → if d.length < 12 then ∃ e, eulerDecode name h (2 :: d) ts = .ok (none, some e)
      else eulerDecode name h (2 :: d) ts = .ok (some (.euler name [(t, ⟨widen ((wholeWords d).getD 0 0),
        widen ((wholeWords d).getD 1 0), widen ((wholeWords d).getD 2 0)⟩)]), none)) := by
  constructor
  · intro hn
    obtain ⟨s, hs⟩ := run_decRaw16Loop ts [0, 0] d rfl .eof
    have h1 : (eulerCaptures ts).run (⟨2 :: d, .eof⟩ : Flat) = (decRaw16 ts).run (⟨d, .eof⟩ : Flat) := rfl
    have h2 : decRaw16 ts = (decRaw16Loop ts [0, 0]).bind fun caps => .pure (.ok caps) := by
      match ts, hn with
      | [], _ => rfl
      | [t], hn => exact absurd rfl hn
      | _ :: _ :: _, _ => rfl
    rw [h2, Prog.run_bind, hs] at h1
    unfold eulerDecode
    rw [onBytes_of_run h1]
    have : ∀ i, angleVec d [0, 0] i = ⟨point 0 0x4076800000000000 (held 2 d (3 * i)),
        point 0 0x4076800000000000 (held 2 d (3 * i + 1)), point 0 0x4076800000000000 (held 2 d (3 * i + 2))⟩ := by
      intro i
      simp only [angleVec, point_eq, held_eq]
      rfl
    simp only [funext this]
    rfl
  · rintro t rfl
    have h1 : (eulerCaptures [t]).run (⟨2 :: d, .eof⟩ : Flat) = (decRaw16 [t]).run (⟨d, .eof⟩ : Flat) := rfl
    simp only [decRaw16, Prog.bind_eq, Prog.run_bind, run_readV32, Except.bind] at h1
    have hf := fullErr_isSome 4 (d.drop 8) .eof
    rw [List.length_drop] at hf
    split
    · rename_i hd
      cases he : fullErr 4 (d.drop 8) .eof with
      | none => rw [he] at hf; simp at hf; omega
      | some e =>
        refine ⟨e, ?_⟩
        rw [he] at h1
        unfold eulerDecode
        rw [onBytes_of_run h1]
        rfl
    · rename_i hd
      cases he : fullErr 4 (d.drop 8) .eof with
      | some e => rw [he] at hf; simp at hf; omega
      | none =>
        rw [he] at h1
        unfold eulerDecode
        rw [onBytes_of_run h1]
        rfl

/-- Two rotations of which nothing is there. -/
example : ([0, 0x3FF0000000000000] : List F64).length ≠ 1 ∧ (∃ v, eulerDecode [] [] [2] [0, 0x3FF0000000000000] =
    .ok (some (.euler [] [(0, v), (0x3FF0000000000000, v)]), none)) := ⟨by decide, _, by rfl⟩

/-- C72: positions in an octree. The nine singles at the beginning must be there to the last; a missing movement, or
byte of one, is that before it. One capture is stored as three singles, of which the last must be there. -/
theorem C72_oct (name h d : Bytes) (m : Nat) (hm : m = 1 ∨ m = 2) (t t' : F64) (ts : List F64) :
    (if d.length < 36 then ∃ e, positionDecode name h ((if m = 2 then 2 else 3) :: d) (t :: t' :: ts) = .ok (none, some e)
     else positionDecode name h ((if m = 2 then 2 else 3) :: d) (t :: t' :: ts) =
      .ok (some (.position name ((t :: t' :: ts).zip
        (((List.range (ts.length + 1)).map (held (3 * m) (d.drop 36))).scanl
          (move ⟨widen ((wholeWords d).getD 0 0), widen ((wholeWords d).getD 1 0), widen ((wholeWords d).getD 2 0)⟩
            ⟨widen ((wholeWords d).getD 3 0), widen ((wholeWords d).getD 4 0), widen ((wholeWords d).getD 5 0)⟩)
          ⟨widen ((wholeWords d).getD 6 0), widen ((wholeWords d).getD 7 0), widen ((wholeWords d).getD 8 0)⟩))), none)) ∧
    (if d.length < 12 then ∃ e, positionDecode name h ((if m = 2 then 2 else 3) :: d) [t] = .ok (none, some e)
     else positionDecode name h ((if m = 2 then 2 else 3) :: d) [t] =
      .ok (some (.position name [(t, ⟨widen ((wholeWords d).getD 0 0), widen ((wholeWords d).getD 1 0),
        widen ((wholeWords d).getD 2 0)⟩)]), none)) := by
  have hcap : ∀ ts, (positionCaptures ts).run (⟨(if m = 2 then 2 else 3) :: d, .eof⟩ : Flat) =
      (decOct m ts).run (⟨d, .eof⟩ : Flat) := by
    rcases hm with rfl | rfl <;> intro ts <;> rfl
  constructor
  · have h1 := hcap (t :: t' :: ts)
    have h2 : wordVec (wholeWords (d.drop 12)) 0 = wordVec (wholeWords d) 1 := (wordVec_succ d 0).symm
    have h3 : wordVec (wholeWords (d.drop 24)) 0 = wordVec (wholeWords d) 2 := by
      rw [wordVec_succ d 1, wordVec_succ (d.drop 12) 0, List.drop_drop]
    obtain ⟨s, hs⟩ := run_octDecodeLoop (wordVec (wholeWords d) 0) (wordVec (wholeWords d) 1) (3 * m) (t' :: ts)
      (wordVec (wholeWords d) 2) (List.replicate (3 * m) 0) (d.drop 36) (by simp) .eof
    simp only [decOct, Prog.bind_eq, Prog.run_bind, run_readV32, Except.bind, List.drop_drop, Nat.reduceAdd, h2, h3, hs] at h1
    have hf := fullErr_isSome 4 (d.drop 32) .eof
    rw [List.length_drop] at hf
    split
    · cases he : fullErr 4 (d.drop 32) .eof with
      | none => rw [he] at hf; simp at hf; omega
      | some e =>
        refine ⟨e, ?_⟩
        rw [he] at h1
        unfold positionDecode
        rw [onBytes_of_run h1]
        rfl
    · cases he : fullErr 4 (d.drop 32) .eof with
      | some e => rw [he] at hf; simp at hf; omega
      | none =>
        rw [he] at h1
        unfold positionDecode
        rw [onBytes_of_run h1]
        have hw := walk_scanl (wordVec (wholeWords d) 0) (wordVec (wholeWords d) 1) m (d.drop 36) (ts.length + 1) 0
          (wordVec (wholeWords d) 2)
        simp only [Nat.zero_add] at hw
        show Except.ok (some (Coll.position name ((t, wordVec (wholeWords d) 2) :: (t' :: ts).zip _)), none) = _
        rw [← List.zip_cons_cons, List.length_cons, hw]
        rfl
  · have h1 := hcap [t]
    simp only [decOct, Prog.bind_eq, Prog.run_bind, run_readV32, Except.bind] at h1
    have hf := fullErr_isSome 4 (d.drop 8) .eof
    rw [List.length_drop] at hf
    split
    · cases he : fullErr 4 (d.drop 8) .eof with
      | none => rw [he] at hf; simp at hf; omega
      | some e =>
        refine ⟨e, ?_⟩
        rw [he] at h1
        unfold positionDecode
        rw [onBytes_of_run h1]
        rfl
    · cases he : fullErr 4 (d.drop 8) .eof with
      | some e => rw [he] at hf; simp at hf; omega
      | none =>
        rw [he] at h1
        unfold positionDecode
        rw [onBytes_of_run h1]
        rfl

/-- A box from 0 to 1, the start, and no movement for the second position: one to the far corner of the box is made up. -/
example : ∃ v, positionDecode [] [] (3 :: ((List.replicate 12 0 ++ [0, 0, 0x80, 0x3F, 0, 0, 0x80, 0x3F, 0, 0, 0x80, 0x3F]) ++
    List.replicate 12 0)) [0, 0x3FF0000000000000] = .ok (some (.position [] [(0, ⟨0, 0, 0⟩), (0x3FF0000000000000, v)]), none) :=
  ⟨_, by
    have h := (C72_oct [] [] ((List.replicate 12 0 ++ [0, 0, 0x80, 0x3F, 0, 0, 0x80, 0x3F, 0, 0, 0x80, 0x3F]) ++
      List.replicate 12 0) 1 (.inl rfl) 0 0x3FF0000000000000 []).1
    rw [if_neg (by decide)] at h
    exact h.trans (ok_congr (.position []) (b := [(0, ⟨0, 0, 0⟩), (0x3FF0000000000000,
      ⟨0x3FEFF00000000000, 0x3FEFF00000000000, 0x3FEFF00000000000⟩)]) (by decide +kernel))⟩

/-- C72: floats, events and enum values. Data in the format of which anything is missing at the end is an error.
Missing: positions and rotations (see `C72_unreported`). -/
theorem C72_reported_partial {name sig header : Bytes} {ts : List F64} {c : Coll} {b : Bytes}
    (h : Captures name ts sig header c b) (hp : sig ≠ positionSig) (hu : sig ≠ eulerSig) (e : Builtin)
    (he : e.encoder.sig = sig) (hh : header.length ≤ sizeLimit) (hb : b.length ≤ sizeLimit) {pre rest : Bytes}
    (hw : pre ++ rest = b) (hr : rest ≠ []) :
    ∃ c' err, e.encoder.decode name header pre ts = .ok (c', some err) :=
  captures_cut h hp hu e he hh hb hw hr

/-- One value of an enum with the members "A" and "B"; the value is missing. -/
example : Captures [] [0] enumSig [2, 1, 65, 1, 66] (.enum [] [[65], [66]] [(0, 1)]) ([2, 0, 1] ++ [1]) ∧
    enumSig ≠ positionSig ∧ enumSig ≠ eulerSig ∧ Builtin.enum.encoder.sig = enumSig := by
  have v : ∀ (n : Nat) (h : n < 128), Varint n [n.toUInt8] := fun n h => by
    have := Varint.last n.toUInt8 (by simp; omega)
    simpa [Nat.mod_eq_of_lt (show n < 256 by omega)] using this
  have h1 : Counted Text [[65], [66]] [2, 1, 65, 1, 66] :=
    .mk (n := [2]) (v 2 (by decide)) (.cons (b := [1, 65]) (.mk (s := [65]) (v 1 (by decide)))
      (.cons (b := [1, 66]) (.mk (s := [66]) (v 1 (by decide))) .nil))
  have h2 : Counted (Ref [[65], [66]]) [[65], [66]] [2, 0, 1] :=
    .mk (n := [2]) (v 2 (by decide)) (.cons (b := [0]) (.mk (i := 0) rfl (v 0 (by decide)))
      (.cons (b := [1]) (.mk (i := 1) rfl (v 1 (by decide))) .nil))
  have h3 : Many (fun (v : BitVec 64) b => Varint v.toNat b) [1] [1] := .cons (b := [1]) (v 1 (by decide)) .nil
  exact ⟨.enum (ts := [0]) (vs := [1]) rfl h1 h2 h3, by decide +kernel, by decide +kernel, by decide +kernel⟩

/-- C72: singles of positions and rotations, and angles, are accepted wherever they are cut off. -/
theorem C72_unreported (name h d : Bytes) (ts : List F64) :
    (∃ c, positionDecode name h (1 :: d) ts = .ok (some c, none)) ∧
    (∃ c, eulerDecode name h (1 :: d) ts = .ok (some c, none)) ∧
    (ts.length ≠ 1 → ∃ c, eulerDecode name h (2 :: d) ts = .ok (some c, none)) :=
  ⟨⟨_, C72_position_raw32 ..⟩, ⟨_, C72_euler_raw32 ..⟩, fun h => ⟨_, (C72_angles ..).1 h⟩⟩

/-- A position at (1, 1, 1) in the format, of which all is missing but the technique: it is read as one at the origin. -/
example : Captures [] [0] positionSig [] (.position [] [(0, ⟨0x3FF0000000000000, 0x3FF0000000000000, 0x3FF0000000000000⟩)])
      ([1] ++ [0, 0, 0x80, 0x3F, 0, 0, 0x80, 0x3F, 0, 0, 0x80, 0x3F]) ∧
    positionDecode [] [] [1] [0] = .ok (some (.position [] [(0, ⟨0, 0, 0⟩)]), none) := by
  have s : Single 0x3F800000 [0, 0, 0x80, 0x3F] :=
    Fixed.cons 0 (Fixed.cons 0 (Fixed.cons 0x80 (Fixed.cons 0x3F Fixed.nil)))
  have w : widen 0x3F800000 = 0x3FF0000000000000 := by decide +kernel
  have v := Vec32.mk s s s
  rw [w] at v
  exact ⟨.position rfl (.raw32 (.cons v .nil)),
    by rw [C72_position_raw32]; exact ok_congr (.position []) (by decide +kernel)⟩

theorem run_times (t : UInt8) {n : Nat} {c : Bytes} (hc : Varint n c) (hn : n ≤ 2 ^ 45) (d : Bytes) :
    decTime.run (⟨t :: (c ++ d), .eof⟩ : Flat) =
      Prog.run (if t.toNat = 0 then do let ts ← decTime64Loop n; pure (ts, none)
       else if t.toNat = 1 then do let ts ← decTime32Loop n; pure (ts, none)
       else if t.toNat = 2 then decTimeBst n
       else pure ([], some (.badTimeTechnique t.toNat))) (⟨d, .eof⟩ : Flat) := by
  have hv := Prog.clean_flat .eof (clean_varint hc (by omega) d)
  have hm : Prog.make n 8 = Prog.pure () := by
    unfold Prog.make maxAlloc
    rw [if_pos (by omega)]
  unfold decTime
  simp only [Prog.run, Src.read, List.isEmpty_cons, Bool.false_eq_true, if_false, List.take_succ_cons, List.take_zero,
    List.drop_succ_cons, List.drop_zero, List.headD_cons, Prog.bind_eq, Prog.run_bind, hv, Except.bind, hm]
  rfl

/-- C72: capture times. Of `n` times announced, doubles and singles that are missing, or of which anything is missing,
are read as 0 without an error. Of compressed times only the start and the largest difference have to be there: a
missing difference, or byte of one, is that before it. -/
theorem C72_times {n : Nat} {c : Bytes} (hc : Varint n c) (hn : n ≤ 2 ^ 45) (d : Bytes) :
    decTime.onBytes (0 :: (c ++ d)) = .ok ((List.range n).map fun i => (wholeDoubles d).getD i 0, none) ∧
    decTime.onBytes (1 :: (c ++ d)) = .ok ((List.range n).map fun i => widen ((wholeWords d).getD i 0), none) ∧
    (n = 0 → decTime.onBytes (2 :: (c ++ d)) = .ok ([], none)) ∧
    (0 < n → d.length < (if n = 1 then 4 else 8) → ∃ e, decTime.onBytes (2 :: (c ++ d)) = .ok ([], some e)) ∧
    (0 < n → (if n = 1 then 4 else 8) ≤ d.length → decTime.onBytes (2 :: (c ++ d)) =
      .ok (((List.range (n - 1)).map (held 2 (d.drop 8))).scanl
        (fun t code => t.add (point 0 (widen ((wholeWords d).getD 1 0)) code)) (widen ((wholeWords d).getD 0 0)), none)) := by
  refine ⟨?_, ?_, ?_, ?_, ?_⟩
  · obtain ⟨s, hs⟩ := run_decTime64Loop n d .eof
    have h := run_times 0 hc hn d
    rw [if_pos (by decide)] at h
    rw [Prog.bind_eq, Prog.run_bind, hs] at h
    exact onBytes_of_run h
  · obtain ⟨s, hs⟩ := run_decTime32Loop n d .eof
    have h := run_times 1 hc hn d
    rw [if_neg (by decide), if_pos (by decide)] at h
    rw [Prog.bind_eq, Prog.run_bind, hs] at h
    exact onBytes_of_run h
  all_goals
    have h := run_times 2 hc hn d
    rw [if_neg (by decide), if_neg (by decide), if_pos (by decide)] at h
  · rintro rfl
    exact onBytes_of_run h
  · intro h0 hd
    obtain ⟨m, rfl⟩ := Nat.exists_eq_succ_of_ne_zero (by omega : n ≠ 0)
    simp only [decTimeBst, Prog.bind_eq, Prog.run_bind, run_readF32, Except.bind] at h
    have hf := fullErr_isSome 4 d .eof
    have hf' := fullErr_isSome 4 (d.drop 4) .eof
    rw [List.length_drop] at hf'
    cases he : fullErr 4 d .eof with
    | some e => rw [he] at h; exact ⟨e, onBytes_of_run h⟩
    | none =>
      rw [he] at h hf
      simp only [Option.isSome_none, Bool.false_eq_true, false_iff] at hf
      by_cases hm : m = 0
      · subst hm; simp at hd; omega
      · rw [if_neg (by omega)] at hd
        simp only [if_neg hm, Prog.run_bind, run_readF32, Except.bind] at h
        cases he' : fullErr 4 (d.drop 4) .eof with
        | some e => rw [he'] at h; exact ⟨e, onBytes_of_run h⟩
        | none => rw [he'] at hf'; simp at hf'; omega
  · intro h0 hd
    obtain ⟨m, rfl⟩ := Nat.exists_eq_succ_of_ne_zero (by omega : n ≠ 0)
    simp only [decTimeBst, Prog.bind_eq, Prog.run_bind, run_readF32, Except.bind] at h
    have hf := fullErr_isSome 4 d .eof
    have hf' := fullErr_isSome 4 (d.drop 4) .eof
    rw [List.length_drop] at hf'
    cases he : fullErr 4 d .eof with
    | some e => rw [he] at hf; simp at hf; split at hd <;> omega
    | none =>
      rw [he] at h
      by_cases hm : m = 0
      · subst hm
        exact onBytes_of_run h
      · rw [if_neg (by omega)] at hd
        simp only [if_neg hm, Prog.run_bind, run_readF32, Except.bind] at h
        cases he' : fullErr 4 (d.drop 4) .eof with
        | some e => rw [he'] at hf'; simp at hf'; omega
        | none =>
          rw [he'] at h
          have hmk : Prog.make (m + 1) 8 = Prog.pure () := by
            unfold Prog.make maxAlloc
            rw [if_pos (by omega)]
          obtain ⟨ts, s, hs, hsc⟩ := run_decTimeBstLoop (widen ((wholeWords d).getD 1 0)) m
            (widen ((wholeWords d).getD 0 0)) [0, 0] (d.drop 8) rfl .eof
          simp only [hmk, Prog.run_bind, Prog.run, Except.bind, words_getD_drop, List.drop_drop, hs] at h
          rw [hsc] at h
          have hh : held 2 (d.drop 8) = heldFrom 2 (d.drop 8) [0, 0] := by
            funext i; exact held_eq ..
          rw [Nat.succ_sub_one, hh]
          exact onBytes_of_run h

/-- Three times, of which only the first is there: the others are 0. -/
example : Varint 3 [3] ∧ decTime.onBytes (0 :: ([3] ++ [0, 0, 0, 0, 0, 0, 0xF0, 0x3F])) =
    .ok ([0x3FF0000000000000, 0, 0], none) := by
  have h : Varint 3 [3] := Varint.last 3 (by decide)
  refine ⟨h, ?_⟩
  rw [(C72_times h (by decide) _).1]
  exact congrArg (fun l => Except.ok (l, none)) (by decide +kernel)

/-- Three compressed times between which up to 1 passes, without the differences: about 0 seconds, each. -/
example : Varint 3 [3] ∧ (if (3 : Nat) = 1 then 4 else 8) ≤ [0, 0, 0, 0, 0, 0, 0x80, 0x3F].length ∧
    decTime.onBytes (2 :: ([3] ++ [0, 0, 0, 0, 0, 0, 0x80, 0x3F])) =
      .ok ([0, 0x3EE0000000000000, 0x3EF0000000000000], none) := by
  have h : Varint 3 [3] := Varint.last 3 (by decide)
  refine ⟨h, by decide, ?_⟩
  rw [(C72_times h (by decide) _).2.2.2.2 (by decide) (by decide)]
  exact congrArg (fun l => Except.ok (l, none)) (by decide +kernel)

end Rap
