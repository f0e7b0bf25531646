import Verif.Props.Truncate
import Verif.Props.Metadata

/-!
# C59: values that are cut off

The readers of internal/io/binary and format/metadata on a strict prefix of what their writers produce.
-/

namespace Rap

open Prog

/-- A reader that takes all of an input notices any cut. -/
theorem cut_reported {α : Type} {p : Prog α} {Q : α → Prop} {c : α} {pre rest : Bytes} (hp : p.RawReads (· = 1))
    (hts : TS false p fun _ a => Q a) (hc : p.clean (pre ++ rest) = some (c, [])) (hr : rest ≠ []) (fin : Err) :
    ∃ a, p.run (⟨pre, fin⟩ : Flat) = .ok (a, ⟨[], fin⟩) ∧ Q a := by
  rcases Trunc.run_flat hp hc (hts _ _ _ hc) fin with ⟨R', h⟩ | h
  · have := cut_rest hc h
    simp at this
    exact absurd this.2 hr
  · exact h

theorem cut_triple {α : Type} {p : Prog (α × Nat × Option Err)} {c : α × Nat × Option Err} {pre rest w : Bytes}
    (hp : p.RawReads (· = 1)) (hts : TS false p fun _ a => a.2.2.isSome) (hc : p.clean (w ++ []) = some (c, []))
    (hw : pre ++ rest = w) (hr : rest ≠ []) (fin : Err) :
    ∃ v n e, p.run (⟨pre, fin⟩ : Flat) = .ok ((v, n, some e), ⟨[], fin⟩) := by
  subst hw
  rw [List.append_nil] at hc
  obtain ⟨⟨v, n, e⟩, h1, h2⟩ := cut_reported hp hts hc hr fin
  cases e with
  | none => cases h2
  | some e => exact ⟨v, n, e, h1⟩

/-- C59: an integer that is cut off is an error. -/
theorem C59_uvarint (v : Nat) (hv : v < 2 ^ 64) {pre rest : Bytes} (h : pre ++ rest = putUvarint v) (hr : rest ≠ [])
    (fin : Err) : ∃ x n e, readUvarint.run (⟨pre, fin⟩ : Flat) = .ok ((x, n, some e), ⟨[], fin⟩) :=
  cut_triple rr_uvarint (TS.imp ts_readUvarint fun _ _ h => h.2) (clean_readUvarint v [] hv) h hr fin

/-- The first byte of 300. -/
example : [0xAC] ++ [0x02] = putUvarint 300 := by
  rw [putUvarint_ge (by decide), putUvarint_lt (by decide)]; decide

/-- C59: a string that is cut off is an error. -/
theorem C59_string (s : Bytes) (hs : s.length ≤ maxAlloc) {pre rest : Bytes} (h : pre ++ rest = stringToBytes s)
    (hr : rest ≠ []) (fin : Err) :
    ∃ x n e, readString.run (⟨pre, fin⟩ : Flat) = .ok ((x, n, some e), ⟨[], fin⟩) :=
  cut_triple rr_string ts_readString (clean_readString s [] hs) h hr fin

/-- Cut right after the length. -/
example : [2] ++ [0xff, 0x00] = stringToBytes [0xff, 0x00] := by simp [stringToBytes, u64, putUvarint_lt]

/-- C59: a block of bytes that is cut off is an error, and no bytes are returned. -/
theorem C59_bytes (s : Bytes) (hs : s.length ≤ maxAlloc) {pre rest : Bytes} (h : pre ++ rest = bytesArrayToBytes s)
    (hr : rest ≠ []) (fin : Err) :
    ∃ n e, readBytesArray.run (⟨pre, fin⟩ : Flat) = .ok (([], n, some e), ⟨[], fin⟩) := by
  have hc := clean_readBytesArray s [] hs
  rw [← h, List.append_nil] at hc
  obtain ⟨⟨v, n, e⟩, h1, h2, h3⟩ := cut_reported rr_bytesArray ts_readBytesArray hc hr fin
  cases e with
  | none => cases h3
  | some e =>
    dsimp only at h2
    subst h2
    exact ⟨n, e, h1⟩

/-- Nothing after the length. -/
example : [1] ++ [9] = bytesArrayToBytes [9] := by simp [bytesArrayToBytes, u64, putUvarint_lt]

/-- C59: a list of strings that is cut off is an error. -/
theorem C59_strings (strs : List Bytes) (hs : ∀ s ∈ strs, s.length ≤ maxAlloc) (hl : strs.length * 16 ≤ maxAlloc)
    {pre rest : Bytes} (h : pre ++ rest = stringArrayToBytes strs) (hr : rest ≠ []) (fin : Err) :
    ∃ x n e, readStringArray.run (⟨pre, fin⟩ : Flat) = .ok ((x, n, some e), ⟨[], fin⟩) :=
  cut_triple rr_stringArray ts_readStringArray (clean_readStringArray strs [] hs hl) h hr fin

/-- Two strings of which one is there. -/
example : [2, 1, 65] ++ [1, 66] = stringArrayToBytes [[65], [66]] := by
  simp [stringArrayToBytes, stringToBytes, u64, putUvarint_lt]

theorem rr_uvarIntLoop (k : Nat) (acc : List Nat) (n : Nat) : (readUvarIntLoop k acc n).RawReads (· = 1) := by
  induction k generalizing acc n with
  | zero => trivial
  | succ k ih =>
    refine RawReads.bind rr_uvarint fun ⟨_, _, err⟩ => ?_
    cases err with
    | some e => trivial
    | none => exact ih ..

theorem rr_uvarIntArray : readUvarIntArray.RawReads (· = 1) := by
  refine RawReads.bind rr_uvarint fun ⟨len, n, err⟩ => ?_
  cases err with
  | some e => trivial
  | none => exact RawReads.bind (RawReads.make ..) fun _ => rr_uvarIntLoop ..

/-- C59: a list of integers that is cut off is an error. -/
theorem C59_uvarints (xs : List Nat) (hx : ∀ x ∈ xs, x < 2 ^ 64) (hl : xs.length * 8 ≤ maxAlloc) {pre rest : Bytes}
    (h : pre ++ rest = uvarintArrayToBytes xs) (hr : rest ≠ []) (fin : Err) :
    ∃ x n e, readUvarIntArray.run (⟨pre, fin⟩ : Flat) = .ok ((x, n, some e), ⟨[], fin⟩) :=
  cut_triple rr_uvarIntArray ts_readUvarIntArray (clean_readUvarIntArray xs [] hx hl) h hr fin

example : [2, 7] ++ [9] = uvarintArrayToBytes [7, 9] := by simp [uvarintArrayToBytes, u64, putUvarint_lt]

theorem rr_fixed (k : Nat) : (readFixed k).RawReads (· = 1) := by
  intro b e
  cases e <;> trivial

theorem rr_except {α β : Type} {p : Prog (Except Err α)} {f : Except Err α → Prog β} (h : p.RawReads (· = 1))
    (h1 : ∀ e, (f (.error e)).RawReads (· = 1)) (h2 : ∀ v, (f (.ok v)).RawReads (· = 1)) : (p.bind f).RawReads (· = 1) :=
  RawReads.bind h fun r => by cases r with
    | error e => exact h1 e
    | ok v => exact h2 v

theorem rr_triple {α β : Type} {p : Prog (α × Nat × Option Err)} {f : α × Nat × Option Err → Prog β}
    (h : p.RawReads (· = 1)) (h1 : ∀ v n e, (f (v, n, some e)).RawReads (· = 1))
    (h2 : ∀ v n, (f (v, n, none)).RawReads (· = 1)) : (p.bind f).RawReads (· = 1) :=
  RawReads.bind h fun ⟨v, n, e⟩ => by cases e with
    | some e => exact h1 v n e
    | none => exact h2 v n

theorem rr_float64s (n : Nat) : (readFloat64s n).RawReads (· = 1) := by
  induction n with
  | zero => trivial
  | succ n ih =>
    exact rr_except (rr_fixed 8) (fun _ => trivial) fun _ => rr_except ih (fun _ => trivial) fun _ => trivial

theorem rr_propertyWith {rd : UInt8 → Prog (Except Err Property)} (h : ∀ c, (rd c).RawReads (· = 1)) :
    (readPropertyWith rd).RawReads (· = 1) := by
  refine ⟨rfl, fun got err => ?_⟩
  cases err with
  | some e => trivial
  | none => exact h _

theorem rr_blockLoop {rd : UInt8 → Prog (Except Err Property)} (h : ∀ c, (rd c).RawReads (· = 1)) (keys : List Bytes)
    (acc : Block) : (readBlockLoop rd keys acc).RawReads (· = 1) := by
  induction keys generalizing acc with
  | nil => trivial
  | cons k ks ih => exact rr_except (rr_propertyWith h) (fun _ => trivial) fun _ => ih _

theorem rr_elemLoop {rd : Prog (Except Err Property)} (h : rd.RawReads (· = 1)) (base : UInt8) (n : Nat)
    (acc : List Property) : (readElemLoop rd base n acc).RawReads (· = 1) := by
  induction n generalizing acc with
  | zero => trivial
  | succ n ih => exact rr_except h (fun _ => trivial) fun _ => ih _

theorem rr_ite {α : Type} {c : Prop} [Decidable c] {p q : Prog α} (h : p.RawReads (· = 1)) (h' : q.RawReads (· = 1)) :
    (if c then p else q).RawReads (· = 1) := by split <;> assumption

theorem rr_propData (fuel : Nat) (code : UInt8) : (readPropData fuel code).RawReads (· = 1) := by
  induction fuel generalizing code with
  | zero => trivial
  | succ fuel ih =>
    show RawReads _ (ite _ _ _)
    refine rr_ite (rr_triple rr_string (fun _ _ _ => trivial) fun _ _ => trivial) ?_
    refine rr_ite (rr_except (rr_fixed 4) (fun _ => trivial) fun _ => trivial) ?_
    refine rr_ite (rr_except (rr_fixed 4) (fun _ => trivial) fun _ => trivial) ?_
    refine rr_ite trivial ?_
    refine rr_ite trivial ?_
    refine rr_ite ⟨rfl, fun got err => by cases err <;> trivial⟩ ?_
    refine rr_ite (rr_except (rr_float64s 2) (fun _ => trivial) fun _ => trivial) ?_
    refine rr_ite (rr_except (rr_float64s 3) (fun _ => trivial) fun _ => trivial) ?_
    refine rr_ite (rr_triple rr_stringArray (fun _ _ _ => trivial) fun _ _ => rr_blockLoop ih _ _) ?_
    refine rr_ite (rr_except (rr_fixed 8) (fun _ => trivial) fun _ => trivial) ?_
    refine rr_ite (rr_triple rr_bytesArray (fun _ _ _ => trivial) fun _ _ => trivial) ?_
    refine rr_ite (rr_triple rr_bytesArray (fun _ _ _ => trivial) fun _ _ => trivial) ?_
    refine rr_ite (rr_triple rr_uvarint (fun _ _ _ => trivial) fun _ _ => ?_) trivial
    exact RawReads.bind (RawReads.make ..) fun _ => rr_elemLoop (ih _) _ _ _

/-- C59: a metadata value that is cut off, anywhere, is an error. -/
theorem C59_metadata (p : Property) (h : Constructible p) {bs pre rest : Bytes} (hb : p.bytes = .ok bs)
    (hl : bs.length ≤ sizeLimit) (hw : pre ++ rest = bs) (hr : rest ≠ []) (fin : Err) (fuel : Nat) (hf : bs.length < fuel) :
    ∃ e, (readProperty fuel).run (⟨pre, fin⟩ : Flat) = .ok (.error e, ⟨[], fin⟩) := by
  obtain ⟨c, d, hc, hd, hrt⟩ := constructible_RT h
  have hbs : bs = c :: d := by
    simp only [Property.bytes, hc, hd, Bind.bind, Except.bind, Except.ok.injEq] at hb
    exact hb.symm
  have hcl : (readProperty fuel).clean (pre ++ rest) = some (.ok p, []) := by
    rw [hw, hbs, readProperty, clean_readPropertyWith]
    subst hbs
    simp only [List.length_cons] at hl hf
    have := hrt fuel (by omega) (by omega) []
    rwa [List.append_nil] at this
  obtain ⟨a, h1, h2⟩ := cut_reported (rr_propertyWith (rr_propData fuel)) (ts_readProperty fuel) hcl hr fin
  cases a with
  | ok v => exact h2.elim
  | error e => exact ⟨e, h1⟩

/-- The property is the text "AB"; its last byte is missing. -/
example : Constructible (.str [65, 66]) ∧ (Property.str [65, 66]).bytes = .ok ([0, 2, 65] ++ [66]) := by
  refine ⟨.str _, ?_⟩
  simp [Property.bytes, Property.code, Property.data, stringToBytes, u64, putUvarint_lt, Bind.bind, Except.bind]

/-- C59: no metadata value's bytes begin with those of another value. -/
theorem C59_prefix_free (p q : Property) (hp : Constructible p) (hq : Constructible q) {bs cs : Bytes}
    (hb : p.bytes = .ok bs) (hc : q.bytes = .ok cs) (hl : cs.length ≤ sizeLimit) (h : bs <+: cs) : p = q := by
  obtain ⟨rest, rfl⟩ := h
  obtain ⟨bs', g1, g2⟩ := C04_metadata_roundtrip p hp
  obtain ⟨cs', g3, g4⟩ := C04_metadata_roundtrip q hq
  rw [hb, Except.ok.injEq] at g1
  rw [hc, Except.ok.injEq] at g3
  subst g1 g3
  have hlen : bs.length ≤ (bs ++ rest).length := by simp
  have h1 := g2 (by omega) rest .eof ((bs ++ rest).length + 1) (by omega)
  have h2 := g4 hl [] .eof ((bs ++ rest).length + 1) (by omega)
  rw [List.append_nil, h1] at h2
  simp only [Except.ok.injEq, Prod.mk.injEq] at h2
  exact h2.1

/-- The values 5 and 6 as single bytes. -/
example : (Property.byte 5).bytes = .ok [5, 5] ∧ (Property.byte 6).bytes = .ok [5, 6] := ⟨rfl, rfl⟩

end Rap
