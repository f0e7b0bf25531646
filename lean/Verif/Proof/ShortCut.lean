import Verif.Proof.LayoutRead
import Verif.Props.Cut

/-!
# Blocks that are cut off
-/

namespace Rap

open Prog Layout

theorem ts_readUvarIntLoop_nil {er : Bool} (k : Nat) (acc : List Nat) (n : Nat) :
    TS er (readUvarIntLoop k acc n) fun _ a => a.1 = [] := by
  induction k generalizing acc n with
  | zero => exact TS.pure _
  | succ k ih => exact ts_checked (fun v n => ih _ _) (fun _ _ _ => ⟨_, rfl, fun _ => rfl⟩)

theorem ts_readUvarIntArray_nil {er : Bool} : TS er readUvarIntArray fun _ a => a.1 = [] := by
  refine ts_checked (fun v n => ?_) (fun _ _ _ => ⟨_, rfl, fun _ => rfl⟩)
  exact TS.bind (TS.make _ _) (fun _ => ts_readUvarIntLoop_nil _ _ _) (fun _ _ _ _ _ h => h.elim)

theorem ts_enumCaptures (ts : List F64) : TS true (enumCaptures ts) AnyR := by
  induction ts with
  | nil => exact TS.pure _
  | cons t ts ih =>
    refine TS.bind ts_readUvarint (fun _ => ?_) (fun _ _ _ _ _ _ _ => ?_)
    · exact TS.bind ih (fun _ => TS.pure _) fun _ _ _ _ _ _ _ => trivial
    · exact Dead.bind (dead_enumCaptures ts) fun _ _ => trivial

/-- The body of an enum collection. -/
def enumBody (table : List Bytes) (ts : List F64) : Prog (List Bytes × List (F64 × BitVec 64)) :=
  readUvarIntArray.bind fun (x : List Nat × Nat × Option Err) =>
    (Prog.ofGo (lookupAll table x.1)).bind fun ms => (enumCaptures ts).bind fun caps => (Prog.pure (ms, caps) : Prog _)

theorem ts_enumBody (table : List Bytes) (ts : List F64) : TS true (enumBody table ts) AnyR := by
  refine TS.bind ts_readUvarIntArray_nil (fun _ => ?_) ?_
  · refine TS.bind (TS.ofGo _) (fun _ => ?_) fun _ _ _ _ _ h => h.elim
    exact TS.bind (ts_enumCaptures ts) (fun _ => TS.pure _) fun _ _ _ _ _ _ _ => trivial
  · rintro c ⟨is, n, e⟩ d r R h -
    simp only at h
    subst h
    show Dead true (AnyR r) ((enumCaptures ts).bind fun caps => Prog.pure ([], caps))
    exact Dead.bind (dead_enumCaptures ts) fun _ _ => trivial

theorem ts_eventBlock {er : Bool} (fuel : Nat) (keys : List Bytes) (is : List Nat) (acc : Block) :
    TS er (eventBlock fuel keys is acc) fun _ a => IsErr a := by
  induction is generalizing acc with
  | nil => exact TS.pure _
  | cons i is ih =>
    refine ts_except (ts_readProperty fuel) (fun v => ?_) (fun e => ⟨_, rfl, fun _ => trivial⟩)
    simp only
    cases keys[i]? with
    | none => exact TS.panic _
    | some k => exact ih _

theorem ts_eventCaptures {er : Bool} (fuel : Nat) (names keys : List Bytes) (ts : List F64) :
    TS er (eventCaptures fuel names keys ts) fun _ a => IsErr a := by
  induction ts with
  | nil => exact TS.pure _
  | cons t ts ih =>
    refine ts_checked (fun i n => ?_) (fun _ _ _ => ⟨_, rfl, fun _ => trivial⟩)
    refine ts_triple ts_readUvarIntArray (fun is n => ?_) (fun _ _ _ => ⟨_, rfl, fun _ => trivial⟩)
    refine ts_except (ts_eventBlock _ _ _ _) (fun b => ?_) (fun e => ⟨_, rfl, fun _ => trivial⟩)
    simp only
    cases names[i]? with
    | none => exact TS.panic _
    | some name =>
      exact ts_except ih (fun v => TS.pure _) (fun e => ⟨_, rfl, fun _ => trivial⟩)

theorem rr_eventBlock (fuel : Nat) (keys : List Bytes) (is : List Nat) (acc : Block) :
    (eventBlock fuel keys is acc).RawReads (· = 1) := by
  induction is generalizing acc with
  | nil => trivial
  | cons i is ih =>
    refine rr_except (rr_propertyWith (rr_propData fuel)) (fun e => trivial) (fun v => ?_)
    simp only
    cases keys[i]? with
    | none => trivial
    | some k => exact ih _

theorem rr_eventCaptures (fuel : Nat) (names keys : List Bytes) (ts : List F64) :
    (eventCaptures fuel names keys ts).RawReads (· = 1) := by
  induction ts with
  | nil => trivial
  | cons t ts ih =>
    refine rr_triple rr_uvarint (fun _ _ _ => trivial) (fun i n => ?_)
    refine rr_triple rr_uvarIntArray (fun _ _ _ => trivial) (fun is n => ?_)
    refine rr_except (rr_eventBlock _ _ _ _) (fun e => trivial) (fun b => ?_)
    simp only
    cases names[i]? with
    | none => trivial
    | some name => exact rr_except ih (fun e => trivial) (fun v => trivial)

theorem ref_eventBlock {f1 f2 : Nat} (h : f1 ≤ f2) (keys : List Bytes) (is : List Nat) (acc : Block) :
    Refines (eventBlock f1 keys is acc) (eventBlock f2 keys is acc) := by
  induction is generalizing acc with
  | nil => exact .refl _
  | cons i is ih =>
    refine Refines.bind (ref_readProperty h) ?_
    rintro (e | v)
    · exact .refl _
    · simp only
      cases keys[i]? with
      | none => exact .refl _
      | some k => exact ih _

theorem ref_eventCaptures {f1 f2 : Nat} (h : f1 ≤ f2) (names keys : List Bytes) (ts : List F64) :
    Refines (eventCaptures f1 names keys ts) (eventCaptures f2 names keys ts) := by
  induction ts with
  | nil => exact .refl _
  | cons t ts ih =>
    refine Refines.bind (.refl _) ?_
    rintro ⟨i, n, e | e⟩
    · refine Refines.bind (.refl _) ?_
      rintro ⟨is, n, e | e⟩
      · refine Refines.bind (ref_eventBlock h _ _ _) ?_
        rintro (e | b)
        · exact .refl _
        · simp only
          cases names[i]? with
          | none => exact .refl _
          | some name =>
            refine Refines.bind ih ?_
            rintro (e | b) <;> exact .refl _
      · exact .refl _
    · exact .refl _

theorem dead_floatDec64 {er : Bool} (ts : List F64) (v : F64) : (floatDec64 ts v).Dead er fun _ => True := by
  induction ts generalizing v with
  | nil => trivial
  | cons t ts ih => exact fun e => Dead.bind (ih _) fun _ _ => trivial

theorem ts_floatDec64 {er : Bool} (ts : List F64) (v : F64) : TS er (floatDec64 ts v) AnyR := by
  induction ts generalizing v with
  | nil => exact TS.pure _
  | cons t ts ih =>
    refine TS.readFull (fun _ => TS.bind (ih _) (fun _ => TS.pure _) fun _ _ _ _ _ _ _ => trivial) ?_
    intros
    exact Dead.bind (dead_floatDec64 _ _) fun _ _ => trivial

theorem dead_floatDec32 {er : Bool} (ts : List F64) (v : F32) : (floatDec32 ts v).Dead er fun _ => True := by
  induction ts generalizing v with
  | nil => trivial
  | cons t ts ih => exact Dead.bind (dead_readF32 _) fun _ _ => Dead.bind (ih _) fun _ _ => trivial

theorem ts_floatDec32 {er : Bool} (ts : List F64) (v : F32) : TS er (floatDec32 ts v) AnyR := by
  induction ts generalizing v with
  | nil => exact TS.pure _
  | cons t ts ih =>
    refine TS.bind (ts_readF32 _) (fun _ => ?_) (fun _ _ _ _ _ _ _ => ?_)
    · exact TS.bind (ih _) (fun _ => TS.pure _) fun _ _ _ _ _ _ _ => trivial
    · exact Dead.bind (dead_floatDec32 _ _) fun _ _ => trivial

theorem dead_floatDecBstLoop {er : Bool} (lo hi : F32) (ts : List F64) (buf : Bytes) :
    (floatDecBstLoop lo hi ts buf).Dead er fun _ => True := by
  induction ts generalizing buf with
  | nil => trivial
  | cons t ts ih => exact Dead.bind (dead_readInto _) fun _ _ => Dead.bind (ih _) fun _ _ => trivial

theorem ts_floatDecBstLoop {er : Bool} (lo hi : F32) (ts : List F64) (buf : Bytes) :
    TS er (floatDecBstLoop lo hi ts buf) AnyR := by
  induction ts generalizing buf with
  | nil => exact TS.pure _
  | cons t ts ih =>
    refine TS.bind (ts_readInto _) (fun _ => ?_) (fun _ _ _ _ _ _ _ => ?_)
    · exact TS.bind (ih _) (fun _ => TS.pure _) fun _ _ _ _ _ _ _ => trivial
    · exact Dead.bind (dead_floatDecBstLoop _ _ _ _) fun _ _ => trivial

theorem ts_floatDecBst {er : Bool} (ts : List F64) : TS er (floatDecBst ts) AnyR := by
  refine TS.bind (ts_readF32 _) (fun _ => ?_) (fun _ _ _ _ _ _ _ => ?_)
  · refine TS.bind (ts_readF32 _) (fun _ => ts_floatDecBstLoop _ _ _ _) (fun _ _ _ _ _ _ _ => ?_)
    exact dead_floatDecBstLoop _ _ _ _
  · exact Dead.bind (dead_readF32 _) fun _ _ => dead_floatDecBstLoop _ _ _ _

/-- A reader behind an `ErrReader` that takes all of an input notices any cut. -/
theorem cut_er {α : Type} {p : Prog α} {c : α} {pre rest : Bytes} (hts : TS true p AnyR)
    (hc : p.clean (pre ++ rest) = some (c, [])) (hr : rest ≠ []) :
    ∃ a e, p.onErrReader pre = .ok (a, some e) := by
  rcases Trunc.run_er (Q := fun _ => True) hc (hts _ _ _ hc) .eof 0 with ⟨R', h⟩ | ⟨a, s, e, h1, h2, -⟩
  · have := cut_rest hc h
    simp at this
    exact absurd this.2 hr
  · refine ⟨a, e, ?_⟩
    unfold Prog.onErrReader
    rw [ER.new, h1]
    simp only [Bind.bind, Except.bind, h2]

theorem floatDecode_cut {t : UInt8} {p : Prog (List (F64 × F64))} {name header : Bytes} {ts : List F64}
    (hp : (if t.toNat = 0 then floatDec64 ts 0 else if t.toNat = 1 then floatDec32 ts 0
      else if t.toNat = 2 then floatDecBst ts else Pure.pure []) = p) (hts : TS true p AnyR) {c : List (F64 × F64)} {b pre rest : Bytes}
    (hc : p.clean b = some (c, [])) (hw : pre ++ rest = t :: b) (hr : rest ≠ []) :
    ∃ c' e, floatDecode name header pre ts = .ok (c', some e) := by
  cases pre with
  | nil => exact ⟨_, _, rfl⟩
  | cons t' pre =>
    simp only [List.cons_append, List.cons.injEq] at hw
    obtain ⟨rfl, rfl⟩ := hw
    obtain ⟨a, e, h⟩ := cut_er hts hc hr
    refine ⟨some (.float name a), e, ?_⟩
    simp only [floatDecode, hp, h, Bind.bind, Except.bind]

theorem floats_cut {vs : List F64} {b : Bytes} (h : Floats vs b) (ts : List F64) (hl : ts.length = vs.length)
    (name header : Bytes) {pre rest : Bytes} (hw : pre ++ rest = b) (hr : rest ≠ []) :
    ∃ c e, floatDecode name header pre ts = .ok (c, some e) := by
  cases h with
  | raw64 h =>
    rename_i b
    have hb : b = floatEnc64 vs := many_eq h fun v b _ hv => double_eq hv
    have := clean_floatDec64 ts vs 0 [] hl
    rw [List.append_nil, ← hb] at this
    exact floatDecode_cut (t := 0) (p := floatDec64 ts 0) rfl (ts_floatDec64 _ _) this hw hr
  | raw32 h =>
    rename_i fs b
    have := clean_float32s h ts (by simpa using hl) 0 []
    rw [List.append_nil] at this
    exact floatDecode_cut (t := 1) (p := floatDec32 ts 0) rfl (ts_floatDec32 _ _) this hw hr
  | bst h1 h2 hc =>
    rename_i lo hi codes a b
    have : (floatDecBst ts).clean (a ++ (b ++ codes.flatten)) =
        some (ts.zip (codes.map (point (widen lo) (widen (hi.sub lo)))), []) := by
      simp only [floatDecBst, Prog.bind_eq]
      rw [Prog.clean_bind_of (clean_single h1 _ _)]
      simp only
      rw [Prog.clean_bind_of (clean_single h2 _ _)]
      simp only
      rw [show codes.flatten = codes.flatten ++ [] by simp]
      exact clean_floatsBst lo hi codes hc ts (by simpa using hl) _ [] rfl
    exact floatDecode_cut (t := 2) (p := floatDecBst ts) rfl (ts_floatDecBst _) this hw hr

theorem events_cut {names keys : List Bytes} (hN : names.length ≤ sizeLimit) (hK : keys.length ≤ sizeLimit)
    {es : List (Bytes × Block)} {b : Bytes} (h : Many (Event names keys) es b) (ts : List F64)
    (hl : ts.length = es.length) (hb : b.length ≤ sizeLimit) {pre rest : Bytes} (hw : pre ++ rest = b) (hr : rest ≠ []) :
    ∃ e, (eventCaptures (pre.length + 1) names keys ts).onBytes pre = .ok (.error e) := by
  subst hw
  have hc := clean_events hN hK h ts hl ((pre ++ rest).length + 1) (by omega) hb []
  rw [List.append_nil] at hc
  obtain ⟨a, h1, h2⟩ := cut_reported (rr_eventCaptures _ _ _ _) (ts_eventCaptures _ _ _ _) hc hr .eof
  have hs := Safe.run measured_flat (s := (⟨pre, .eof⟩ : Flat))
    (safe_eventCaptures (pre.length + 1) names keys ts pre.length (Nat.lt_succ_self _))
  rcases Refines.run (ref_eventCaptures (f1 := pre.length + 1) (f2 := (pre ++ rest).length + 1)
    (by rw [List.length_append]; omega) names keys ts) (⟨pre, .eof⟩ : Flat) with h3 | h3
  · rcases hs with ⟨a, s', h4, -⟩ | ⟨x, h4, h5⟩
    · rw [h3] at h4; simp at h4
    · rw [h3] at h4
      simp only [Except.error.injEq] at h4
      subst h4
      rcases h5 with h5 | h5 <;> simp at h5
  · cases a with
    | ok v => exact h2.elim
    | error e =>
      refine ⟨e, ?_⟩
      unfold Prog.onBytes
      rw [← h3, h1]
      rfl

/-- A block of floats, events or enum values that is cut off is reported. -/
theorem captures_cut {name sig header : Bytes} {ts : List F64} {c : Coll} {b : Bytes}
    (h : Captures name ts sig header c b) (hp : sig ≠ positionSig) (hu : sig ≠ eulerSig) (e : Builtin)
    (he : e.encoder.sig = sig) (hh : header.length ≤ sizeLimit) (hb : b.length ≤ sizeLimit) {pre rest : Bytes}
    (hw : pre ++ rest = b) (hr : rest ≠ []) :
    ∃ c' err, e.encoder.decode name header pre ts = .ok (c', some err) := by
  have pick : ∀ {s : Bytes}, e.encoder.sig = s → (s = sigFloat → ∃ t, e = .float t) ∧
      (s = sigEvent → e = .event) ∧ (s = sigEnum → e = .enum) := by
    rintro _ rfl
    cases e <;>
      refine ⟨fun h => ?_, fun h => ?_, fun h => ?_⟩ <;>
      first
        | exact ⟨_, rfl⟩
        | rfl
        | (simp only [Builtin.encoder, eventEncoder, enumEncoder, positionEncoder, eulerEncoder, floatEncoder] at h
           exact absurd h (by decide))
  cases h with
  | position hl h => exact absurd rfl hp
  | euler hl h => exact absurd rfl hu
  | float hl h =>
    obtain ⟨t, rfl⟩ := (pick he).1 sig_float
    exact floats_cut h ts hl name [] hw hr
  | event hl h1 h2 h3 =>
    rename_i names keys es h h'
    obtain rfl := (pick he).2.1 sig_event
    simp only [List.length_append] at hh
    have hhead : eventHeader.clean (h ++ h') = some ((names, keys, none), []) := by
      simp only [eventHeader, Prog.bind_eq]
      rw [Prog.clean_bind_of (clean_table h1 (by omega) _)]
      simp only
      rw [show h' = h' ++ [] by simp, Prog.clean_bind_of (clean_table h2 (by omega) _)]
      rfl
    have l1 := table_length h1
    have l2 := table_length h2
    obtain ⟨err, hc⟩ := events_cut (by omega) (by omega) h3 ts hl hb hw hr
    refine ⟨none, err, ?_⟩
    simp only [Builtin.encoder, eventEncoder, eventDecode, onBytes_of_clean hhead, Bind.bind, Except.bind]
    rw [hc]
  | enum hl h1 h2 h3 =>
    rename_i table ms vs a b
    obtain rfl := (pick he).2.2 sig_enum
    have l1 := table_length h1
    have hd := clean_table h1 hh []
    rw [List.append_nil] at hd
    cases h2 with
    | mk c1 c2 =>
      rename_i n bs
      obtain ⟨idx, i1, i2⟩ := refs_get c2
      have hlen : idx.length = ms.length := i1.length_eq
      simp only [List.length_append] at hb
      have hlt : ∀ i ∈ idx, i < 2 ^ 64 := fun i hi => by
        have := i1.lt i hi
        simp only [sizeLimit] at hh; omega
      have ha : n ++ bs = uvarintArrayToBytes idx :=
        varints_eq (.mk (by rw [hlen]; exact c1) i2) (by rw [List.length_append]; omega) hlt
      rw [ha] at hw
      have hal : (uvarintArrayToBytes idx).length ≤ sizeLimit := by rw [← ha, List.length_append]; omega
      have hcl : (enumBody table ts).clean (pre ++ rest) = some ((ms, ts.zip vs), []) := by
        rw [hw, enumBody, Prog.clean_bind_of (clean_uvarintArray_limit idx _ hal hlt)]
        simp only [lookupAll_finds i1]
        have := clean_enumCaptures ts vs [] hl
        rw [← clean_enums h3, List.append_nil] at this
        simp only [Prog.ofGo, Prog.pure_bind']
        rw [Prog.clean_bind_of this]
        rfl
      obtain ⟨r, err, hc⟩ := cut_er (ts_enumBody table ts) hcl hr
      refine ⟨some (.enum name r.1 r.2), err, ?_⟩
      simp only [Builtin.encoder, enumEncoder, enumDecode, onBytes_of_clean hd, Bind.bind, Except.bind]
      unfold enumBody at hc
      simp only [Prog.pure_eq, hc]

end Rap
