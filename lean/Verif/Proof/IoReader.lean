import Verif.Spec.IoReader
import Verif.Props.Delivery
import Verif.Proof.Trunc

/-!
# Reading from any honest io.Reader
-/

namespace Rap
namespace Prog

variable {α β : Type}

/-- The state of an honest reader and bytes in memory: same bytes to come, same error at the end. -/
def Holds {R : IoReader} (s : R.At) (t : Flat) : Prop := R.content s.st = t.data ∧ R.fin s.st = t.fin

theorem readLoop_spec (R : IoReader) (fuel n : Nat) (hf : n ≤ fuel) (s : R.σ) :
    (readLoop R.read fuel n s).1 = (R.content s).take n ∧
      R.content (readLoop R.read fuel n s).2.2 = (R.content s).drop n ∧
      R.fin (readLoop R.read fuel n s).2.2 = R.fin s ∧
      ((R.content s).length < n → (readLoop R.read fuel n s).2.1 = some (R.fin s)) := by
  induction fuel generalizing n s with
  | zero =>
    have : n = 0 := by omega
    subst this
    simp [readLoop]
  | succ fuel ih =>
    by_cases h0 : n = 0
    · subst h0; simp [readLoop]
    · obtain ⟨h1, h2, h3, h4⟩ := R.honest n s (by omega)
      rcases hr : R.read n s with ⟨b, e, s'⟩
      rw [hr] at h1 h2 h3 h4
      simp only at h1 h2 h3 h4
      simp only [readLoop, if_neg h0, hr]
      rcases h4 with ⟨rfl, hb⟩ | ⟨rfl, hc⟩
      · have hbl : 0 < b.length := List.length_pos_iff.2 hb
        obtain ⟨i1, i2, i3, i4⟩ := ih (n - b.length) (by omega) s'
        simp only
        refine ⟨?_, ?_, by rw [i3, h3], ?_⟩
        · rw [i1, h1, List.take_append, List.take_of_length_le h2]
        · rw [i2, h1, List.drop_append, List.drop_of_length_le h2, List.nil_append]
        · intro hl
          rw [i4, h3]
          rw [h1, List.length_append] at hl; omega
      · simp only
        rw [hc, List.append_nil] at h1
        subst h1
        exact ⟨by rw [List.take_of_length_le h2], by rw [hc, List.drop_of_length_le h2], h3, fun _ => trivial⟩

theorem holds_full {R : IoReader} (n : Nat) (s : R.At) (t : Flat) (h : Holds s t) :
    (Src.readFull n s).1 = (Src.readFull n t).1 ∧
      (Src.readFull n s).2.1 = (Src.readFull n t).2.1 ∧ Holds (Src.readFull n s).2.2 (Src.readFull n t).2.2 := by
  obtain ⟨d, fin⟩ := t
  obtain ⟨hd, hf⟩ := h
  simp only at hd hf
  subst hd hf
  obtain ⟨h1, h2, h3, h4⟩ := readLoop_spec R n n (Nat.le_refl _) s.st
  simp only [Src.readFull, ioReadFull]
  rcases hr : readLoop R.read n n s.st with ⟨b, e, s'⟩
  rw [hr] at h1 h2 h3 h4
  simp only at h1 h2 h3 h4
  by_cases hn : n ≤ (R.content s.st).length
  · have hb : n ≤ b.length := by rw [h1, List.length_take]; omega
    simp only [if_pos hb, if_pos hn]
    exact ⟨h1, trivial, h2, h3⟩
  · have hb : ¬ n ≤ b.length := by rw [h1, List.length_take]; omega
    have hbd : b = R.content s.st := by rw [h1, List.take_of_length_le (by omega)]
    have he := h4 (by omega)
    subst he
    simp only [if_neg hb, if_neg hn]
    have hz : R.content s' = [] := by rw [h2, List.drop_of_length_le (by omega)]
    rw [← hbd]
    by_cases hbe : b.isEmpty = true
    · simp only [if_pos hbe]; exact ⟨trivial, trivial, hz, h3⟩
    · simp only [if_neg hbe]; exact ⟨trivial, rfl, hz, h3⟩

/-- A read of one byte agrees with memory, unless it hands out the last byte and the final error at once. -/
theorem holds_read1 {R : IoReader} (s : R.At) (t : Flat) (h : Holds s t) :
    ((Src.read 1 s).1 = (Src.read 1 t).1 ∧
      (Src.read 1 s).2.1 = (Src.read 1 t).2.1 ∧ Holds (Src.read 1 s).2.2 (Src.read 1 t).2.2) ∨
    ((Src.read 1 s).2.1 = some t.fin ∧ (Src.read 1 t).2.2.data = []) := by
  obtain ⟨d, fin⟩ := t
  obtain ⟨hd, hf⟩ := h
  simp only at hd hf
  subst hd hf
  obtain ⟨h1, h2, h3, h4⟩ := R.honest 1 s.st (by omega)
  rcases hr : R.read 1 s.st with ⟨b, e, s'⟩
  have hs : Src.read 1 s = (b, e, (⟨s'⟩ : R.At)) := by
    show (match R.read 1 s.st with | (b, e, s') => (b, e, (⟨s'⟩ : R.At))) = _
    rw [hr]
  rw [hs]
  rw [hr] at h1 h2 h3 h4
  simp only at h1 h2 h3 h4
  rcases h4 with ⟨rfl, hb⟩ | ⟨rfl, hc⟩
  · left
    obtain ⟨x, rfl⟩ : ∃ x, b = [x] := by
      match b, hb, h2 with
      | [x], _, _ => exact ⟨x, rfl⟩
    rw [h1]
    exact ⟨rfl, rfl, rfl, h3⟩
  · rw [hc, List.append_nil] at h1
    rw [h1]
    cases b with
    | nil => left; exact ⟨rfl, rfl, hc, h3⟩
    | cons x xs =>
      right
      have : xs = [] := by simpa using h2
      subst this
      exact ⟨rfl, rfl⟩

/-- The program only returns, with a result satisfying `Q`. -/
def Ends (Q : α → Prop) : Prog α → Prop
  | .pure a => Q a
  | _ => False

/-- As soon as a read reports an error, the program stops with a result satisfying `Q`; it reads single bytes or full
buffers. -/
def Alert (Q : α → Prop) : Prog α → Prop
  | .pure _ => True
  | .panic _ => True
  | .read n k => n = 1 ∧ (∀ b e, (k b (some e)).Ends Q) ∧ ∀ b, (k b none).Alert Q
  | .readFull n k => (∀ b e, b.length < n → (k b (some e)).Ends Q) ∧ ∀ b, (k b none).Alert Q
  | .erErr k => (k none).Alert Q

theorem Ends.alert {Q : α → Prop} {p : Prog α} (h : p.Ends Q) : p.Alert Q := by
  cases p <;> trivial

theorem Ends.bind {Q : α → Prop} {Q' : β → Prop} {p : Prog α} {f : α → Prog β} (h : p.Ends Q)
    (hf : ∀ a, Q a → (f a).Ends Q') : (p.bind f).Ends Q' := by
  cases p <;> first | exact hf _ h | exact h.elim

theorem Alert.bind {Q : α → Prop} {Q' : β → Prop} {p : Prog α} {f : α → Prog β} (h : p.Alert Q)
    (he : ∀ a, Q a → (f a).Ends Q') (hf : ∀ a, (f a).Alert Q') : (p.bind f).Alert Q' := by
  induction p with
  | pure a => exact hf a
  | panic x => trivial
  | read n k ih => exact ⟨h.1, fun b e => (h.2.1 b e).bind he, fun b => ih _ _ (h.2.2 b)⟩
  | readFull n k ih => exact ⟨fun b e hb => (h.1 b e hb).bind he, fun b => ih _ _ (h.2 b)⟩
  | erErr k ih => exact ih _ h

theorem Alert.make {Q : Unit → Prop} (n m : Nat) : (Prog.make n m).Alert Q := by
  unfold Prog.make; split <;> trivial

/-- In memory, the bytes only get fewer. -/
theorem flat_empty (p : Prog α) (t : Flat) (h : t.data = []) {a : α} {t' : Flat} (hr : p.run t = .ok (a, t')) :
    t'.data = [] := by
  induction p generalizing t with
  | pure a => simp only [run, Except.ok.injEq, Prod.mk.injEq] at hr; rw [← hr.2]; exact h
  | panic x => simp [run] at hr
  | read n k ih =>
    have hz : (Src.read n t).2.2.data = [] := by simp [Src.read, h]
    exact ih _ _ (Src.read n t).2.2 hz hr
  | readFull n k ih =>
    have hz : (Src.readFull n t).2.2.data = [] := by simp only [Src.readFull]; split <;> simp [h]
    exact ih _ _ (Src.readFull n t).2.2 hz hr
  | erErr k ih => exact ih _ _ h hr

/-- An alert program run on an honest reader and on the same bytes in memory: the same run, or the honest reader made
it stop when the bytes were used up. -/
theorem alert_run {R : IoReader} {Q : α → Prop} (p : Prog α) (hp : p.Alert Q) (s : R.At) (t : Flat) (h : Holds s t) :
    Alike Holds (p.run s) (p.run t) ∨
      (∃ a s', p.run s = .ok (a, s') ∧ Q a) ∧ ∀ a t', p.run t = .ok (a, t') → t'.data = [] := by
  induction p generalizing s t with
  | pure a => exact .inl ⟨rfl, h⟩
  | panic x => exact .inl rfl
  | read n k ih =>
    obtain ⟨rfl, he, hk⟩ := hp
    rcases holds_read1 s t h with ⟨h1, h2, h3⟩ | ⟨h1, h2⟩
    · simp only [run]
      cases hx : (Src.read 1 t).2.1 with
      | none =>
        rw [h1, h2, hx]
        exact ih _ _ (hk _) _ _ h3
      | some e =>
        rw [h1, h2, hx]
        have := he (Src.read 1 t).1 e
        revert this
        cases k (Src.read 1 t).1 (some e) <;> intro hq
        · exact .inl ⟨rfl, h3⟩
        all_goals exact hq.elim
    · right
      constructor
      · simp only [run, h1]
        have := he (Src.read 1 s).1 t.fin
        revert this
        cases k (Src.read 1 s).1 (some t.fin) <;> intro hq
        · exact ⟨_, _, rfl, hq⟩
        all_goals exact hq.elim
      · intro a t' ht
        exact flat_empty _ _ h2 ht
  | readFull n k ih =>
    obtain ⟨he, hk⟩ := hp
    obtain ⟨h1, h2, h3⟩ := holds_full n s t h
    simp only [run]
    cases hx : (Src.readFull n t).2.1 with
    | none =>
      rw [h1, h2, hx]
      exact ih _ _ (hk _) _ _ h3
    | some e =>
      rw [h1, h2, hx]
      have hl : (Src.readFull n t).1.length < n := by
        simp only [Src.readFull] at hx ⊢
        split at hx
        · simp at hx
        · rename_i hn; rw [if_neg hn]; simp only; omega
      have := he (Src.readFull n t).1 e hl
      revert this
      cases k (Src.readFull n t).1 (some e) <;> intro hq
      · exact .inl ⟨rfl, h3⟩
      all_goals exact hq.elim
  | erErr k ih => exact ih _ hp _ _ h

/-- `ErrReader`s around an honest reader and around the same bytes in memory. -/
def HoldsER {R : IoReader} (s : ER R.At) (t : ER Flat) : Prop := Holds s.src t.src ∧ s.err = t.err ∧ s.n = t.n

theorem doRead_holds {R : IoReader} (n : Nat) (s : ER R.At) (t : ER Flat) (h : HoldsER s t) :
    (ER.doRead n s).1 = (ER.doRead n t).1 ∧
      (ER.doRead n s).2.1 = (ER.doRead n t).2.1 ∧ HoldsER (ER.doRead n s).2.2 (ER.doRead n t).2.2 := by
  obtain ⟨h1, h2, h3⟩ := h
  simp only [ER.doRead, h2]
  cases hx : t.err with
  | some e => exact ⟨rfl, rfl, h1, h2, h3⟩
  | none =>
    obtain ⟨r1, r2, r3⟩ := holds_full n s.src t.src h1
    exact ⟨r1, r2, r3, r2, by simp only [r1, h3]⟩

/-- Through an `ErrReader`, every program behaves alike. -/
theorem run_er_holds {R : IoReader} (p : Prog α) (s : ER R.At) (t : ER Flat) (h : HoldsER s t) :
    Alike HoldsER (p.run s) (p.run t) := by
  refine run_sim HoldsER (fun _ => True) (fun n s t _ h => doRead_holds n s t h) (fun n s t h => ?_)
    (fun _ _ h => h.2.1) p (RawReads.all p) s t h
  simp only [Src.readFull]
  split
  · exact ⟨rfl, rfl, h⟩
  · exact doRead_holds n s t h

end Prog

open Prog

/-! ## The alert programs -/

theorem al_uvarintLoop (fuel i : Nat) (b : UInt8) (x s t : Nat) :
    (readUvarintLoop fuel i b x s t).Alert fun a => a.2.2.isSome := by
  induction fuel generalizing i b x s t with
  | zero => trivial
  | succ n ih =>
    refine ⟨rfl, fun b e => rfl, fun got => ?_⟩
    dsimp only
    split
    · split <;> trivial
    · exact ih ..

theorem al_uvarint : readUvarint.Alert fun a => a.2.2.isSome := al_uvarintLoop ..

/-- Programs returning value, count and error, whose callers look at the error first. -/
theorem al_triple {α β : Type} {p : Prog (α × Nat × Option Err)} {f : α × Nat × Option Err → Prog β} {Q : β → Prop}
    (hp : p.Alert fun a => a.2.2.isSome) (he : ∀ a n e, (f (a, n, some e)).Ends Q)
    (hf : ∀ a n, (f (a, n, none)).Alert Q) : (p.bind f).Alert Q := by
  refine hp.bind (fun ⟨a, n, e⟩ h => ?_) fun ⟨a, n, e⟩ => ?_
  · cases e with
    | none => simp at h
    | some e => exact he ..
  · cases e with
    | none => exact hf ..
    | some e => exact (he ..).alert

theorem al_string : readString.Alert fun a => a.2.2.isSome := by
  refine al_triple al_uvarint (fun _ _ _ => rfl) fun len n => ?_
  refine Alert.bind (Alert.make (Q := fun _ => False) ..) (fun _ h => h.elim) fun _ => ⟨fun b e _ => rfl, fun b => trivial⟩

theorem al_stringLoop (k : Nat) (acc : List Bytes) (n : Nat) :
    (readStringLoop k acc n).Alert fun a => a.2.2.isSome := by
  induction k generalizing acc n with
  | zero => trivial
  | succ k ih => exact al_triple al_string (fun _ _ _ => rfl) fun _ _ => ih ..

theorem al_stringArray : readStringArray.Alert fun a => a.2.2.isSome := by
  refine al_triple al_uvarint (fun _ _ _ => rfl) fun len n => ?_
  exact Alert.bind (Alert.make (Q := fun _ => False) ..) (fun _ h => h.elim) fun _ => al_stringLoop ..

theorem al_bytesArray : readBytesArray.Alert fun a => a.2.2.isSome := by
  refine al_triple al_uvarint (fun _ _ _ => rfl) fun len n => ?_
  refine Alert.bind (Alert.make (Q := fun _ => False) ..) (fun _ h => h.elim) fun _ => ⟨fun b e hb => ?_, fun b => ?_⟩
  · dsimp only
    split
    · rfl
    · rw [if_pos (by simp; omega)]; rfl
  · dsimp only
    split
    · trivial
    · split <;> trivial

theorem al_versions (n total : Nat) : (readVersions n total).Alert fun a => a.2.2.isSome := by
  induction n generalizing total with
  | zero => trivial
  | succ n ih =>
    refine al_triple al_uvarint (fun _ _ _ => rfl) fun _ _ => ?_
    exact al_triple (ih _) (fun _ _ _ => rfl) fun _ _ => trivial

theorem al_encoders (reg : List Encoder) : (readEncoders reg).Alert fun a => IsErr a.1 := by
  refine al_triple al_stringArray (fun _ _ _ => trivial) fun _ _ => ?_
  exact al_triple (al_versions ..) (fun _ _ _ => trivial) fun _ _ => trivial

theorem al_headers (n total : Nat) : (readHeaders n total).Alert fun a => IsErr a.1 := by
  induction n generalizing total with
  | zero => trivial
  | succ n ih =>
    refine al_triple al_bytesArray (fun _ _ _ => trivial) fun _ _ => ?_
    refine (ih _).bind (fun ⟨r, m⟩ h => ?_) fun ⟨r, m⟩ => ?_
    · cases r with
      | error e => trivial
      | ok _ => exact h.elim
    · cases r <;> trivial

theorem al_tables (encs : List Encoder) (total : Nat) : (readTables encs total).Alert fun a => IsErr a.1 := by
  refine (al_headers ..).bind (fun ⟨r, m⟩ h => ?_) fun ⟨r, m⟩ => ?_
  · cases r with
    | error e => trivial
    | ok _ => exact h.elim
  · cases r with
    | error e => trivial
    | ok hs => exact al_triple al_stringArray (fun _ _ _ => trivial) fun _ _ => trivial

theorem al_prelude2 (reg : List Encoder) : (prelude2 reg).Alert Failed := by
  refine (al_encoders reg).bind (fun ⟨r, m⟩ h => ?_) fun ⟨r, m⟩ => ?_
  · cases r with
    | error e => trivial
    | ok _ => exact h.elim
  · cases r with
    | error e => trivial
    | ok encs => exact ⟨rfl, fun b e => ⟨rfl, rfl⟩, fun b => trivial⟩

end Rap
