import Verif.Proof.Prog
import Verif.Proof.Safe

/-!
# Reading truncated input

`Dead` describes a program once its input has run out; `Trunc` says that wherever the input of a successful run is cut,
the program goes on like that. Both are predicates on programs; `Trunc.run_er` and `Trunc.run_flat` carry
them over to runs.
-/

namespace Rap
namespace Prog

variable {α β σ : Type}

/-- With no input left (`er`: behind an `ErrReader` that has stored its error) the program does not panic and its
result satisfies `Q`. -/
def Dead (er : Bool) (Q : α → Prop) : Prog α → Prop
  | .pure a => Q a
  | .panic _ => False
  | .read _ k => ∀ e, (k [] (some e)).Dead er Q
  | .readFull n k => if n = 0 then (k [] none).Dead er Q else ∀ e, (k [] (some e)).Dead er Q
  | .erErr k => if er then ∀ e, (k (some e)).Dead er Q else (k none).Dead er Q

theorem Dead.bind {er : Bool} {Q : α → Prop} {R : β → Prop} {p : Prog α} {f : α → Prog β} (h : p.Dead er Q)
    (hf : ∀ a, Q a → (f a).Dead er R) : (p.bind f).Dead er R := by
  induction p with
  | pure a => exact hf a h
  | panic x => exact h
  | read n k ih => exact fun e => ih _ _ (h e)
  | readFull n k ih =>
    simp only [readFull_bind', Dead] at h ⊢
    split
    · rename_i hn; rw [if_pos hn] at h; exact ih _ _ h
    · rename_i hn; rw [if_neg hn] at h; exact fun e => ih _ _ (h e)
  | erErr k ih =>
    cases er with
    | true => exact fun e => ih _ (h e)
    | false => exact ih _ h

theorem Dead.imp {er : Bool} {Q R : α → Prop} {p : Prog α} (h : p.Dead er Q) (hq : ∀ a, Q a → R a) : p.Dead er R := by
  have := Dead.bind (f := Prog.pure) h (R := R) hq
  rwa [bind_pure'] at this

theorem Dead.make {er : Bool} {n elem : Nat} (h : n * elem ≤ maxAlloc) :
    (Prog.make n elem).Dead er fun _ => True := by
  rw [Prog.make, if_pos h]; trivial

/-- See the module comment. `d` is the full input. -/
def Trunc (er : Bool) (Q : α → Prop) : Prog α → Bytes → Prop
  | .pure _, _ => True
  | .panic _, _ => True
  | .read n k, d => (∀ b e, b.length < n → (k b (some e)).Dead er Q) ∧ Trunc er Q (k (d.take n) none) (d.drop n)
  | .readFull n k, d => (∀ b e, b.length < n → (k b (some e)).Dead er Q) ∧ Trunc er Q (k (d.take n) none) (d.drop n)
  | .erErr k, d => Trunc er Q (k none) d

/-- Wherever the input of a successful run with result `c` is cut, the result satisfies `Q c`. -/
def TS (er : Bool) (p : Prog α) (Q : α → α → Prop) : Prop :=
  ∀ d c R, p.clean d = some (c, R) → p.Trunc er (Q c) d

theorem Trunc.bind {er : Bool} {Q : α → Prop} {R : β → Prop} {p : Prog α} {f : α → Prog β} {d rest : Bytes} {c : α}
    (hc : p.clean d = some (c, rest)) (h : p.Trunc er Q d) (hf : ∀ a, Q a → (f a).Dead er R)
    (hr : (f c).Trunc er R rest) : (p.bind f).Trunc er R d := by
  induction p generalizing d with
  | pure a =>
    simp only [clean_pure, Option.some.injEq, Prod.mk.injEq] at hc
    rw [hc.1, hc.2]; exact hr
  | panic x => trivial
  | read n k ih =>
    simp only [clean] at hc
    split at hc
    · exact ⟨fun b e hb => Dead.bind (h.1 b e hb) hf, ih _ _ hc h.2⟩
    · simp at hc
  | readFull n k ih =>
    simp only [clean] at hc
    split at hc
    · exact ⟨fun b e hb => Dead.bind (h.1 b e hb) hf, ih _ _ hc h.2⟩
    · simp at hc
  | erErr k ih => exact ih _ hc h

theorem TS.bind {er : Bool} {p : Prog α} {f : α → Prog β} {Q1 : α → α → Prop} {Q : β → β → Prop} (h : TS er p Q1)
    (hf : ∀ c, TS er (f c) Q)
    (hd : ∀ c a d r R, Q1 c a → (f c).clean d = some (r, R) → (f a).Dead er (Q r)) : TS er (p.bind f) Q := by
  intro d r R hr
  rw [clean_bind] at hr
  cases hp : p.clean d with
  | none => simp [hp] at hr
  | some x =>
    obtain ⟨c, rest⟩ := x
    simp only [hp, Option.bind_some] at hr
    exact Trunc.bind hp (h d c rest hp) (fun a ha => hd c a rest r R ha hr) (hf c rest r R hr)

theorem TS.pure {er : Bool} {Q : α → α → Prop} (a : α) : TS er (.pure a) Q := fun _ _ _ _ => trivial
theorem TS.panic {er : Bool} {Q : α → α → Prop} (x : Panic) : TS er (.panic x) Q := fun _ _ _ _ => trivial

theorem TS.make {er : Bool} (n elem : Nat) : TS er (Prog.make n elem) fun _ _ => False := by
  intro d c R _
  unfold Prog.make; split <;> trivial

theorem TS.ofGo {er : Bool} (x : Go α) : TS er (Prog.ofGo x) fun _ _ => False := by
  intro d c R _
  cases x <;> trivial

theorem TS.read {er : Bool} {n : Nat} {k : Bytes → Option Err → Prog α} {Q : α → α → Prop}
    (h : ∀ b, TS er (k b none) Q)
    (hd : ∀ b c d R b' e, (k b none).clean d = some (c, R) → b.length = n → b'.length < n →
      (k b' (some e)).Dead er (Q c)) : TS er (.read n k) Q := by
  intro d c R hc
  simp only [clean] at hc
  split at hc
  · rename_i hn
    exact ⟨fun b e hb => hd _ _ _ _ b e hc (by simp; omega) hb, h _ _ _ _ hc⟩
  · simp at hc

theorem TS.readFull {er : Bool} {n : Nat} {k : Bytes → Option Err → Prog α} {Q : α → α → Prop}
    (h : ∀ b, TS er (k b none) Q)
    (hd : ∀ b c d R b' e, (k b none).clean d = some (c, R) → b.length = n → b'.length < n →
      (k b' (some e)).Dead er (Q c)) : TS er (.readFull n k) Q := by
  intro d c R hc
  simp only [clean] at hc
  split at hc
  · rename_i hn
    exact ⟨fun b e hb => hd _ _ _ _ b e hc (by simp; omega) hb, h _ _ _ _ hc⟩
  · simp at hc

theorem TS.erErr {er : Bool} {k : Option Err → Prog α} {Q : α → α → Prop} (h : TS er (k none) Q) :
    TS er (.erErr k) Q := fun d c R hc => h d c R hc

theorem TS.ite {er : Bool} {c : Prop} [Decidable c] {p q : Prog α} {Q : α → α → Prop} (h : TS er p Q) (h' : TS er q Q) :
    TS er (if c then p else q) Q := by split <;> assumption

theorem Dead.ite {er : Bool} {c : Prop} [Decidable c] {p q : Prog α} {Q : α → Prop} (h : Dead er Q p)
    (h' : Dead er Q q) : Dead er Q (if c then p else q) := by split <;> assumption

/-! ## Runs -/

theorem Dead.run_er [Src σ] {Q : α → Prop} {p : Prog α} (h : p.Dead true Q) (s : ER σ) {e : Err} (he : s.err = some e) :
    ∃ a, p.run s = .ok (a, s) ∧ Q a := by
  induction p with
  | pure a => exact ⟨a, rfl, h⟩
  | panic x => exact h.elim
  | read n k ih =>
    simp only [run, Src.read, ER.doRead, he]
    exact ih _ _ (h e)
  | readFull n k ih =>
    simp only [run, Src.readFull, Dead] at h ⊢
    split
    · rename_i hn; rw [if_pos hn] at h; exact ih _ _ h
    · rename_i hn; rw [if_neg hn] at h
      simp only [ER.doRead, he]
      exact ih _ _ (h e)
  | erErr k ih =>
    simp only [run, Src.erErr, he]
    exact ih _ (h e)

theorem Dead.run_flat {Q : α → Prop} {p : Prog α} (h : p.Dead false Q) (fin : Err) :
    ∃ a, p.run (⟨[], fin⟩ : Flat) = .ok (a, ⟨[], fin⟩) ∧ Q a := by
  induction p with
  | pure a => exact ⟨a, rfl, h⟩
  | panic x => exact h.elim
  | read n k ih =>
    simp only [run, Src.read]
    exact ih _ _ (h fin)
  | readFull n k ih =>
    simp only [run, Src.readFull, Dead] at h ⊢
    by_cases hn : n = 0
    · subst hn; exact ih _ _ h
    · rw [if_neg hn] at h
      rw [if_neg (by simpa using hn)]
      exact ih _ _ (h _)
  | erErr k ih => exact ih _ h

/-- Behind an `ErrReader`: either the cut is not noticed, or an error is stored in the end. -/
theorem Trunc.run_er {Q : α → Prop} {p : Prog α} {d x R : Bytes} {c : α} (hc : p.clean (d ++ x) = some (c, R))
    (h : p.Trunc true Q (d ++ x)) (fin : Err) (m : Nat) :
    (∃ R', p.clean d = some (c, R')) ∨
      ∃ a s' e, p.run (⟨⟨d, fin⟩, none, m⟩ : ER Flat) = .ok (a, s') ∧ s'.err = some e ∧ Q a := by
  induction p generalizing d m with
  | pure a => exact .inl ⟨d, by
      simp only [clean_pure, Option.some.injEq, Prod.mk.injEq] at hc ⊢; exact ⟨hc.1, trivial⟩⟩
  | panic y => simp at hc
  | read n k ih =>
    simp only [clean] at hc ⊢
    split at hc
    · rename_i hn
      by_cases hl : n ≤ d.length
      · rw [if_pos ⟨hn.1, hl⟩]
        simp only [run, Src.read, ER.doRead, Src.readFull, hl, if_true]
        rw [List.take_append_of_le_length hl, List.drop_append_of_le_length hl] at hc
        have h2 := h.2
        rw [List.take_append_of_le_length hl, List.drop_append_of_le_length hl] at h2
        exact ih _ _ hc h2 _
      · refine .inr ?_
        simp only [run, Src.read, ER.doRead, Src.readFull, hl, if_false]
        obtain ⟨a, h1, h2⟩ := Dead.run_er (h.1 d (if d.isEmpty then fin else midErr fin) (by omega))
          (⟨⟨[], fin⟩, some (if d.isEmpty then fin else midErr fin), m + d.length⟩ : ER Flat) rfl
        exact ⟨a, _, _, h1, rfl, h2⟩
    · simp at hc
  | readFull n k ih =>
    simp only [clean] at hc ⊢
    split at hc
    · rename_i hn
      by_cases hl : n ≤ d.length
      · rw [if_pos hl]
        rw [List.take_append_of_le_length hl, List.drop_append_of_le_length hl] at hc
        have h2 := h.2
        rw [List.take_append_of_le_length hl, List.drop_append_of_le_length hl] at h2
        by_cases h0 : n = 0
        · subst h0
          simp only [run, Src.readFull, if_true]
          exact ih _ _ hc h2 _
        · simp only [run, Src.readFull, if_neg h0, ER.doRead, hl, if_true]
          exact ih _ _ hc h2 _
      · refine .inr ?_
        simp only [run, Src.readFull, if_neg (show ¬ n = 0 by omega), ER.doRead, hl, if_false]
        obtain ⟨a, h1, h2⟩ := Dead.run_er (h.1 d (if d.isEmpty then fin else midErr fin) (by omega))
          (⟨⟨[], fin⟩, some (if d.isEmpty then fin else midErr fin), m + d.length⟩ : ER Flat) rfl
        exact ⟨a, _, _, h1, rfl, h2⟩
    · simp at hc
  | erErr k ih => exact ih _ hc h m

/-- Bytes in memory, for programs reading single bytes or full blocks. -/
theorem Trunc.run_flat {Q : α → Prop} {p : Prog α} (hp : p.RawReads (· = 1)) {d x R : Bytes} {c : α}
    (hc : p.clean (d ++ x) = some (c, R)) (h : p.Trunc false Q (d ++ x)) (fin : Err) :
    (∃ R', p.clean d = some (c, R')) ∨ ∃ a, p.run (⟨d, fin⟩ : Flat) = .ok (a, ⟨[], fin⟩) ∧ Q a := by
  induction p generalizing d with
  | pure a => exact .inl ⟨d, by
      simp only [clean_pure, Option.some.injEq, Prod.mk.injEq] at hc ⊢; exact ⟨hc.1, trivial⟩⟩
  | panic y => simp at hc
  | read n k ih =>
    have hn1 : n = 1 := hp.1
    subst hn1
    simp only [clean] at hc ⊢
    split at hc
    · rename_i hn
      by_cases hl : 1 ≤ d.length
      · rw [if_pos ⟨hn.1, hl⟩]
        have hde : d.isEmpty = false := by cases d <;> simp at hl ⊢
        simp only [run, Src.read, hde]
        rw [List.take_append_of_le_length hl, List.drop_append_of_le_length hl] at hc
        have h2 := h.2
        rw [List.take_append_of_le_length hl, List.drop_append_of_le_length hl] at h2
        exact ih _ _ (hp.2 _ _) hc h2
      · refine .inr ?_
        have hde : d = [] := by cases d <;> simp at hl ⊢
        subst hde
        exact Dead.run_flat (h.1 [] fin (by simp)) fin
    · simp at hc
  | readFull n k ih =>
    simp only [clean] at hc ⊢
    split at hc
    · rename_i hn
      by_cases hl : n ≤ d.length
      · rw [if_pos hl]
        rw [List.take_append_of_le_length hl, List.drop_append_of_le_length hl] at hc
        have h2 := h.2
        rw [List.take_append_of_le_length hl, List.drop_append_of_le_length hl] at h2
        simp only [run, Src.readFull, hl, if_true]
        exact ih _ _ (hp _ _) hc h2
      · refine .inr ?_
        simp only [run, Src.readFull, hl, if_false]
        exact Dead.run_flat (h.1 d _ (by omega)) fin
    · simp at hc
  | erErr k ih => exact ih _ (hp _) hc h

/-! ## More fuel -/

/-- `q` does what `p` does, except where `p` runs out of fuel. -/
inductive Refines : Prog α → Prog α → Prop
  | fuel (q : Prog α) : Refines (.panic .outOfFuel) q
  | refl (p : Prog α) : Refines p p
  | read {n : Nat} {k k' : Bytes → Option Err → Prog α} : (∀ b e, Refines (k b e) (k' b e)) →
      Refines (.read n k) (.read n k')
  | readFull {n : Nat} {k k' : Bytes → Option Err → Prog α} : (∀ b e, Refines (k b e) (k' b e)) →
      Refines (.readFull n k) (.readFull n k')
  | erErr {k k' : Option Err → Prog α} : (∀ e, Refines (k e) (k' e)) → Refines (.erErr k) (.erErr k')

theorem Refines.bind {p q : Prog α} {f g : α → Prog β} (h : Refines p q) (hf : ∀ a, Refines (f a) (g a)) :
    Refines (p.bind f) (q.bind g) := by
  induction h with
  | fuel q => exact .fuel _
  | refl p =>
    induction p with
    | pure a => exact hf a
    | panic x => exact .refl _
    | read n k ih => exact .read fun b e => ih b e
    | readFull n k ih => exact .readFull fun b e => ih b e
    | erErr k ih => exact .erErr fun e => ih e
  | read _ ih => exact .read fun b e => ih b e
  | readFull _ ih => exact .readFull fun b e => ih b e
  | erErr _ ih => exact .erErr fun e => ih e

theorem Refines.run [Src σ] {p q : Prog α} (h : Refines p q) (s : σ) :
    p.run s = .error .outOfFuel ∨ q.run s = p.run s := by
  induction h generalizing s with
  | fuel q => exact .inl rfl
  | refl p => exact .inr rfl
  | read _ ih => simp only [Prog.run]; exact ih _ _ _
  | readFull _ ih => simp only [Prog.run]; exact ih _ _ _
  | erErr _ ih => simp only [Prog.run]; exact ih _ _

end Prog

open Prog

/-! ## Integers, strings, blocks -/

theorem u64_or_le (x y : Nat) (hx : x < 2 ^ 64) : x ≤ u64 (x ||| y) := by
  unfold u64
  rw [Nat.or_mod_two_pow, Nat.mod_eq_of_lt hx]
  exact Nat.left_le_or

theorem dead_readUvarint {er : Bool} : readUvarint.Dead er fun a => a.1 = 0 ∧ a.2.2.isSome := by
  intro e
  exact ⟨rfl, rfl⟩

theorem readUvarintLoop_le (fuel i : Nat) (b : UInt8) (x s t : Nat) (hx : x < 2 ^ 64) {d R : Bytes}
    {c : Nat × Nat × Option Err} (h : (readUvarintLoop fuel i b x s t).clean d = some (c, R)) : x ≤ c.1 := by
  induction fuel generalizing i b x s t d with
  | zero =>
    simp only [readUvarintLoop, clean_pure, Option.some.injEq, Prod.mk.injEq] at h
    rw [← h.1]; exact Nat.le_refl x
  | succ fuel ih =>
    simp only [readUvarintLoop, clean] at h
    split at h
    · split at h
      · split at h
        · simp only [clean_pure, Option.some.injEq, Prod.mk.injEq] at h
          rw [← h.1]; exact Nat.le_refl x
        · simp only [clean_pure, Option.some.injEq, Prod.mk.injEq] at h
          rw [← h.1]; exact u64_or_le _ _ hx
      · exact Nat.le_trans (u64_or_le _ _ hx) (ih _ _ _ _ _ (Nat.mod_lt _ (by omega)) h)
    · simp at h

theorem ts_readUvarintLoop {er : Bool} (fuel i : Nat) (b : UInt8) (x s t : Nat) (hx : x < 2 ^ 64) :
    TS er (readUvarintLoop fuel i b x s t) fun c a => a.1 ≤ c.1 ∧ a.2.2.isSome := by
  induction fuel generalizing i b x s t with
  | zero => exact TS.pure _
  | succ fuel ih =>
    refine TS.read (fun got => ?_) ?_
    · simp only
      refine TS.ite (TS.ite (TS.pure _) (TS.pure _)) (ih _ _ _ _ _ (Nat.mod_lt _ (by omega)))
    · intro got c d R b' e hc _ _
      refine ⟨?_, rfl⟩
      simp only at hc ⊢
      split at hc
      · split at hc
        · simp only [clean_pure, Option.some.injEq, Prod.mk.injEq] at hc
          rw [← hc.1]; exact Nat.le_refl x
        · simp only [clean_pure, Option.some.injEq, Prod.mk.injEq] at hc
          rw [← hc.1]; exact u64_or_le _ _ hx
      · exact Nat.le_trans (u64_or_le _ _ hx) (readUvarintLoop_le _ _ _ _ _ _ (Nat.mod_lt _ (by omega)) hc)

theorem ts_readUvarint {er : Bool} : TS er readUvarint fun c a => a.1 ≤ c.1 ∧ a.2.2.isSome :=
  ts_readUvarintLoop _ _ _ _ _ _ (by omega)

/-- What follows `readUvarint` when its error is looked at. -/
theorem ts_checked {er : Bool} {β : Type} {f : Nat × Nat × Option Err → Prog β} {Q : β → β → Prop}
    (hf : ∀ v n, TS er (f (v, n, none)) Q) (he : ∀ v n e, ∃ r, f (v, n, some e) = .pure r ∧ ∀ c, Q c r) :
    TS er (readUvarint.bind f) Q := by
  refine TS.bind ts_readUvarint ?_ ?_
  · rintro ⟨v, n, err⟩
    cases err with
    | none => exact hf v n
    | some e => obtain ⟨r, h, -⟩ := he v n e; rw [h]; exact TS.pure _
  · rintro c ⟨v, n, err⟩ d r R h -
    cases err with
    | none => simp at h
    | some e => obtain ⟨q, h, hq⟩ := he v n e; rw [h]; exact hq _

theorem dead_checked {er : Bool} {β : Type} {f : Nat × Nat × Option Err → Prog β} {Q : β → Prop}
    (he : ∀ n e, ∃ r, f (0, n, some e) = .pure r ∧ Q r) : (readUvarint.bind f).Dead er Q := by
  refine Dead.bind dead_readUvarint ?_
  rintro ⟨v, n, err⟩ h
  cases err with
  | none => simp at h
  | some e => obtain ⟨q, h', hq⟩ := he n e; simp only at h; rw [h.1, h']; exact hq

theorem dead_readString {er : Bool} : readString.Dead er fun a => a.2.2.isSome :=
  dead_checked fun _ _ => ⟨_, rfl, rfl⟩

theorem ts_readString {er : Bool} : TS er readString fun _ a => a.2.2.isSome := by
  refine ts_checked (fun v n => ?_) (fun _ _ _ => ⟨_, rfl, fun _ => rfl⟩)
  refine TS.bind (TS.make _ _) (fun _ => ?_) (fun _ _ _ _ _ h => h.elim)
  exact TS.readFull (fun _ => TS.pure _) (fun _ _ _ _ _ _ _ _ _ => rfl)

theorem ts_readStringLoop {er : Bool} (k : Nat) (acc : List Bytes) (n : Nat) :
    TS er (readStringLoop k acc n) fun _ a => a.2.2.isSome := by
  induction k generalizing acc n with
  | zero => exact TS.pure _
  | succ k ih =>
    refine TS.bind ts_readString ?_ ?_
    · rintro ⟨s, m, err⟩
      cases err with
      | none => exact ih _ _
      | some e => exact TS.pure _
    · rintro c ⟨s, m, err⟩ d r R h -
      cases err with
      | none => simp at h
      | some e => rfl

theorem ts_readStringArray {er : Bool} : TS er readStringArray fun _ a => a.2.2.isSome := by
  refine ts_checked (fun v n => ?_) (fun _ _ _ => ⟨_, rfl, fun _ => rfl⟩)
  exact TS.bind (TS.make _ _) (fun _ => ts_readStringLoop _ _ _) (fun _ _ _ _ _ h => h.elim)

theorem dead_readStringArray {er : Bool} : readStringArray.Dead er fun a => a.2.2.isSome :=
  dead_checked fun _ _ => ⟨_, rfl, rfl⟩

theorem ts_readUvarIntLoop {er : Bool} (k : Nat) (acc : List Nat) (n : Nat) :
    TS er (readUvarIntLoop k acc n) fun _ a => a.2.2.isSome := by
  induction k generalizing acc n with
  | zero => exact TS.pure _
  | succ k ih => exact ts_checked (fun v n => ih _ _) (fun _ _ _ => ⟨_, rfl, fun _ => rfl⟩)

theorem ts_readUvarIntArray {er : Bool} : TS er readUvarIntArray fun _ a => a.2.2.isSome := by
  refine ts_checked (fun v n => ?_) (fun _ _ _ => ⟨_, rfl, fun _ => rfl⟩)
  exact TS.bind (TS.make _ _) (fun _ => ts_readUvarIntLoop _ _ _) (fun _ _ _ _ _ h => h.elim)

theorem dead_readUvarIntArray {er : Bool} : readUvarIntArray.Dead er fun a => a.1 = [] ∧ a.2.2.isSome :=
  dead_checked fun _ _ => ⟨_, rfl, rfl, rfl⟩

theorem ts_readBytesArray {er : Bool} : TS er readBytesArray fun _ a => a.1 = [] ∧ a.2.2.isSome := by
  refine ts_checked (fun v n => ?_) (fun _ _ _ => ⟨_, rfl, fun _ => ⟨rfl, rfl⟩⟩)
  refine TS.bind (TS.make _ _) (fun _ => ?_) (fun _ _ _ _ _ h => h.elim)
  refine TS.readFull (fun _ => ?_) (fun b c d R b' e hc hb hb' => ?_)
  · exact TS.ite (TS.pure _) (TS.ite (TS.pure _) (TS.pure _))
  · split
    · exact ⟨rfl, rfl⟩
    · rw [if_pos (by simp; omega)]
      exact ⟨rfl, rfl⟩

theorem dead_readBytesArray {er : Bool} : readBytesArray.Dead er fun a => a.1 = [] ∧ a.2.2.isSome :=
  dead_checked fun _ _ => ⟨_, rfl, rfl, rfl⟩

/-! ## Metadata -/

/-- The result is an error. -/
def IsErr {β : Type} : Except Err β → Prop
  | .error _ => True
  | .ok _ => False

theorem ts_readFixed {er : Bool} (k : Nat) : TS er (readFixed k) fun _ a => IsErr a :=
  TS.readFull (fun _ => TS.pure _) (fun _ _ _ _ _ _ _ _ _ => trivial)

/-- A step whose error ends the program. -/
theorem ts_except {er : Bool} {α β : Type} {p : Prog (Except Err α)} {f : Except Err α → Prog β} {Q : β → β → Prop}
    (hp : TS er p fun _ a => IsErr a) (hf : ∀ v, TS er (f (.ok v)) Q)
    (he : ∀ e, ∃ r, f (.error e) = .pure r ∧ ∀ c, Q c r) : TS er (p.bind f) Q := by
  refine TS.bind hp ?_ ?_
  · rintro (e | v)
    · obtain ⟨r, h, -⟩ := he e; rw [h]; exact TS.pure _
    · exact hf v
  · rintro c (e | v) d r R h -
    · obtain ⟨q, h', hq⟩ := he e; rw [h']; exact hq _
    · exact h.elim

theorem dead_except {er : Bool} {α β : Type} {p : Prog (Except Err α)} {f : Except Err α → Prog β} {Q : β → Prop}
    (hp : p.Dead er IsErr) (he : ∀ e, ∃ r, f (.error e) = .pure r ∧ Q r) : (p.bind f).Dead er Q := by
  refine Dead.bind hp ?_
  rintro (e | v) h
  · obtain ⟨q, h', hq⟩ := he e; rw [h']; exact hq
  · exact h.elim

/-- A step whose result carries an error that ends the program. -/
theorem ts_triple {er : Bool} {α β : Type} {p : Prog (α × Nat × Option Err)} {f : α × Nat × Option Err → Prog β}
    {Q : β → β → Prop} (hp : TS er p fun _ a => a.2.2.isSome) (hf : ∀ v n, TS er (f (v, n, none)) Q)
    (he : ∀ v n e, ∃ r, f (v, n, some e) = .pure r ∧ ∀ c, Q c r) : TS er (p.bind f) Q := by
  refine TS.bind hp ?_ ?_
  · rintro ⟨v, n, err⟩
    cases err with
    | none => exact hf v n
    | some e => obtain ⟨r, h, -⟩ := he v n e; rw [h]; exact TS.pure _
  · rintro c ⟨v, n, err⟩ d r R h -
    cases err with
    | none => simp at h
    | some e => obtain ⟨q, h, hq⟩ := he v n e; rw [h]; exact hq _

theorem dead_triple {er : Bool} {α β : Type} {p : Prog (α × Nat × Option Err)} {f : α × Nat × Option Err → Prog β}
    {Q : β → Prop} (hp : p.Dead er fun a => a.2.2.isSome) (he : ∀ v n e, ∃ r, f (v, n, some e) = .pure r ∧ Q r) :
    (p.bind f).Dead er Q := by
  refine Dead.bind hp ?_
  rintro ⟨v, n, err⟩ h
  cases err with
  | none => simp at h
  | some e => obtain ⟨q, h', hq⟩ := he v n e; rw [h']; exact hq

theorem TS.imp {er : Bool} {α : Type} {p : Prog α} {Q R : α → α → Prop} (h : TS er p Q) (hq : ∀ c a, Q c a → R c a) :
    TS er p R := by
  have := TS.bind (f := Prog.pure) (Q := R) h (fun _ => TS.pure _) (fun c a d r R' h1 h2 => by
    simp only [clean_pure, Option.some.injEq, Prod.mk.injEq] at h2
    rw [← h2.1]; exact hq _ _ h1)
  rwa [bind_pure'] at this

theorem ts_readFloat64s {er : Bool} (n : Nat) : TS er (readFloat64s n) fun _ a => IsErr a := by
  induction n with
  | zero => exact TS.pure _
  | succ n ih =>
    refine ts_except (ts_readFixed 8) (fun v => ?_) (fun e => ⟨_, rfl, fun _ => trivial⟩)
    exact ts_except ih (fun v => TS.pure _) (fun e => ⟨_, rfl, fun _ => trivial⟩)

theorem ts_readPropertyWith {er : Bool} {rd : UInt8 → Prog (Except Err Property)}
    (h : ∀ c, TS er (rd c) fun _ a => IsErr a) : TS er (readPropertyWith rd) fun _ a => IsErr a :=
  TS.read (fun _ => h _) (fun _ _ _ _ _ _ _ _ _ => trivial)

theorem dead_readPropertyWith {er : Bool} {rd : UInt8 → Prog (Except Err Property)} :
    (readPropertyWith rd).Dead er IsErr := fun _ => trivial

theorem ts_readBlockLoop {er : Bool} {rd : UInt8 → Prog (Except Err Property)}
    (h : ∀ c, TS er (rd c) fun _ a => IsErr a) (keys : List Bytes) (acc : Block) :
    TS er (readBlockLoop rd keys acc) fun _ a => IsErr a := by
  induction keys generalizing acc with
  | nil => exact TS.pure _
  | cons k ks ih =>
    exact ts_except (ts_readPropertyWith h) (fun v => ih _) (fun e => ⟨_, rfl, fun _ => trivial⟩)

theorem ts_readElemLoop {er : Bool} {rd : Prog (Except Err Property)} (h : TS er rd fun _ a => IsErr a) (base : UInt8)
    (n : Nat) (acc : List Property) : TS er (readElemLoop rd base n acc) fun _ a => IsErr a := by
  induction n generalizing acc with
  | zero => exact TS.pure _
  | succ n ih => exact ts_except h (fun v => ih _) (fun e => ⟨_, rfl, fun _ => trivial⟩)

theorem ts_readPropData {er : Bool} (fuel : Nat) (code : UInt8) : TS er (readPropData fuel code) fun _ a => IsErr a := by
  induction fuel generalizing code with
  | zero => exact TS.panic _
  | succ fuel ih =>
    show TS er (ite _ _ _) _
    refine TS.ite (ts_triple ts_readString (fun _ _ => TS.pure _) fun _ _ _ => ⟨_, rfl, fun _ => trivial⟩) ?_
    refine TS.ite (ts_except (ts_readFixed 4) (fun _ => TS.pure _) fun _ => ⟨_, rfl, fun _ => trivial⟩) ?_
    refine TS.ite (ts_except (ts_readFixed 4) (fun _ => TS.pure _) fun _ => ⟨_, rfl, fun _ => trivial⟩) ?_
    refine TS.ite (TS.pure _) ?_
    refine TS.ite (TS.pure _) ?_
    refine TS.ite (TS.read (fun _ => TS.pure _) (fun _ _ _ _ _ _ _ _ _ => trivial)) ?_
    refine TS.ite (ts_except (ts_readFloat64s 2) (fun _ => TS.pure _) fun _ => ⟨_, rfl, fun _ => trivial⟩) ?_
    refine TS.ite (ts_except (ts_readFloat64s 3) (fun _ => TS.pure _) fun _ => ⟨_, rfl, fun _ => trivial⟩) ?_
    refine TS.ite (ts_triple ts_readStringArray (fun _ _ => ts_readBlockLoop ih _ _) fun _ _ _ =>
      ⟨_, rfl, fun _ => trivial⟩) ?_
    refine TS.ite (ts_except (ts_readFixed 8) (fun _ => TS.pure _) fun _ => ⟨_, rfl, fun _ => trivial⟩) ?_
    refine TS.ite (ts_triple (TS.imp ts_readBytesArray fun _ _ h => h.2) (fun _ _ => TS.pure _) fun _ _ _ =>
      ⟨_, rfl, fun _ => trivial⟩) ?_
    refine TS.ite (ts_triple (TS.imp ts_readBytesArray fun _ _ h => h.2) (fun _ _ => TS.pure _) fun _ _ _ =>
      ⟨_, rfl, fun _ => trivial⟩) ?_
    refine TS.ite (ts_checked (fun v n => ?_) fun _ _ _ => ⟨_, rfl, fun _ => trivial⟩) (TS.pure _)
    exact TS.bind (TS.make _ _) (fun _ => ts_readElemLoop (ih _) _ _ _) (fun _ _ _ _ _ h => h.elim)

theorem ts_readProperty {er : Bool} (fuel : Nat) : TS er (readProperty fuel) fun _ a => IsErr a :=
  ts_readPropertyWith (ts_readPropData fuel)

theorem ts_readMdLoop {er : Bool} (fuel : Nat) (keys : List Bytes) (is : List Nat) (acc : Block) :
    TS er (readMdLoop fuel keys is acc) fun _ a => IsErr a := by
  induction is generalizing acc with
  | nil => exact TS.pure _
  | cons i is ih =>
    simp only [readMdLoop]
    cases keys[i]? with
    | none => exact TS.panic _
    | some k => exact ts_except (ts_readProperty fuel) (fun v => ih _) (fun e => ⟨_, rfl, fun _ => trivial⟩)

theorem ts_readMetadata {er : Bool} (fuel : Nat) (keys : List Bytes) :
    TS er (readMetadata fuel keys) fun _ a => IsErr a :=
  ts_triple ts_readUvarIntArray (fun _ _ => ts_readMdLoop _ _ _ _) fun _ _ _ => ⟨_, rfl, fun _ => trivial⟩

theorem dead_readMetadata {er : Bool} (fuel : Nat) (keys : List Bytes) : (readMetadata fuel keys).Dead er IsErr :=
  dead_triple (Dead.imp dead_readUvarIntArray fun _ h => h.2) fun _ _ _ => ⟨_, rfl, trivial⟩

/-! ## Capture times -/

/-- No claim about the result. -/
abbrev AnyR {β : Type} : β → β → Prop := fun _ _ => True

theorem ts_readF32 {er : Bool} (old : F32) : TS er (readF32 old) fun _ a => a.2.isSome :=
  TS.readFull (fun _ => TS.pure _) (fun _ _ _ _ _ _ _ _ _ => rfl)

theorem dead_readF32 {er : Bool} (old : F32) : (readF32 old).Dead er fun a => a.2.isSome := fun _ => rfl

theorem dead_decTime64Loop {er : Bool} (n : Nat) : (decTime64Loop n).Dead er fun _ => True := by
  induction n with
  | zero => trivial
  | succ n ih => exact fun e => Dead.bind ih fun _ _ => trivial

theorem ts_decTime64Loop {er : Bool} (n : Nat) : TS er (decTime64Loop n) AnyR := by
  induction n with
  | zero => exact TS.pure _
  | succ n ih =>
    refine TS.readFull (fun b => ?_) (fun b c d R b' e _ _ _ => ?_)
    · exact TS.bind ih (fun _ => TS.pure _) fun _ _ _ _ _ _ _ => trivial
    · exact Dead.bind (dead_decTime64Loop n) fun _ _ => trivial

theorem dead_decTime32Loop {er : Bool} (n : Nat) : (decTime32Loop n).Dead er fun _ => True := by
  induction n with
  | zero => trivial
  | succ n ih => exact Dead.bind (dead_readF32 _) fun _ _ => Dead.bind ih fun _ _ => trivial

theorem ts_decTime32Loop {er : Bool} (n : Nat) : TS er (decTime32Loop n) AnyR := by
  induction n with
  | zero => exact TS.pure _
  | succ n ih =>
    refine TS.bind (ts_readF32 _) (fun _ => ?_) (fun _ _ _ _ _ _ _ => ?_)
    · exact TS.bind ih (fun _ => TS.pure _) fun _ _ _ _ _ _ _ => trivial
    · exact Dead.bind (dead_decTime32Loop n) fun _ _ => trivial

theorem dead_readInto {er : Bool} (buf : Bytes) : (readInto buf).Dead er fun _ => True := fun _ => trivial

theorem ts_readInto {er : Bool} (buf : Bytes) : TS er (readInto buf) AnyR :=
  TS.read (fun _ => TS.pure _) (fun _ _ _ _ _ _ _ _ _ => trivial)

theorem dead_decTimeBstLoop {er : Bool} (gap : F64) (n : Nat) (cur : F64) (buf : Bytes) :
    (decTimeBstLoop gap n cur buf).Dead er fun _ => True := by
  induction n generalizing cur buf with
  | zero => trivial
  | succ n ih => exact Dead.bind (dead_readInto _) fun _ _ => Dead.bind (ih _ _) fun _ _ => trivial

theorem ts_decTimeBstLoop {er : Bool} (gap : F64) (n : Nat) (cur : F64) (buf : Bytes) :
    TS er (decTimeBstLoop gap n cur buf) AnyR := by
  induction n generalizing cur buf with
  | zero => exact TS.pure _
  | succ n ih =>
    refine TS.bind (ts_readInto _) (fun _ => ?_) (fun _ _ _ _ _ _ _ => ?_)
    · exact TS.bind (ih _ _) (fun _ => TS.pure _) fun _ _ _ _ _ _ _ => trivial
    · exact Dead.bind (dead_decTimeBstLoop _ _ _ _) fun _ _ => trivial

/-- A step returning a pair whose error ends the program. -/
theorem ts_pair {er : Bool} {α β : Type} {p : Prog (α × Option Err)} {f : α × Option Err → Prog β}
    {Q : β → β → Prop} (hp : TS er p fun _ a => a.2.isSome) (hf : ∀ v, TS er (f (v, none)) Q)
    (he : ∀ v e, ∃ r, f (v, some e) = .pure r ∧ ∀ c, Q c r) : TS er (p.bind f) Q := by
  refine TS.bind hp ?_ ?_
  · rintro ⟨v, err⟩
    cases err with
    | none => exact hf v
    | some e => obtain ⟨r, h, -⟩ := he v e; rw [h]; exact TS.pure _
  · rintro c ⟨v, err⟩ d r R h -
    cases err with
    | none => simp at h
    | some e => obtain ⟨q, h, hq⟩ := he v e; rw [h]; exact hq _

theorem ts_decTimeBst {er : Bool} (n : Nat) : TS er (decTimeBst n) AnyR := by
  cases n with
  | zero => exact TS.pure _
  | succ n =>
    refine ts_pair (ts_readF32 _) (fun v => ?_) fun _ _ => ⟨_, rfl, fun _ => trivial⟩
    refine TS.ite (TS.pure _) ?_
    refine ts_pair (ts_readF32 _) (fun v => ?_) fun _ _ => ⟨_, rfl, fun _ => trivial⟩
    refine TS.bind (TS.make _ _) (fun _ => ?_) (fun _ _ _ _ _ h => h.elim)
    exact TS.bind (ts_decTimeBstLoop _ _ _ _) (fun _ => TS.pure _) fun _ _ _ _ _ _ _ => trivial

theorem ts_decTime {er : Bool} : TS er decTime AnyR := by
  refine TS.read (fun got => ?_) (fun _ _ _ _ _ _ _ _ _ => trivial)
  refine ts_checked (fun n m => ?_) fun _ _ _ => ⟨_, rfl, fun _ => trivial⟩
  refine TS.ite ?_ (TS.ite ?_ (TS.ite (ts_decTimeBst _) (TS.pure _)))
  · refine TS.bind (TS.make _ _) (fun _ => ?_) (fun _ _ _ _ _ h => h.elim)
    exact TS.bind (ts_decTime64Loop _) (fun _ => TS.pure _) fun _ _ _ _ _ _ _ => trivial
  · refine TS.bind (TS.make _ _) (fun _ => ?_) (fun _ _ _ _ _ h => h.elim)
    exact TS.bind (ts_decTime32Loop _) (fun _ => TS.pure _) fun _ _ _ _ _ _ _ => trivial

theorem dead_decTime {er : Bool} : decTime.Dead er fun _ => True := fun _ => trivial

/-! ## Recordings -/

/-- No decoder of the table panics on an empty block. -/
def RTables.EmptyOk (T : RTables) : Prop :=
  ∀ x ∈ T.encs, ∀ name times, ∃ r, x.1.decode name x.2 [] times = .ok r

/-- The part of the stream loop after the four fields have been read. -/
def streamTail (T : RTables) (n idx : Nat) (name body : Bytes) (times : List F64) : Prog (List (Option Coll)) :=
  match T.encs[idx]? with
  | none => .panic .indexOutOfRange
  | some x => (Prog.ofGo (x.1.decode name x.2 body times)).bind fun r => (readStreams T n).bind fun rest =>
      .pure (r.1 :: rest)

theorem readStreams_succ (T : RTables) (n : Nat) :
    readStreams T (n + 1) = readUvarint.bind fun a => readString.bind fun b => decTime.bind fun t =>
      readBytesArray.bind fun c => streamTail T n a.1 b.1 c.1 t.1 := by
  simp only [readStreams, bind_eq]
  refine congrArg (Prog.bind readUvarint) (funext fun a => ?_)
  refine congrArg (Prog.bind readString) (funext fun b => ?_)
  refine congrArg (Prog.bind decTime) (funext fun t => ?_)
  refine congrArg (Prog.bind readBytesArray) (funext fun c => ?_)
  unfold streamTail
  cases T.encs[a.1]? <;> rfl

theorem streamTail_idx {T : RTables} {n idx : Nat} {name body : Bytes} {times : List F64} {d R : Bytes}
    {r : List (Option Coll)} (h : (streamTail T n idx name body times).clean d = some (r, R)) :
    idx < T.encs.length := by
  apply Nat.lt_of_not_le
  intro hc
  rw [streamTail, List.getElem?_eq_none hc] at h
  simp at h

theorem dead_streamTail {T : RTables} (hT : T.EmptyOk) (n idx : Nat) (name : Bytes) (times : List F64)
    (hi : idx < T.encs.length) (hn : (readStreams T n).Dead true fun _ => True) :
    (streamTail T n idx name [] times).Dead true fun _ => True := by
  obtain ⟨q, hq⟩ := hT T.encs[idx] (List.getElem_mem _) name times
  rw [streamTail, List.getElem?_eq_getElem hi]
  simp only [hq, Prog.ofGo, pure_bind']
  exact Dead.bind hn fun _ _ => trivial

theorem dead_readStreams {T : RTables} (hT : T.EmptyOk) (n : Nat) (hn : 0 < n → T.encs ≠ []) :
    (readStreams T n).Dead true fun _ => True := by
  induction n with
  | zero => trivial
  | succ n ih =>
    rw [readStreams_succ]
    refine Dead.bind dead_readUvarint ?_
    rintro ⟨idx, m, err⟩ ⟨h, -⟩
    simp only at h; subst h
    refine Dead.bind dead_readString fun r _ => Dead.bind dead_decTime fun t _ =>
      Dead.bind dead_readBytesArray ?_
    rintro ⟨body, m', err'⟩ ⟨h, -⟩
    simp only at h; subst h
    have hne := hn (by omega)
    exact dead_streamTail hT n 0 _ _ (List.length_pos_iff.2 hne) (ih fun _ => hne)

theorem ts_readStreams {T : RTables} (hT : T.EmptyOk) (n : Nat) : TS true (readStreams T n) AnyR := by
  have key : ∀ (n idx : Nat) (name : Bytes) (times : List F64), idx < T.encs.length →
      (streamTail T n idx name [] times).Dead true fun _ => True := fun n idx name times hi =>
    dead_streamTail hT n idx name times hi (dead_readStreams hT n fun _ h => by simp [h] at hi)
  induction n with
  | zero => exact TS.pure _
  | succ n ih =>
    rw [readStreams_succ]
    refine TS.bind ts_readUvarint (fun a => ?_) ?_
    · refine TS.bind ts_readString (fun b => ?_) ?_
      · refine TS.bind ts_decTime (fun t => ?_) ?_
        · refine TS.bind ts_readBytesArray (fun c => ?_) ?_
          · unfold streamTail
            split
            · exact TS.panic _
            · refine TS.bind (TS.ofGo _) (fun _ => ?_) (fun _ _ _ _ _ h => h.elim)
              exact TS.bind ih (fun _ => TS.pure _) fun _ _ _ _ _ _ _ => trivial
          · rintro c c' d r R ⟨h, -⟩ hc
            rw [h]
            exact key n _ _ _ (streamTail_idx hc)
        · rintro t t' d r R - hc
          refine Dead.bind dead_readBytesArray ?_
          rintro c ⟨h, -⟩
          rw [h]
          simp only [clean_bind, Option.bind_eq_some_iff] at hc
          obtain ⟨x, -, hc⟩ := hc
          exact key n _ _ _ (streamTail_idx hc)
      · rintro b b' d r R - hc
        refine Dead.bind dead_decTime fun t _ => Dead.bind dead_readBytesArray ?_
        rintro c ⟨h, -⟩
        rw [h]
        simp only [clean_bind, Option.bind_eq_some_iff] at hc
        obtain ⟨x, -, y, -, hc⟩ := hc
        exact key n _ _ _ (streamTail_idx hc)
    · rintro a a' d r R ⟨hle, -⟩ hc
      refine Dead.bind dead_readString fun b _ => Dead.bind dead_decTime fun t _ => Dead.bind dead_readBytesArray ?_
      rintro c ⟨h, -⟩
      rw [h]
      simp only [clean_bind, Option.bind_eq_some_iff] at hc
      obtain ⟨x, -, y, -, z, -, hc⟩ := hc
      exact key n _ _ _ (Nat.lt_of_le_of_lt hle (streamTail_idx hc))

theorem dead_readRefs (T : RTables) (n : Nat) : (readRefs T n).Dead true fun _ => True := by
  induction n with
  | zero => trivial
  | succ n ih =>
    exact Dead.bind dead_readString fun _ _ => Dead.bind dead_readString fun _ _ => Dead.bind dead_readUvarint
      fun _ _ => Dead.bind (dead_readMetadata _ _) fun _ _ => Dead.bind ih fun _ _ => trivial

theorem ts_readRefs (T : RTables) (n : Nat) : TS true (readRefs T n) AnyR := by
  induction n with
  | zero => exact TS.pure _
  | succ n ih =>
    have h4 : ∀ f : Except Err Block → List (Option BinRef) → List (Option BinRef),
        ((readMetadata T.fuel T.keys).bind fun md => (readRefs T n).bind fun rest => Prog.pure (f md rest)).Dead true
          fun _ => True := fun f => Dead.bind (dead_readMetadata _ _) fun _ _ => Dead.bind (dead_readRefs T n) fun _ _ => trivial
    refine TS.bind ts_readString (fun a => ?_) fun _ _ _ _ _ _ _ =>
      Dead.bind dead_readString fun _ _ => Dead.bind dead_readUvarint fun _ _ => h4 _
    refine TS.bind ts_readString (fun b => ?_) fun _ _ _ _ _ _ _ => Dead.bind dead_readUvarint fun _ _ => h4 _
    refine TS.bind ts_readUvarint (fun c => ?_) fun _ _ _ _ _ _ _ => h4 _
    refine TS.bind (ts_readMetadata _ _) (fun md => ?_) fun _ _ _ _ _ _ _ =>
      Dead.bind (dead_readRefs T n) fun _ _ => trivial
    exact TS.bind ih (fun _ => TS.pure _) fun _ _ _ _ _ _ _ => trivial

theorem dead_readBins (T : RTables) (n : Nat) : (readBins T n).Dead true fun _ => True := by
  induction n with
  | zero => trivial
  | succ n ih =>
    refine Dead.bind dead_readString fun _ _ => Dead.bind dead_readUvarint ?_
    rintro ⟨size, m, err⟩ ⟨h, -⟩
    simp only at h; subst h
    refine Dead.bind (dead_readMetadata _ _) fun _ _ => Dead.bind (Dead.make (by omega)) fun _ _ => ?_
    exact Dead.bind ih fun _ _ => trivial

theorem ts_readBins (T : RTables) (n : Nat) : TS true (readBins T n) AnyR := by
  induction n with
  | zero => exact TS.pure _
  | succ n ih =>
    have h3 : ∀ (size : Nat) (name : Bytes) (md : Except Err Block), size ≤ maxAlloc →
        ((Prog.make size 1).bind fun _ => Prog.readFull size fun got _ => (readBins T n).bind fun rest =>
          Prog.pure (some (newBinary name (got ++ List.replicate (size - got.length) 0) (blockOrEmpty md)) :: rest)).Dead
            true fun _ => True := by
      intro size name md hs
      refine Dead.bind (Dead.make (by omega)) fun _ _ => ?_
      show ite _ _ _
      split
      · exact Dead.bind (dead_readBins T n) fun _ _ => trivial
      · exact fun e => Dead.bind (dead_readBins T n) fun _ _ => trivial
    have hsz : ∀ (size : Nat) (k : Unit → Prog (List (Option Bin))) (d R : Bytes) (r : List (Option Bin)),
        ((Prog.make size 1).bind k).clean d = some (r, R) → size ≤ maxAlloc := by
      intro size k d R r h
      unfold Prog.make at h
      split at h
      · omega
      · simp at h
    refine TS.bind ts_readString (fun a => ?_) ?_
    · refine TS.bind ts_readUvarint (fun b => ?_) ?_
      · refine TS.bind (ts_readMetadata _ _) (fun md => ?_) ?_
        · refine TS.bind (TS.make _ _) (fun _ => ?_) (fun _ _ _ _ _ h => h.elim)
          refine TS.readFull (fun got => ?_) (fun _ _ _ _ _ _ _ _ _ => ?_)
          · exact TS.bind ih (fun _ => TS.pure _) fun _ _ _ _ _ _ _ => trivial
          · exact Dead.bind (dead_readBins T n) fun _ _ => trivial
        · intro c a' d r R _ hc
          exact h3 _ _ _ (hsz _ _ _ _ _ hc)
      · rintro ⟨size, m, err⟩ ⟨size', m', err'⟩ d r R ⟨hle, -⟩ hc
        simp only [bind_eq, clean_bind (readMetadata _ _), Option.bind_eq_some_iff] at hc
        obtain ⟨x, -, hc⟩ := hc
        have := hsz _ _ _ _ _ hc
        simp only at hle
        exact Dead.bind (dead_readMetadata _ _) fun _ _ => h3 _ _ _ (by omega)
    · intro c a' d r R _ hc
      refine Dead.bind dead_readUvarint ?_
      rintro ⟨size, m, err⟩ ⟨h, -⟩
      simp only at h; subst h
      exact Dead.bind (dead_readMetadata _ _) fun _ _ => h3 _ _ _ (by omega)

theorem dead_readChildren {rd : Prog (Except Err Rec)} (n : Nat) (hrd : 0 < n → rd.Dead true IsErr) :
    (readChildren rd n).Dead true fun _ => True := by
  cases n with
  | zero => trivial
  | succ n => exact dead_except (hrd (by omega)) fun e => ⟨_, rfl, trivial⟩

theorem ts_readChildren {rd : Prog (Except Err Rec)} (h : TS true rd fun _ a => IsErr a) (n : Nat) :
    TS true (readChildren rd n) fun _ a => IsErr a := by
  induction n with
  | zero => exact TS.pure _
  | succ n ih =>
    refine ts_except h (fun v => ?_) fun _ => ⟨_, rfl, fun _ => trivial⟩
    exact ts_except ih (fun v => TS.pure _) fun _ => ⟨_, rfl, fun _ => trivial⟩

theorem dead_buildRec (T : RTables) (fuel : Nat) : (buildRec T (fuel + 1)).Dead true IsErr :=
  Dead.bind dead_readString fun _ _ => Dead.bind dead_readString fun _ _ =>
    dead_except (dead_readMetadata _ _) fun _ => ⟨_, rfl, trivial⟩

/-- `make` succeeded in a successful run. -/
theorem make_of_clean {β : Type} {n elem : Nat} {f : Unit → Prog β} {d R : Bytes} {r : β}
    (h : ((Prog.make n elem).bind f).clean d = some (r, R)) : n * elem ≤ maxAlloc ∧ (f ()).clean d = some (r, R) := by
  unfold Prog.make at h
  split at h
  · exact ⟨by assumption, h⟩
  · simp at h

theorem bind_of_clean {α β : Type} {p : Prog α} {f : α → Prog β} {d R : Bytes} {r : β}
    (h : (p.bind f).clean d = some (r, R)) : ∃ a d', p.clean d = some (a, d') ∧ (f a).clean d' = some (r, R) := by
  rw [clean_bind, Option.bind_eq_some_iff] at h
  obtain ⟨⟨a, d'⟩, h1, h2⟩ := h
  exact ⟨a, d', h1, h2⟩

theorem streams_encs {T : RTables} {n : Nat} {d R : Bytes} {r : List (Option Coll)}
    (h : (readStreams T n).clean d = some (r, R)) (hn : 0 < n) : T.encs ≠ [] := by
  cases n with
  | zero => omega
  | succ n =>
    rw [readStreams_succ] at h
    simp only [clean_bind, Option.bind_eq_some_iff] at h
    obtain ⟨x, -, y, -, z, -, w, -, h⟩ := h
    have := streamTail_idx h
    intro hc; simp [hc] at this

/-- The last part of `buildRec`. -/
def recTail (id name : Bytes) (md : Block) (colls : List (Option Coll)) (refs : List (Option BinRef))
    (bins : List (Option Bin)) : Except Err (List Rec) → Prog (Except Err Rec)
  | .error e => .pure (.error e)
  | .ok recs => .erErr fun e =>
    match e with
    | some e => .pure (.error e)
    | none => .pure (.ok (.mk id name colls recs md bins refs))

/-- `buildRec` after the metadata. -/
def recBody (T : RTables) (fuel : Nat) (id name : Bytes) (md : Block) : Prog (Except Err Rec) :=
  readUvarint.bind fun a => (Prog.make a.1 16).bind fun _ => (readStreams T a.1).bind fun colls =>
  readUvarint.bind fun b => (Prog.make b.1 16).bind fun _ => (readRefs T b.1).bind fun refs =>
  readUvarint.bind fun c => (Prog.make c.1 16).bind fun _ => (readBins T c.1).bind fun bins =>
  readUvarint.bind fun d => (Prog.make d.1 16).bind fun _ => (readChildren (buildRec T fuel) d.1).bind fun r =>
  recTail id name md colls refs bins r

theorem buildRec_succ (T : RTables) (fuel : Nat) :
    buildRec T (fuel + 1) = readString.bind fun a => readString.bind fun b => (readMetadata T.fuel T.keys).bind fun m =>
      match m with
      | .error e => .pure (.error e)
      | .ok md => recBody T fuel a.1 b.1 md := by
  simp only [buildRec, bind_eq]
  refine congrArg (Prog.bind readString) (funext fun a => ?_)
  refine congrArg (Prog.bind readString) (funext fun b => ?_)
  refine congrArg (Prog.bind (readMetadata T.fuel T.keys)) (funext fun m => ?_)
  cases m with
  | error e => rfl
  | ok md =>
    refine congrArg (Prog.bind readUvarint) (funext fun x1 => ?_)
    refine congrArg (Prog.bind (Prog.make x1.1 16)) (funext fun _ => ?_)
    refine congrArg (Prog.bind (readStreams T x1.1)) (funext fun colls => ?_)
    refine congrArg (Prog.bind readUvarint) (funext fun x2 => ?_)
    refine congrArg (Prog.bind (Prog.make x2.1 16)) (funext fun _ => ?_)
    refine congrArg (Prog.bind (readRefs T x2.1)) (funext fun refs => ?_)
    refine congrArg (Prog.bind readUvarint) (funext fun x3 => ?_)
    refine congrArg (Prog.bind (Prog.make x3.1 16)) (funext fun _ => ?_)
    refine congrArg (Prog.bind (readBins T x3.1)) (funext fun bins => ?_)
    refine congrArg (Prog.bind readUvarint) (funext fun x4 => ?_)
    refine congrArg (Prog.bind (Prog.make x4.1 16)) (funext fun _ => ?_)
    refine congrArg (Prog.bind (readChildren (buildRec T fuel) x4.1)) (funext fun r => ?_)
    cases r <;> rfl

theorem dead_recTail (id name : Bytes) (md : Block) (colls : List (Option Coll)) (refs : List (Option BinRef))
    (bins : List (Option Bin)) (r : Except Err (List Rec)) :
    (recTail id name md colls refs bins r).Dead true IsErr := by
  cases r with
  | error e => trivial
  | ok recs => exact fun e => trivial

theorem ts_buildRec {T : RTables} (hT : T.EmptyOk) (fuel : Nat) : TS true (buildRec T fuel) fun _ a => IsErr a := by
  induction fuel with
  | zero => exact TS.panic _
  | succ fuel ih =>
    rw [buildRec_succ]
    have hmd : ∀ (a b : Bytes × Nat × Option Err), ((readMetadata T.fuel T.keys).bind fun m =>
        match m with
        | .error e => Prog.pure (.error e)
        | .ok md => recBody T fuel a.1 b.1 md).Dead true IsErr := fun a b =>
      dead_except (dead_readMetadata _ _) fun _ => ⟨_, rfl, trivial⟩
    refine TS.bind ts_readString (fun a => ?_) fun _ _ _ _ _ _ _ => Dead.bind dead_readString fun _ _ => hmd _ _
    refine TS.bind ts_readString (fun b => ?_) fun _ _ _ _ _ _ _ => hmd _ _
    refine ts_except (ts_readMetadata _ _) (fun md => ?_) fun _ => ⟨_, rfl, fun _ => trivial⟩
    -- the dead ends of each stage
    have e4 : ∀ colls refs bins n, n * 16 ≤ maxAlloc → (0 < n → 0 < fuel) →
        ((Prog.make n 16).bind fun _ => (readChildren (buildRec T fuel) n).bind fun r =>
          recTail a.1 b.1 md colls refs bins r).Dead true IsErr := by
      intro colls refs bins n hn hf
      refine Dead.bind (Dead.make hn) fun _ _ => Dead.bind (dead_readChildren n fun h => ?_) fun _ _ =>
        dead_recTail _ _ _ _ _ _ _
      obtain ⟨f, rfl⟩ : ∃ f, fuel = f + 1 := ⟨fuel - 1, by have := hf h; omega⟩
      exact dead_buildRec T f
    have e4' : ∀ colls refs bins, (readUvarint.bind fun d => (Prog.make d.1 16).bind fun _ =>
        (readChildren (buildRec T fuel) d.1).bind fun r => recTail a.1 b.1 md colls refs bins r).Dead true IsErr := by
      intro colls refs bins
      refine Dead.bind dead_readUvarint fun d hd => ?_
      rw [hd.1]
      exact e4 _ _ _ _ (by omega) (by omega)
    have e3 : ∀ colls refs n, n * 16 ≤ maxAlloc →
        ((Prog.make n 16).bind fun _ => (readBins T n).bind fun bins => readUvarint.bind fun d =>
          (Prog.make d.1 16).bind fun _ => (readChildren (buildRec T fuel) d.1).bind fun r =>
          recTail a.1 b.1 md colls refs bins r).Dead true IsErr := fun colls refs n hn =>
      Dead.bind (Dead.make hn) fun _ _ => Dead.bind (dead_readBins T n) fun _ _ => e4' _ _ _
    have e3' : ∀ colls refs, (readUvarint.bind fun c => (Prog.make c.1 16).bind fun _ => (readBins T c.1).bind fun bins =>
        readUvarint.bind fun d => (Prog.make d.1 16).bind fun _ => (readChildren (buildRec T fuel) d.1).bind fun r =>
          recTail a.1 b.1 md colls refs bins r).Dead true IsErr := by
      intro colls refs
      refine Dead.bind dead_readUvarint fun d hd => ?_
      rw [hd.1]
      exact e3 _ _ _ (by omega)
    have e2 : ∀ colls n, n * 16 ≤ maxAlloc →
        ((Prog.make n 16).bind fun _ => (readRefs T n).bind fun refs =>
        readUvarint.bind fun c => (Prog.make c.1 16).bind fun _ => (readBins T c.1).bind fun bins =>
        readUvarint.bind fun d => (Prog.make d.1 16).bind fun _ => (readChildren (buildRec T fuel) d.1).bind fun r =>
          recTail a.1 b.1 md colls refs bins r).Dead true IsErr := fun colls n hn =>
      Dead.bind (Dead.make hn) fun _ _ => Dead.bind (dead_readRefs T n) fun _ _ => e3' _ _
    have e2' : ∀ colls, (readUvarint.bind fun b' => (Prog.make b'.1 16).bind fun _ => (readRefs T b'.1).bind fun refs =>
        readUvarint.bind fun c => (Prog.make c.1 16).bind fun _ => (readBins T c.1).bind fun bins =>
        readUvarint.bind fun d => (Prog.make d.1 16).bind fun _ => (readChildren (buildRec T fuel) d.1).bind fun r =>
          recTail a.1 b.1 md colls refs bins r).Dead true IsErr := by
      intro colls
      refine Dead.bind dead_readUvarint fun d hd => ?_
      rw [hd.1]
      exact e2 _ _ (by omega)
    have mono : ∀ {x y : Nat}, x ≤ y → y * 16 ≤ maxAlloc → x * 16 ≤ maxAlloc := fun h1 h2 =>
      Nat.le_trans (Nat.mul_le_mul_right 16 h1) h2
    refine TS.bind ts_readUvarint (fun x1 => ?_) ?_
    · refine TS.bind (TS.make _ _) (fun _ => ?_) (fun _ _ _ _ _ h => h.elim)
      refine TS.bind (ts_readStreams hT _) (fun colls => ?_) fun _ _ _ _ _ _ _ => e2' _
      refine TS.bind ts_readUvarint (fun x2 => ?_) ?_
      · refine TS.bind (TS.make _ _) (fun _ => ?_) (fun _ _ _ _ _ h => h.elim)
        refine TS.bind (ts_readRefs T _) (fun refs => ?_) fun _ _ _ _ _ _ _ => e3' _ _
        refine TS.bind ts_readUvarint (fun x3 => ?_) ?_
        · refine TS.bind (TS.make _ _) (fun _ => ?_) (fun _ _ _ _ _ h => h.elim)
          refine TS.bind (ts_readBins T _) (fun bins => ?_) fun _ _ _ _ _ _ _ => e4' _ _ _
          refine TS.bind ts_readUvarint (fun x4 => ?_) ?_
          · refine TS.bind (TS.make _ _) (fun _ => ?_) (fun _ _ _ _ _ h => h.elim)
            refine TS.bind (ts_readChildren ih _) (fun r => ?_) fun _ _ _ _ _ _ _ => dead_recTail _ _ _ _ _ _ _
            cases r with
            | error e => exact TS.pure _
            | ok recs => exact TS.erErr (TS.pure _)
          · intro c a' d r R h hc
            obtain ⟨hm, hc⟩ := make_of_clean hc
            refine e4 _ _ _ _ (mono h.1 hm) fun hpos => ?_
            obtain ⟨y, d', hy, -⟩ := bind_of_clean hc
            obtain ⟨k, hk⟩ : ∃ k, c.1 = k + 1 := ⟨c.1 - 1, by omega⟩
            rw [hk] at hy
            obtain ⟨z, d'', hz, -⟩ := bind_of_clean hy
            cases fuel with
            | zero => simp [buildRec] at hz
            | succ f => omega
        · intro c a' d r R h hc
          obtain ⟨hm, hc⟩ := make_of_clean hc
          exact e3 _ _ _ (mono h.1 hm)
      · intro c a' d r R h hc
        obtain ⟨hm, hc⟩ := make_of_clean hc
        exact e2 _ _ (mono h.1 hm)
    · intro c a' d r R h hc
      obtain ⟨hm, hc⟩ := make_of_clean hc
      obtain ⟨y, d', hy, -⟩ := bind_of_clean hc
      refine Dead.bind (Dead.make (mono h.1 hm)) fun _ _ => Dead.bind (dead_readStreams hT _ fun hpos => ?_) fun _ _ => e2' _
      exact streams_encs hy (by have := h.1; omega)

/-! ## The parts in front of the tree -/

theorem ts_readHeaders (n total : Nat) : TS false (readHeaders n total) fun _ a => IsErr a.1 := by
  induction n generalizing total with
  | zero => exact TS.pure _
  | succ n ih =>
    refine ts_triple (TS.imp ts_readBytesArray fun _ _ h => h.2) (fun v m => ?_) fun _ _ _ => ⟨_, rfl, fun _ => trivial⟩
    refine TS.bind (ih _) ?_ ?_
    · rintro ⟨e | hs, t⟩
      · exact TS.pure _
      · exact TS.pure _
    · rintro c ⟨e | hs, t⟩ d r R h -
      · trivial
      · exact h.elim

theorem ts_readTables (encs : List Encoder) (total : Nat) : TS false (readTables encs total) fun _ a => IsErr a.1 := by
  refine TS.bind (ts_readHeaders _ _) ?_ ?_
  · rintro ⟨e | hs, t⟩
    · exact TS.pure _
    · exact ts_triple ts_readStringArray (fun v m => TS.pure _) fun _ _ _ => ⟨_, rfl, fun _ => trivial⟩
  · rintro c ⟨e | hs, t⟩ d r R h -
    · trivial
    · exact h.elim

theorem ts_readVersions (n total : Nat) : TS false (readVersions n total) fun _ a => a.2.2.isSome := by
  induction n generalizing total with
  | zero => exact TS.pure _
  | succ n ih =>
    refine ts_checked (fun v m => ?_) fun _ _ _ => ⟨_, rfl, fun _ => rfl⟩
    exact TS.bind (ih _) (fun _ => TS.pure _) fun _ _ _ _ _ h _ => h

theorem ts_readEncoders (registered : List Encoder) : TS false (readEncoders registered) fun _ a => IsErr a.1 := by
  refine ts_triple ts_readStringArray (fun v m => ?_) fun _ _ _ => ⟨_, rfl, fun _ => trivial⟩
  exact ts_triple (ts_readVersions _ _) (fun v m => TS.pure _) fun _ _ _ => ⟨_, rfl, fun _ => trivial⟩

/-- A call of `Read` that ended with an error and no recording. -/
def Failed : (Rec × Nat × Option Err) ⊕ (List Encoder × UInt8 × Nat) → Prop
  | .inl (r, _, e) => r = .nil ∧ e.isSome
  | .inr _ => False

/-- What `readPrelude` does after a version byte of 2. -/
def prelude2 (registered : List Encoder) : Prog ((Rec × Nat × Option Err) ⊕ (List Encoder × UInt8 × Nat)) :=
  (readEncoders registered).bind fun r =>
    match r with
    | (.error e, read) => .pure (.inl (.nil, 1 + read, some e))
    | (.ok encs, read) =>
      .read 1 fun got err =>
        match err with
        | some e => .pure (.inl (.nil, 1 + read + got.length, some e))
        | none => .pure (.inr (encs, got.headD 0, 1 + read + got.length))

theorem readPrelude_v2 (X : Ext) (unmarshal : Bytes → Except Err V1.Recording) (registered : List Encoder) :
    ∃ k, readPrelude X unmarshal registered = .read 1 k ∧ k [2] none = prelude2 registered ∧
      ∀ e, k [] (some e) = .pure (.inl (.nil, 0, some e)) := ⟨_, rfl, rfl, fun _ => rfl⟩

theorem ts_prelude2 (registered : List Encoder) : TS false (prelude2 registered) fun _ => Failed := by
  refine TS.bind (ts_readEncoders registered) ?_ ?_
  · rintro ⟨e | encs, n⟩
    · exact TS.pure _
    · exact TS.read (fun b => TS.pure _) fun _ _ _ _ _ _ _ _ _ => ⟨rfl, rfl⟩
  · rintro c ⟨e | hs, t⟩ d r R h -
    · exact ⟨rfl, rfl⟩
    · exact h.elim

/-! ## Fuel does not matter while it lasts -/

theorem ref_readPropData {f1 f2 : Nat} (h : f1 ≤ f2) (code : UInt8) :
    Refines (readPropData f1 code) (readPropData f2 code) := by
  induction f1 generalizing f2 code with
  | zero => exact .fuel _
  | succ f1 ih =>
    obtain ⟨f2, rfl⟩ : ∃ k, f2 = k + 1 := ⟨f2 - 1, by omega⟩
    have ih' : ∀ code, Refines (readPropData f1 code) (readPropData f2 code) := fun c => ih (by omega) c
    have hite : ∀ {c : Prop} [Decidable c] {p q q' : Prog (Except Err Property)}, Refines q q' →
        Refines (if c then p else q) (if c then p else q') := fun h => by split; exact .refl _; exact h
    have hite' : ∀ {c : Prop} [Decidable c] {p p' q q' : Prog (Except Err Property)}, Refines p p' → Refines q q' →
        Refines (if c then p else q) (if c then p' else q') := fun h h' => by split; exact h; exact h'
    show Refines (ite _ _ _) (ite _ _ _)
    iterate 8 refine hite ?_
    refine hite' ?_ ?_
    · refine Refines.bind (.refl _) ?_
      rintro ⟨keys, n, err⟩
      cases err with
      | some e => exact .refl _
      | none =>
        show Refines (readBlockLoop (readPropData f1) keys []) (readBlockLoop (readPropData f2) keys [])
        generalize ([] : Block) = acc
        induction keys generalizing acc with
        | nil => exact .refl _
        | cons k ks ihk =>
          refine Refines.bind (.read fun b e => ?_) ?_
          · cases e with
            | some e => exact .refl _
            | none => exact ih' _
          · rintro (e | v)
            · exact .refl _
            · exact ihk _
    · iterate 3 refine hite ?_
      refine hite' ?_ (.refl _)
      refine Refines.bind (.refl _) ?_
      rintro ⟨len, n, err⟩
      cases err with
      | some e => exact .refl _
      | none =>
        refine Refines.bind (.refl _) fun _ => ?_
        show Refines (readElemLoop _ _ len []) (readElemLoop _ _ len [])
        generalize ([] : List Property) = acc
        induction len generalizing acc with
        | zero => exact .refl _
        | succ k ihk =>
          refine Refines.bind (ih' _) ?_
          rintro (e | v)
          · exact .refl _
          · exact ihk _

theorem ref_readProperty {f1 f2 : Nat} (h : f1 ≤ f2) : Refines (readProperty f1) (readProperty f2) :=
  .read fun b e => by
    cases e with
    | some e => exact .refl _
    | none => exact ref_readPropData h _

theorem ref_readMetadata {f1 f2 : Nat} (h : f1 ≤ f2) (keys : List Bytes) :
    Refines (readMetadata f1 keys) (readMetadata f2 keys) := by
  refine Refines.bind (.refl _) ?_
  rintro ⟨is, n, err⟩
  cases err with
  | some e => exact .refl _
  | none =>
    show Refines (readMdLoop f1 keys is []) (readMdLoop f2 keys is [])
    generalize ([] : Block) = acc
    induction is generalizing acc with
    | nil => exact .refl _
    | cons i is ih =>
      simp only [readMdLoop]
      cases keys[i]? with
      | none => exact .refl _
      | some k =>
        refine Refines.bind (ref_readProperty h) ?_
        rintro (e | v)
        · exact .refl _
        · exact ih _

theorem ref_readRefs {keys : List Bytes} {encs : List (Encoder × Bytes)} {f1 f2 : Nat} (h : f1 ≤ f2) (n : Nat) :
    Refines (readRefs ⟨keys, encs, f1⟩ n) (readRefs ⟨keys, encs, f2⟩ n) := by
  induction n with
  | zero => exact .refl _
  | succ n ih =>
    exact Refines.bind (.refl _) fun _ => Refines.bind (.refl _) fun _ => Refines.bind (.refl _) fun _ =>
      Refines.bind (ref_readMetadata h _) fun _ => Refines.bind ih fun _ => .refl _

theorem ref_readBins {keys : List Bytes} {encs : List (Encoder × Bytes)} {f1 f2 : Nat} (h : f1 ≤ f2) (n : Nat) :
    Refines (readBins ⟨keys, encs, f1⟩ n) (readBins ⟨keys, encs, f2⟩ n) := by
  induction n with
  | zero => exact .refl _
  | succ n ih =>
    exact Refines.bind (.refl _) fun _ => Refines.bind (.refl _) fun _ =>
      Refines.bind (ref_readMetadata h _) fun _ => Refines.bind (.refl _) fun _ => .readFull fun _ _ =>
        Refines.bind ih fun _ => .refl _

theorem ref_readStreams {keys : List Bytes} {encs : List (Encoder × Bytes)} {f1 f2 : Nat} (n : Nat) :
    readStreams ⟨keys, encs, f1⟩ n = readStreams ⟨keys, encs, f2⟩ n := by
  induction n with
  | zero => rfl
  | succ n ih =>
    simp only [readStreams_succ, streamTail, ih]

theorem ref_readChildren {rd rd' : Prog (Except Err Rec)} (h : Refines rd rd') (n : Nat) :
    Refines (readChildren rd n) (readChildren rd' n) := by
  induction n with
  | zero => exact .refl _
  | succ k ihk =>
    refine Refines.bind h ?_
    rintro (e | v)
    · exact .refl _
    · refine Refines.bind ihk ?_
      rintro (e | v)
      · exact .refl _
      · exact .refl _

theorem ref_recBody {T T' : RTables} {g1 g2 : Nat} (h1 : ∀ n, readStreams T n = readStreams T' n)
    (h2 : ∀ n, Refines (readRefs T n) (readRefs T' n)) (h3 : ∀ n, Refines (readBins T n) (readBins T' n))
    (h4 : Refines (buildRec T g1) (buildRec T' g2)) (id name : Bytes) (md : Block) :
    Refines (recBody T g1 id name md) (recBody T' g2 id name md) := by
  simp only [recBody, h1]
  refine Refines.bind (.refl _) fun _ => Refines.bind (.refl _) fun _ => Refines.bind (.refl _) fun _ => ?_
  refine Refines.bind (.refl _) fun _ => Refines.bind (.refl _) fun _ => Refines.bind (h2 _) fun _ => ?_
  refine Refines.bind (.refl _) fun _ => Refines.bind (.refl _) fun _ => Refines.bind (h3 _) fun _ => ?_
  exact Refines.bind (.refl _) fun n => Refines.bind (.refl _) fun _ => Refines.bind (ref_readChildren h4 _) fun _ =>
    .refl _

theorem ref_buildRec {keys : List Bytes} {encs : List (Encoder × Bytes)} {f1 f2 g1 g2 : Nat} (hf : f1 ≤ f2)
    (hg : g1 ≤ g2) : Refines (buildRec ⟨keys, encs, f1⟩ g1) (buildRec ⟨keys, encs, f2⟩ g2) := by
  induction g1 generalizing g2 with
  | zero => exact .fuel _
  | succ g1 ih =>
    obtain ⟨g2, rfl⟩ : ∃ k, g2 = k + 1 := ⟨g2 - 1, by omega⟩
    rw [buildRec_succ, buildRec_succ]
    refine Refines.bind (.refl _) fun a => Refines.bind (.refl _) fun b => Refines.bind (ref_readMetadata hf _) ?_
    rintro (e | md)
    · exact .refl _
    · exact ref_recBody (fun n => ref_readStreams n) (fun n => ref_readRefs hf n) (fun n => ref_readBins hf n)
        (ih (by omega)) _ _ _

end Rap
