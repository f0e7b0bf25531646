import Verif.Proof.Post
import Verif.Model.Reader

/-!
# Which panics a reader program can end in

`OnlyPanics` bounds the panics of a program whatever its source does. `Safe m` does so for sources holding at most `m`
units of input, which is what bounds recursion over the input.
-/

namespace Rap
namespace Prog

variable {α β σ : Type}

/-- Every panic the program can end in, whatever the source delivers, satisfies `ok`. -/
def OnlyPanics (ok : Panic → Prop) : Prog α → Prop
  | .pure _ => True
  | .panic p => ok p
  | .read _ k => ∀ b e, (k b e).OnlyPanics ok
  | .readFull _ k => ∀ b e, (k b e).OnlyPanics ok
  | .erErr k => ∀ e, (k e).OnlyPanics ok

theorem OnlyPanics.run [Src σ] {ok : Panic → Prop} {p : Prog α} (h : p.OnlyPanics ok) {s : σ} {x : Panic}
    (hr : p.run s = .error x) : ok x := by
  induction p generalizing s with
  | pure a => simp [Prog.run] at hr
  | panic y => simp only [Prog.run, Except.error.injEq] at hr; rw [← hr]; exact h
  | read n k ih => exact ih _ _ (h _ _) hr
  | readFull n k ih => exact ih _ _ (h _ _) hr
  | erErr k ih => exact ih _ (h _) hr

theorem OnlyPanics.bind {ok : Panic → Prop} {p : Prog α} {f : α → Prog β} (h : p.OnlyPanics ok)
    (hf : ∀ a, (f a).OnlyPanics ok) : (p.bind f).OnlyPanics ok := by
  induction p with
  | pure a => exact hf a
  | panic y => exact h
  | read n k ih => exact fun b e => ih b e (h b e)
  | readFull n k ih => exact fun b e => ih b e (h b e)
  | erErr k ih => exact fun e => ih e (h e)

/-- See the module comment: from a source with `m` units left, the program ends in an allowed panic or in a
result satisfying `Q` together with the units then left. A successful read of a non-empty buffer uses up at least one
unit, a failing one leaves none. -/
def Safe (ok : Panic → Prop) (Q : Nat → α → Prop) : Nat → Prog α → Prop
  | m, .pure a => Q m a
  | _, .panic p => ok p
  | m, .read n k => (∀ b e, Safe ok Q 0 (k b (some e))) ∧
      ∀ b m', m' ≤ m → (0 < n → m' < m) → Safe ok Q m' (k b none)
  | m, .readFull n k => (∀ b e, Safe ok Q 0 (k b (some e))) ∧
      ∀ b m', m' ≤ m → (0 < n → m' < m) → Safe ok Q m' (k b none)
  | m, .erErr k => ∀ e, Safe ok Q m (k e)

theorem Safe.bind {ok : Panic → Prop} {Q : Nat → α → Prop} {R : Nat → β → Prop} {p : Prog α} {f : α → Prog β} {m : Nat}
    (h : p.Safe ok Q m) (hf : ∀ m' a, Q m' a → (f a).Safe ok R m') : (p.bind f).Safe ok R m := by
  induction p generalizing m with
  | pure a => exact hf m a h
  | panic y => exact h
  | read n k ih => exact ⟨fun b e => ih _ _ (h.1 b e), fun b m' h1 h2 => ih _ _ (h.2 b m' h1 h2)⟩
  | readFull n k ih => exact ⟨fun b e => ih _ _ (h.1 b e), fun b m' h1 h2 => ih _ _ (h.2 b m' h1 h2)⟩
  | erErr k ih => exact fun e => ih e (h e)

theorem Safe.imp {ok : Panic → Prop} {Q R : Nat → α → Prop} {p : Prog α} {m : Nat}
    (h : p.Safe ok Q m) (hq : ∀ m' a, Q m' a → R m' a) : p.Safe ok R m := by
  have := Safe.bind (f := Prog.pure) h (R := R) hq
  rwa [bind_pure'] at this

/-- Input never grows. -/
theorem OnlyPanics.safe {ok : Panic → Prop} {p : Prog α} (h : p.OnlyPanics ok) (m : Nat) :
    p.Safe ok (fun m' _ => m' ≤ m) m := by
  have : ∀ m0, m0 ≤ m → p.Safe ok (fun m' _ => m' ≤ m) m0 := by
    induction p with
    | pure a => exact fun m0 h0 => h0
    | panic y => exact fun _ _ => h
    | read n k ih => exact fun m0 h0 => ⟨fun b e => ih b _ (h b _) 0 (by omega), fun b m' h1 _ =>
        ih b _ (h b _) m' (by omega)⟩
    | readFull n k ih => exact fun m0 h0 => ⟨fun b e => ih b _ (h b _) 0 (by omega), fun b m' h1 _ =>
        ih b _ (h b _) m' (by omega)⟩
    | erErr k ih => exact fun m0 h0 e => ih e (h e) m0 h0
  exact this m (Nat.le_refl m)

/-- A source with a measure as `Safe` assumes it. -/
structure Measured (σ : Type) [Src σ] (μ : σ → Nat) : Prop where
  read_err : ∀ n s, (Src.read n s).2.1 ≠ none → μ (Src.read n s).2.2 = 0
  read_ok : ∀ n s, (Src.read n s).2.1 = none → μ (Src.read n s).2.2 ≤ μ s ∧ (0 < n → μ (Src.read n s).2.2 < μ s)
  full_err : ∀ n s, (Src.readFull n s).2.1 ≠ none → μ (Src.readFull n s).2.2 = 0
  full_ok : ∀ n s, (Src.readFull n s).2.1 = none →
    μ (Src.readFull n s).2.2 ≤ μ s ∧ (0 < n → μ (Src.readFull n s).2.2 < μ s)

theorem Safe.run [Src σ] {μ : σ → Nat} (hμ : Measured σ μ) {ok : Panic → Prop} {Q : Nat → α → Prop} {p : Prog α} {s : σ}
    (h : p.Safe ok Q (μ s)) :
    (∃ a s', p.run s = .ok (a, s') ∧ Q (μ s') a) ∨ ∃ x, p.run s = .error x ∧ ok x := by
  induction p generalizing s with
  | pure a => exact .inl ⟨a, s, rfl, h⟩
  | panic y => exact .inr ⟨y, rfl, h⟩
  | read n k ih =>
    simp only [Prog.run]
    have h1 := hμ.read_err n s
    have h2 := hμ.read_ok n s
    rcases hx : Src.read n s with ⟨b, e, s'⟩
    rw [hx] at h1 h2
    simp only at h1 h2 ⊢
    apply ih
    cases e with
    | some e => rw [h1 (by simp)]; exact h.1 b e
    | none => exact h.2 b _ (h2 rfl).1 (h2 rfl).2
  | readFull n k ih =>
    simp only [Prog.run]
    have h1 := hμ.full_err n s
    have h2 := hμ.full_ok n s
    rcases hx : Src.readFull n s with ⟨b, e, s'⟩
    rw [hx] at h1 h2
    simp only at h1 h2 ⊢
    apply ih
    cases e with
    | some e => rw [h1 (by simp)]; exact h.1 b e
    | none => exact h.2 b _ (h2 rfl).1 (h2 rfl).2
  | erErr k ih => exact ih _ (h _)

/-- Bytes in memory, measured by their number. -/
theorem measured_flat : Measured Flat fun s => s.data.length := by
  constructor
  · intro n s h
    simp only [Src.read] at h ⊢
    split
    · rename_i hd; simpa using hd
    · rename_i hd; rw [if_neg hd] at h; simp at h
  · intro n s h
    simp only [Src.read] at h ⊢
    split
    · rename_i hd; rw [if_pos hd] at h; simp at h
    · rename_i hd
      have : 0 < s.data.length := by cases hx : s.data <;> simp [hx] at hd ⊢
      simp only [List.length_drop]; omega
  · intro n s h
    simp only [Src.readFull] at h ⊢
    split
    · rename_i hd; rw [if_pos hd] at h; simp at h
    · rfl
  · intro n s h
    simp only [Src.readFull] at h ⊢
    split
    · simp only [List.length_drop]; omega
    · rename_i hd; rw [if_neg hd] at h; simp at h

/-- Sources whose successful full reads use up the bytes they return. -/
class Finite (σ : Type) extends Drain σ where
  full : ∀ n (s : σ), (Src.readFull n s).2.1 = none →
    (rest (Src.readFull n s).2.2).1.length + n ≤ (rest s).1.length

instance : Finite Flat where
  full n s h := by
    simp only [Src.readFull] at h ⊢
    split
    · simp only [Drain.rest, List.length_drop]; omega
    · rename_i hd; rw [if_neg hd] at h; simp at h

theorem fill_length (n : Nat) (cs : List Bytes) : (Chunked.fill n cs).2.1 = true →
    (Chunked.fill n cs).2.2.flatten.length + n ≤ cs.flatten.length := by
  induction cs generalizing n with
  | nil => simp [Chunked.fill]
  | cons c cs ih =>
    simp only [Chunked.fill]
    split
    · rename_i h; subst h; simp
    · split
      · have := ih (n - c.length)
        rcases hx : Chunked.fill (n - c.length) cs with ⟨b, ok, cs'⟩
        rw [hx] at this
        intro h
        have := this h
        simp only [List.flatten_cons, List.length_append] at this ⊢; omega
      · simp only [List.flatten_cons, List.length_append, List.length_drop]; omega

instance : Finite Chunked where
  full n s h := by
    have h1 := fill_length n s.chunks
    simp only [Src.readFull] at h ⊢
    rcases hx : Chunked.fill n s.chunks with ⟨b, ok, cs⟩
    rw [hx] at h h1
    cases ok with
    | true => simp only [Drain.rest]; simp only at h1; exact h1 trivial
    | false => simp at h

/-- An `ErrReader` holds no input once an error is stored. -/
def erMeasure [Finite σ] (s : ER σ) : Nat := if s.err.isSome then 0 else (Drain.rest s.src).1.length

theorem doRead_measure [Finite σ] (n : Nat) (s : ER σ) :
    ((ER.doRead n s).2.1 ≠ none → erMeasure (ER.doRead n s).2.2 = 0) ∧
    ((ER.doRead n s).2.1 = none → erMeasure (ER.doRead n s).2.2 ≤ erMeasure s ∧
      (0 < n → erMeasure (ER.doRead n s).2.2 < erMeasure s)) := by
  unfold ER.doRead
  cases he : s.err with
  | some e => simp [erMeasure, he]
  | none =>
    have h1 := Finite.full n s.src
    rcases hx : Src.readFull n s.src with ⟨b, e, s'⟩
    rw [hx] at h1
    simp only at h1 ⊢
    cases e with
    | some e => simp [erMeasure]
    | none =>
      have h1 := h1 rfl
      simp only [erMeasure, he]
      simp; omega

theorem measured_er [Finite σ] : Measured (ER σ) erMeasure := by
  constructor
  · exact fun n s => (doRead_measure n s).1
  · exact fun n s => (doRead_measure n s).2
  · intro n s
    simp only [Src.readFull]
    split
    · simp
    · exact (doRead_measure n s).1
  · intro n s
    simp only [Src.readFull]
    split
    · rename_i h; subst h; simp
    · exact (doRead_measure n s).2

theorem OnlyPanics.ofGo {ok : Panic → Prop} {x : Go α} (h : ∀ p, x = .error p → ok p) :
    (Prog.ofGo x).OnlyPanics ok := by
  cases x with
  | ok a => trivial
  | error p => exact h p rfl

end Prog

open Prog

/-- The panics reading can end in. -/
def Expected (p : Panic) : Prop := p = .indexOutOfRange ∨ p = .makeSlice

theorem op_make (n e : Nat) : (Prog.make n e).OnlyPanics Expected := by
  unfold Prog.make; split
  · trivial
  · exact .inr rfl

theorem op_readUvarintLoop (fuel i : Nat) (b : UInt8) (x s t : Nat) :
    (readUvarintLoop fuel i b x s t).OnlyPanics Expected := by
  induction fuel generalizing i b x s t with
  | zero => trivial
  | succ fuel ih =>
    intro got err
    cases err with
    | some e => trivial
    | none =>
      simp only
      split
      · split <;> trivial
      · exact ih ..

theorem op_readUvarint : readUvarint.OnlyPanics Expected := op_readUvarintLoop ..

theorem op_readString : readString.OnlyPanics Expected := by
  refine OnlyPanics.bind op_readUvarint ?_
  rintro ⟨len, n, err⟩
  cases err with
  | some e => trivial
  | none =>
    refine OnlyPanics.bind (op_make _ _) fun _ b e => ?_
    cases e <;> trivial

theorem op_readStringLoop (k : Nat) (acc : List Bytes) (n : Nat) : (readStringLoop k acc n).OnlyPanics Expected := by
  induction k generalizing acc n with
  | zero => trivial
  | succ k ih =>
    refine OnlyPanics.bind op_readString ?_
    rintro ⟨s, n, err⟩
    cases err with
    | some e => trivial
    | none => exact ih ..

theorem op_readStringArray : readStringArray.OnlyPanics Expected := by
  refine OnlyPanics.bind op_readUvarint ?_
  rintro ⟨len, n, err⟩
  cases err with
  | some e => trivial
  | none => exact OnlyPanics.bind (op_make _ _) fun _ => op_readStringLoop ..

theorem op_readUvarIntLoop (k : Nat) (acc : List Nat) (n : Nat) : (readUvarIntLoop k acc n).OnlyPanics Expected := by
  induction k generalizing acc n with
  | zero => trivial
  | succ k ih =>
    refine OnlyPanics.bind op_readUvarint ?_
    rintro ⟨s, n, err⟩
    cases err with
    | some e => trivial
    | none => exact ih ..

theorem op_readUvarIntArray : readUvarIntArray.OnlyPanics Expected := by
  refine OnlyPanics.bind op_readUvarint ?_
  rintro ⟨len, n, err⟩
  cases err with
  | some e => trivial
  | none => exact OnlyPanics.bind (op_make _ _) fun _ => op_readUvarIntLoop ..

theorem op_readBytesArray : readBytesArray.OnlyPanics Expected := by
  refine OnlyPanics.bind op_readUvarint ?_
  rintro ⟨len, n, err⟩
  cases err with
  | some e => trivial
  | none =>
    refine OnlyPanics.bind (op_make _ _) fun _ b e => ?_
    dsimp only
    split
    · trivial
    · split <;> trivial

theorem op_readFixed (k : Nat) : (readFixed k).OnlyPanics Expected := by
  intro b e; cases e <;> trivial

theorem op_readFloat64s (n : Nat) : (readFloat64s n).OnlyPanics Expected := by
  induction n with
  | zero => trivial
  | succ n ih =>
    refine OnlyPanics.bind (op_readFixed 8) fun x => ?_
    cases x with
    | error e => trivial
    | ok v =>
      refine OnlyPanics.bind ih fun x => ?_
      cases x <;> trivial

/-! ## Success means that input was used up -/

/-- `err` is set or fewer than `m` units are left. -/
def Uses (m : Nat) (m' : Nat) (err : Option Err) : Prop := m' ≤ m ∧ (err = none → m' < m)

theorem safe_readUvarintLoop (fuel i : Nat) (b : UInt8) (x s t m : Nat) :
    (readUvarintLoop fuel i b x s t).Safe Expected (fun m' r => Uses m m' r.2.2) m := by
  have : ∀ m0, m0 ≤ m → (readUvarintLoop fuel i b x s t).Safe Expected (fun m' r => Uses m m' r.2.2) m0 := by
    induction fuel generalizing i b x s t with
    | zero => exact fun m0 h0 => ⟨h0, by simp⟩
    | succ fuel ih =>
      refine fun m0 h0 => ⟨fun got e => ⟨by omega, by simp⟩, fun got m' h1 h2 => ?_⟩
      dsimp only
      split
      · split
        · exact ⟨by omega, by simp⟩
        · exact ⟨by omega, fun _ => by omega⟩
      · exact ih _ _ _ _ _ m' (by omega)
  exact this m (Nat.le_refl m)

theorem safe_readUvarint (m : Nat) : readUvarint.Safe Expected (fun m' r => Uses m m' r.2.2) m :=
  safe_readUvarintLoop ..

theorem safe_readString (m : Nat) : readString.Safe Expected (fun m' r => Uses m m' r.2.2) m := by
  refine Safe.bind (safe_readUvarint m) ?_
  rintro m1 ⟨len, n, err⟩ ⟨h1, h2⟩
  cases err with
  | some e => exact ⟨h1, by simp⟩
  | none =>
    have h2 := h2 rfl
    refine Safe.bind ((op_make _ _).safe m1) fun m2 _ h3 => ⟨fun b e => ⟨by omega, by simp⟩, fun b m3 h4 _ => ?_⟩
    exact ⟨by omega, fun _ => by omega⟩

theorem safe_readUvarIntArray (m : Nat) : readUvarIntArray.Safe Expected (fun m' r => Uses m m' r.2.2) m := by
  refine Safe.bind (safe_readUvarint m) ?_
  rintro m1 ⟨len, n, err⟩ ⟨h1, h2⟩
  cases err with
  | some e => exact ⟨h1, by simp⟩
  | none =>
    have h2 := h2 rfl
    refine Safe.bind ((op_make _ _).safe m1) fun m2 _ h3 => ?_
    refine Safe.imp ((op_readUvarIntLoop ..).safe m2) fun m3 r h4 => ?_
    exact ⟨by omega, fun _ => by omega⟩

theorem safe_readStringArray (m : Nat) : readStringArray.Safe Expected (fun m' r => Uses m m' r.2.2) m := by
  refine Safe.bind (safe_readUvarint m) ?_
  rintro m1 ⟨len, n, err⟩ ⟨h1, h2⟩
  cases err with
  | some e => exact ⟨h1, by simp⟩
  | none =>
    have h2 := h2 rfl
    refine Safe.bind ((op_make _ _).safe m1) fun m2 _ h3 => ?_
    refine Safe.imp ((op_readStringLoop ..).safe m2) fun m3 r h4 => ?_
    exact ⟨by omega, fun _ => by omega⟩

/-! ## Metadata -/

theorem safe_readPropertyWith {rd : UInt8 → Prog (Except Err Property)} {m : Nat}
    (h : ∀ c m', m' ≤ m → (rd c).Safe Expected (fun k _ => k ≤ m') m') :
    (readPropertyWith rd).Safe Expected (fun k _ => k ≤ m) m :=
  ⟨fun _ _ => Nat.zero_le _, fun _ m' h1 _ => Safe.imp (h _ m' h1) fun _ _ h2 => Nat.le_trans h2 h1⟩

theorem safe_readBlockLoop {rd : UInt8 → Prog (Except Err Property)} {m : Nat}
    (h : ∀ c m', m' ≤ m → (rd c).Safe Expected (fun k _ => k ≤ m') m') (keys : List Bytes) (acc : Block) :
    (readBlockLoop rd keys acc).Safe Expected (fun k _ => k ≤ m) m := by
  induction keys generalizing m acc with
  | nil => exact Nat.le_refl m
  | cons key keys ih =>
    refine Safe.bind (safe_readPropertyWith h) fun m1 r h1 => ?_
    cases r with
    | error e => exact h1
    | ok p => exact Safe.imp (ih (fun c m' h2 => h c m' (Nat.le_trans h2 h1)) _) fun _ _ h2 => Nat.le_trans h2 h1

theorem safe_readElemLoop {rd : Prog (Except Err Property)} {m : Nat} (base : UInt8)
    (h : ∀ m', m' ≤ m → rd.Safe Expected (fun k _ => k ≤ m') m') (n : Nat) (acc : List Property) :
    (readElemLoop rd base n acc).Safe Expected (fun k _ => k ≤ m) m := by
  induction n generalizing m acc with
  | zero => exact Nat.le_refl m
  | succ n ih =>
    refine Safe.bind (h m (Nat.le_refl m)) fun m1 r h1 => ?_
    cases r with
    | error e => exact h1
    | ok p => exact Safe.imp (ih (fun m' h2 => h m' (Nat.le_trans h2 h1)) _) fun _ _ h2 => Nat.le_trans h2 h1

theorem Prog.Safe.ite {α : Type} {ok : Panic → Prop} {Q : Nat → α → Prop} {c : Prop} [Decidable c] {p q : Prog α} {m : Nat}
    (h1 : p.Safe ok Q m) (h2 : q.Safe ok Q m) : (if c then p else q).Safe ok Q m := by
  by_cases h : c
  · rw [if_pos h]; exact h1
  · rw [if_neg h]; exact h2

theorem safe_readPropData (fuel : Nat) (code : UInt8) (m : Nat) (hm : m < fuel) :
    (readPropData fuel code).Safe Expected (fun k _ => k ≤ m) m := by
  induction fuel generalizing code m with
  | zero => omega
  | succ fuel ih =>
    have hle : ∀ {α : Type} {p : Prog α} {f : α → Prog (Except Err Property)}, p.OnlyPanics Expected →
        (∀ a, (f a).OnlyPanics Expected) → (p.bind f).Safe Expected (fun k _ => k ≤ m) m :=
      fun h1 h2 => (OnlyPanics.bind h1 h2).safe m
    show Safe Expected _ m (ite _ _ _)
    refine Safe.ite ?_ ?_
    · refine hle op_readString ?_; rintro ⟨s, _, err⟩; cases err <;> trivial
    refine Safe.ite ?_ ?_
    · refine hle (op_readFixed 4) ?_; intro x; cases x <;> trivial
    refine Safe.ite ?_ ?_
    · refine hle (op_readFixed 4) ?_; intro x; cases x <;> trivial
    refine Safe.ite ?_ ?_
    · exact Nat.le_refl m
    refine Safe.ite ?_ ?_
    · exact Nat.le_refl m
    refine Safe.ite ?_ ?_
    · exact ⟨fun _ _ => Nat.zero_le _, fun _ m' h1 _ => h1⟩
    refine Safe.ite ?_ ?_
    · refine hle (op_readFloat64s 2) ?_; intro x; cases x <;> trivial
    refine Safe.ite ?_ ?_
    · refine hle (op_readFloat64s 3) ?_; intro x; cases x <;> trivial
    refine Safe.ite ?_ ?_
    · refine Safe.bind (safe_readStringArray m) ?_
      rintro m1 ⟨keys, _, err⟩ ⟨h1, h2⟩
      cases err with
      | some e => exact h1
      | none =>
        have h2 := h2 rfl
        exact Safe.imp (safe_readBlockLoop (fun c m' h3 => ih c m' (by omega)) _ _) fun _ _ h3 => by omega
    refine Safe.ite ?_ ?_
    · refine hle (op_readFixed 8) ?_; intro x; cases x <;> trivial
    refine Safe.ite ?_ ?_
    · refine hle op_readBytesArray ?_; rintro ⟨s, _, err⟩; cases err <;> trivial
    refine Safe.ite ?_ ?_
    · refine hle op_readBytesArray ?_; rintro ⟨s, _, err⟩; cases err <;> trivial
    refine Safe.ite ?_ ?_
    · refine Safe.bind (safe_readUvarint m) ?_
      rintro m1 ⟨len, _, err⟩ ⟨h1, h2⟩
      cases err with
      | some e => exact h1
      | none =>
        have h2 := h2 rfl
        refine Safe.bind ((op_make _ _).safe m1) fun m2 _ h3 => ?_
        exact Safe.imp (safe_readElemLoop _ (fun m' h4 => ih _ m' (by omega)) _ _) fun _ _ h3 => by omega
    · exact Nat.le_refl m

theorem safe_readProperty (fuel m : Nat) (hm : m < fuel) :
    (readProperty fuel).Safe Expected (fun k _ => k ≤ m) m :=
  safe_readPropertyWith fun c m' h => safe_readPropData fuel c m' (by omega)

theorem safe_readMdLoop (fuel : Nat) (keys : List Bytes) (is : List Nat) (acc : Block) (m : Nat) (hm : m < fuel) :
    (readMdLoop fuel keys is acc).Safe Expected (fun k _ => k ≤ m) m := by
  induction is generalizing acc m with
  | nil => exact Nat.le_refl m
  | cons i is ih =>
    unfold readMdLoop
    split
    · exact .inl rfl
    · refine Safe.bind (safe_readProperty fuel m hm) fun m1 r h1 => ?_
      cases r with
      | error e => exact h1
      | ok p => exact Safe.imp (ih _ m1 (by omega)) fun _ _ h2 => Nat.le_trans h2 h1

/-- The error of an `Except` as an optional one. -/
def errOf {α : Type} : Except Err α → Option Err
  | .ok _ => none
  | .error e => some e

theorem safe_readMetadata (fuel : Nat) (keys : List Bytes) (m : Nat) (hm : m < fuel) :
    (readMetadata fuel keys).Safe Expected (fun k r => Uses m k (errOf r)) m := by
  refine Safe.bind (safe_readUvarIntArray m) ?_
  rintro m1 ⟨is, _, err⟩ ⟨h1, h2⟩
  cases err with
  | some e => exact ⟨h1, by simp [errOf]⟩
  | none =>
    have h2 := h2 rfl
    exact Safe.imp (safe_readMdLoop fuel keys is [] m1 (by omega)) fun k r h3 => ⟨by omega, fun _ => by omega⟩

/-! ## Decoders -/

theorem op_readF32 (old : F32) : (readF32 old).OnlyPanics Expected := by
  intro b e; cases e <;> trivial

theorem op_readInto (buf : Bytes) : (readInto buf).OnlyPanics Expected := fun _ _ => trivial

theorem op_readV32 : readV32.OnlyPanics Expected :=
  OnlyPanics.bind (op_readF32 _) fun _ => OnlyPanics.bind (op_readF32 _) fun _ =>
    OnlyPanics.bind (op_readF32 _) fun _ => trivial

theorem op_decTime64Loop (n : Nat) : (decTime64Loop n).OnlyPanics Expected := by
  induction n with
  | zero => trivial
  | succ n ih => exact fun b e => OnlyPanics.bind ih fun _ => trivial

theorem op_decTime32Loop (n : Nat) : (decTime32Loop n).OnlyPanics Expected := by
  induction n with
  | zero => trivial
  | succ n ih => exact OnlyPanics.bind (op_readF32 _) fun _ => OnlyPanics.bind ih fun _ => trivial

theorem op_decTimeBstLoop (gap : F64) (n : Nat) (cur : F64) (buf : Bytes) :
    (decTimeBstLoop gap n cur buf).OnlyPanics Expected := by
  induction n generalizing cur buf with
  | zero => trivial
  | succ n ih => exact OnlyPanics.bind (op_readInto _) fun _ => OnlyPanics.bind (ih _ _) fun _ => trivial

theorem op_decTimeBst (n : Nat) : (decTimeBst n).OnlyPanics Expected := by
  cases n with
  | zero => trivial
  | succ n =>
    refine OnlyPanics.bind (op_readF32 _) ?_
    rintro ⟨start, err⟩
    cases err with
    | some e => trivial
    | none =>
      dsimp only
      split
      · trivial
      · refine OnlyPanics.bind (op_readF32 _) ?_
        rintro ⟨gap, err⟩
        cases err with
        | some e => trivial
        | none =>
          exact OnlyPanics.bind (op_make _ _) fun _ => OnlyPanics.bind (op_decTimeBstLoop ..) fun _ => trivial

theorem op_decTime : decTime.OnlyPanics Expected := by
  intro got err
  cases err with
  | some e => trivial
  | none =>
    refine OnlyPanics.bind op_readUvarint ?_
    rintro ⟨n, _, err⟩
    cases err with
    | some e => trivial
    | none =>
      dsimp only
      split
      · exact OnlyPanics.bind (op_make _ _) fun _ => OnlyPanics.bind (op_decTime64Loop _) fun _ => trivial
      split
      · exact OnlyPanics.bind (op_make _ _) fun _ => OnlyPanics.bind (op_decTime32Loop _) fun _ => trivial
      split
      · exact op_decTimeBst _
      · trivial

theorem op_enumCaptures (ts : List F64) : (enumCaptures ts).OnlyPanics Expected := by
  induction ts with
  | nil => trivial
  | cons t ts ih => exact OnlyPanics.bind op_readUvarint fun _ => OnlyPanics.bind ih fun _ => trivial

theorem lookupAll_panics (table : List Bytes) (is : List Nat) (p : Panic) (h : lookupAll table is = .error p) :
    Expected p := by
  induction is with
  | nil => simp [lookupAll] at h
  | cons i is ih =>
    simp only [lookupAll] at h
    split at h
    · simp only [Except.error.injEq] at h; exact .inl h.symm
    · cases hx : lookupAll table is with
      | error q =>
        rw [hx] at h ih
        simp only [Bind.bind, Except.bind, Except.error.injEq] at h
        exact ih (by rw [h])
      | ok l => rw [hx] at h; simp [Bind.bind, Except.bind] at h

theorem onBytes_panics {α : Type} {q : Prog α} {d : Bytes} {p : Panic} (hq : q.OnlyPanics Expected)
    (h : q.onBytes d = .error p) : Expected p := by
  unfold Prog.onBytes at h
  cases hx : q.run (⟨d, .eof⟩ : Flat) with
  | error x => simp only [hx, Bind.bind, Except.bind, Except.error.injEq] at h; rw [← h]; exact hq.run hx
  | ok r => simp [hx, Bind.bind, Except.bind] at h

theorem onErrReader_panics {α : Type} {q : Prog α} {d : Bytes} {p : Panic} (hq : q.OnlyPanics Expected)
    (h : q.onErrReader d = .error p) : Expected p := by
  unfold Prog.onErrReader at h
  cases hx : q.run (ER.new (⟨d, .eof⟩ : Flat)) with
  | error x => simp only [hx, Bind.bind, Except.bind, Except.error.injEq] at h; rw [← h]; exact hq.run hx
  | ok r => simp [hx, Bind.bind, Except.bind] at h

/-- A decoder whose panics are the expected ones. -/
def DecodesSafely (e : Encoder) : Prop :=
  ∀ name header body times p, e.decode name header body times = .error p → Expected p

theorem enum_safe : DecodesSafely enumEncoder := by
  intro name header body times p h
  simp only [enumEncoder, enumDecode] at h
  cases hx : readStringArray.onBytes header with
  | error x =>
    simp only [hx, Bind.bind, Except.bind, Except.error.injEq] at h
    rw [← h]; exact onBytes_panics op_readStringArray hx
  | ok r =>
    obtain ⟨members, n, err⟩ := r
    rw [hx] at h
    cases err with
    | some e => simp [Bind.bind, Except.bind] at h
    | none =>
      have hop : (readUvarIntArray.bind fun r => (Prog.ofGo (lookupAll members r.1)).bind fun ms =>
          (enumCaptures times).bind fun caps => Prog.pure (ms, caps)).OnlyPanics Expected :=
        OnlyPanics.bind op_readUvarIntArray fun r => OnlyPanics.bind (OnlyPanics.ofGo (lookupAll_panics _ _)) fun _ =>
          OnlyPanics.bind (op_enumCaptures _) fun _ => trivial
      simp only [Bind.bind, Except.bind] at h
      split at h
      · rename_i q hq
        simp only [Except.error.injEq] at h
        rw [← h]
        exact onErrReader_panics hop hq
      · simp at h

theorem op_eventHeader : eventHeader.OnlyPanics Expected :=
  OnlyPanics.bind op_readStringArray fun _ => OnlyPanics.bind op_readStringArray fun _ => trivial

theorem safe_eventBlock (fuel : Nat) (keys : List Bytes) (is : List Nat) (acc : Block) (m : Nat) (hm : m < fuel) :
    (eventBlock fuel keys is acc).Safe Expected (fun k _ => k ≤ m) m := by
  induction is generalizing acc m with
  | nil => exact Nat.le_refl m
  | cons i is ih =>
    refine Safe.bind (safe_readProperty fuel m hm) fun m1 r h1 => ?_
    cases r with
    | error e => exact h1
    | ok p =>
      dsimp only
      split
      · exact .inl rfl
      · exact Safe.imp (ih _ m1 (by omega)) fun _ _ h2 => Nat.le_trans h2 h1

theorem safe_eventCaptures (fuel : Nat) (names keys : List Bytes) (ts : List F64) (m : Nat) (hm : m < fuel) :
    (eventCaptures fuel names keys ts).Safe Expected (fun k _ => k ≤ m) m := by
  induction ts generalizing m with
  | nil => exact Nat.le_refl m
  | cons t ts ih =>
    refine Safe.bind (op_readUvarint.safe m) ?_
    rintro m1 ⟨i, _, err⟩ h1
    cases err with
    | some e => exact h1
    | none =>
      refine Safe.bind (op_readUvarIntArray.safe m1) ?_
      rintro m2 ⟨is, _, err⟩ h2
      cases err with
      | some e => exact Nat.le_trans h2 h1
      | none =>
        refine Safe.bind (safe_eventBlock fuel keys is [] m2 (by omega)) ?_
        intro m3 r h3
        cases r with
        | error e => exact (by omega : m3 ≤ m)
        | ok block =>
          dsimp only
          split
          · exact .inl rfl
          · refine Safe.bind (ih m3 (by omega)) fun m4 r h4 => ?_
            cases r with
            | error e => exact (by omega : m4 ≤ m)
            | ok rest => exact (by omega : m4 ≤ m)

theorem event_safe : DecodesSafely eventEncoder := by
  intro name header body times p h
  simp only [eventEncoder, eventDecode] at h
  cases hx : eventHeader.onBytes header with
  | error x =>
    simp only [hx, Bind.bind, Except.bind, Except.error.injEq] at h
    rw [← h]; exact onBytes_panics op_eventHeader hx
  | ok r =>
    obtain ⟨names, keys, err⟩ := r
    rw [hx] at h
    cases err with
    | some e => simp [Bind.bind, Except.bind] at h
    | none =>
      have hs := Safe.run measured_flat (s := (⟨body, .eof⟩ : Flat))
        (safe_eventCaptures (body.length + 1) names keys times body.length (Nat.lt_succ_self _))
      rcases hs with ⟨a, s', h1, -⟩ | ⟨x, h1, h2⟩
      · simp only [Bind.bind, Except.bind, Prog.onBytes, h1] at h
        cases a <;> simp at h
      · simp only [Bind.bind, Except.bind, Prog.onBytes, h1, Except.error.injEq] at h
        rw [← h]; exact h2

theorem op_decRaw64 (ts : List F64) (buf : Bytes) : (decRaw64 ts buf).OnlyPanics Expected := by
  induction ts generalizing buf with
  | nil => trivial
  | cons t ts ih =>
    refine OnlyPanics.bind (op_readInto _) ?_
    rintro ⟨b1, err⟩
    cases err with
    | some e => trivial
    | none =>
      refine OnlyPanics.bind (op_readInto _) ?_
      rintro ⟨b2, err⟩
      cases err with
      | some e => trivial
      | none =>
        refine OnlyPanics.bind (op_readInto _) ?_
        rintro ⟨b3, err⟩
        cases err with
        | some e => trivial
        | none => exact OnlyPanics.bind (ih _) fun r => by cases r <;> trivial

theorem op_decRaw32 (stale : Bool) (ts : List F64) (x y z : F32) : (decRaw32 stale ts x y z).OnlyPanics Expected := by
  induction ts generalizing x y z with
  | nil => trivial
  | cons t ts ih =>
    exact OnlyPanics.bind (op_readF32 _) fun _ => OnlyPanics.bind (op_readF32 _) fun _ =>
      OnlyPanics.bind (op_readF32 _) fun _ => OnlyPanics.bind (ih ..) fun _ => trivial

theorem op_decRaw16Loop (ts : List F64) (buf : Bytes) : (decRaw16Loop ts buf).OnlyPanics Expected := by
  induction ts generalizing buf with
  | nil => trivial
  | cons t ts ih =>
    exact OnlyPanics.bind (op_readInto _) fun _ => OnlyPanics.bind (op_readInto _) fun _ =>
      OnlyPanics.bind (op_readInto _) fun _ => OnlyPanics.bind (ih ..) fun _ => trivial

theorem op_single (t : F64) : (Prog.bind readV32 fun x => match x.2 with
    | some e => Prog.pure (.error e : Except Err (List (F64 × V3)))
    | none => Prog.pure (.ok [(t, x.1)])).OnlyPanics Expected := by
  refine OnlyPanics.bind op_readV32 fun x => ?_
  obtain ⟨v, err⟩ := x
  cases err <;> trivial

theorem op_decRaw16 (ts : List F64) : (decRaw16 ts).OnlyPanics Expected := by
  match ts with
  | [] => exact OnlyPanics.bind (op_decRaw16Loop ..) fun _ => trivial
  | [t] => exact op_single t
  | t :: u :: ts => exact OnlyPanics.bind (op_decRaw16Loop ..) fun _ => trivial

theorem op_octDecodeLoop (min max : V3) (ts : List F64) (cur : V3) (buf : Bytes) :
    (octDecodeLoop min max ts cur buf).OnlyPanics Expected := by
  induction ts generalizing cur buf with
  | nil => trivial
  | cons t ts ih => exact OnlyPanics.bind (op_readInto _) fun _ => OnlyPanics.bind (ih ..) fun _ => trivial

theorem op_decOct (n : Nat) (ts : List F64) : (decOct n ts).OnlyPanics Expected := by
  match ts with
  | [] => trivial
  | [t] => exact op_single t
  | t :: u :: ts =>
    refine OnlyPanics.bind op_readV32 fun _ => OnlyPanics.bind op_readV32 fun _ => OnlyPanics.bind op_readV32 fun x =>
      OnlyPanics.bind (op_octDecodeLoop ..) fun _ => ?_
    obtain ⟨v, err⟩ := x
    cases err <;> trivial

theorem op_positionCaptures (ts : List F64) : (positionCaptures ts).OnlyPanics Expected := by
  intro got err
  cases err with
  | some e => trivial
  | none =>
    dsimp only
    split
    · exact op_decRaw64 ..
    split
    · exact OnlyPanics.bind (op_decRaw32 ..) fun _ => trivial
    split
    · exact op_decOct ..
    split
    · exact op_decOct ..
    · trivial

theorem op_eulerCaptures (ts : List F64) : (eulerCaptures ts).OnlyPanics Expected := by
  intro got err
  cases err with
  | some e => trivial
  | none =>
    dsimp only
    split
    · exact op_decRaw64 ..
    split
    · exact OnlyPanics.bind (op_decRaw32 ..) fun _ => trivial
    split
    · exact op_decRaw16 ..
    · trivial

theorem position_safe (technique : Nat) : DecodesSafely (positionEncoder technique) := by
  intro name header body times p h
  simp only [positionEncoder, positionDecode] at h
  cases hx : (positionCaptures times).onBytes body with
  | error x =>
    simp only [hx, Bind.bind, Except.bind, Except.error.injEq] at h
    rw [← h]; exact onBytes_panics (op_positionCaptures _) hx
  | ok r => cases r <;> simp [hx, Bind.bind, Except.bind] at h

theorem euler_safe (technique : Nat) : DecodesSafely (eulerEncoder technique) := by
  intro name header body times p h
  simp only [eulerEncoder, eulerDecode] at h
  cases hx : (eulerCaptures times).onBytes body with
  | error x =>
    simp only [hx, Bind.bind, Except.bind, Except.error.injEq] at h
    rw [← h]; exact onBytes_panics (op_eulerCaptures _) hx
  | ok r => cases r <;> simp [hx, Bind.bind, Except.bind] at h

theorem op_floatDec64 (ts : List F64) (v : F64) : (floatDec64 ts v).OnlyPanics Expected := by
  induction ts generalizing v with
  | nil => trivial
  | cons t ts ih => exact fun b e => OnlyPanics.bind (ih _) fun _ => trivial

theorem op_floatDec32 (ts : List F64) (v : F32) : (floatDec32 ts v).OnlyPanics Expected := by
  induction ts generalizing v with
  | nil => trivial
  | cons t ts ih => exact OnlyPanics.bind (op_readF32 _) fun _ => OnlyPanics.bind (ih _) fun _ => trivial

theorem op_floatDecBstLoop (min max : F32) (ts : List F64) (buf : Bytes) :
    (floatDecBstLoop min max ts buf).OnlyPanics Expected := by
  induction ts generalizing buf with
  | nil => trivial
  | cons t ts ih => exact OnlyPanics.bind (op_readInto _) fun _ => OnlyPanics.bind (ih _) fun _ => trivial

theorem op_floatDecBst (ts : List F64) : (floatDecBst ts).OnlyPanics Expected :=
  OnlyPanics.bind (op_readF32 _) fun _ => OnlyPanics.bind (op_readF32 _) fun _ => op_floatDecBstLoop ..

theorem float_safe (technique : Nat) : DecodesSafely (floatEncoder technique) := by
  intro name header body times p h
  simp only [floatEncoder, floatDecode] at h
  cases body with
  | nil => simp at h
  | cons b rest =>
    simp only at h
    have hop : (if b.toNat = 0 then floatDec64 times 0 else if b.toNat = 1 then floatDec32 times 0
        else if b.toNat = 2 then floatDecBst times else Pure.pure []).OnlyPanics Expected := by
      split
      · exact op_floatDec64 ..
      split
      · exact op_floatDec32 ..
      split
      · exact op_floatDecBst _
      · trivial
    simp only [Bind.bind, Except.bind] at h
    split at h
    · rename_i q hq
      simp only [Except.error.injEq] at h
      rw [← h]
      exact onErrReader_panics hop hq
    · simp at h

/-! ## Recordings -/

mutual
/-- The number of levels of a recording tree. -/
def Rec.depth : Rec → Nat
  | .nil => 0
  | .mk _ _ _ recs _ _ _ => Rec.depthList recs + 1
/-- The deepest of several recordings. -/
def Rec.depthList : List Rec → Nat
  | [] => 0
  | r :: rs => max r.depth (Rec.depthList rs)
end

/-- The encoders of the tables decode safely. -/
def RTables.Safe (T : RTables) : Prop := ∀ x ∈ T.encs, DecodesSafely x.1

theorem op_readStreams (T : RTables) (hT : T.Safe) (n : Nat) : (readStreams T n).OnlyPanics Expected := by
  induction n with
  | zero => trivial
  | succ n ih =>
    refine OnlyPanics.bind op_readUvarint fun i => OnlyPanics.bind op_readString fun nm =>
      OnlyPanics.bind op_decTime fun ts => OnlyPanics.bind op_readBytesArray fun bd => ?_
    obtain ⟨idx, _, _⟩ := i
    dsimp only
    split
    · exact .inl rfl
    · rename_i enc header hx
      refine OnlyPanics.bind (OnlyPanics.ofGo fun p hp => ?_) fun _ => OnlyPanics.bind ih fun _ => trivial
      exact hT _ (List.mem_of_getElem? hx) _ _ _ _ p hp

theorem safe_readRefs (T : RTables) (n m : Nat) (hm : m < T.fuel) :
    (readRefs T n).Safe Expected (fun k _ => k ≤ m) m := by
  induction n generalizing m with
  | zero => exact Nat.le_refl m
  | succ n ih =>
    refine Safe.bind (op_readString.safe m) fun m1 _ h1 => Safe.bind (op_readString.safe m1) fun m2 _ h2 =>
      Safe.bind (op_readUvarint.safe m2) fun m3 _ h3 => Safe.bind (safe_readMetadata T.fuel T.keys m3 (by omega))
        fun m4 _ h4 => ?_
    have := h4.1
    exact Safe.bind (ih m4 (by omega)) fun m5 _ h5 => (by omega : m5 ≤ m)

theorem safe_readBins (T : RTables) (n m : Nat) (hm : m < T.fuel) :
    (readBins T n).Safe Expected (fun k _ => k ≤ m) m := by
  induction n generalizing m with
  | zero => exact Nat.le_refl m
  | succ n ih =>
    refine Safe.bind (op_readString.safe m) fun m1 _ h1 => Safe.bind (op_readUvarint.safe m1) fun m2 _ h2 =>
      Safe.bind (safe_readMetadata T.fuel T.keys m2 (by omega)) fun m3 _ h3 =>
      Safe.bind ((op_make _ _).safe m3) fun m4 _ h4 => ⟨fun b e => ?_, fun b m' h5 _ => ?_⟩
    · exact Safe.bind (ih 0 (by omega)) fun m5 _ h5 => (by omega : m5 ≤ m)
    · have := h3.1
      exact Safe.bind (ih m' (by omega)) fun m5 _ h6 => (by omega : m5 ≤ m)

theorem safe_readChildren {rd : Prog (Except Err Rec)} {m : Nat}
    (h : ∀ m', m' ≤ m → rd.Safe Expected (fun k r => k ≤ m' ∧ ∀ rec, r = .ok rec → rec.depth ≤ m') m') (n : Nat) :
    (readChildren rd n).Safe Expected (fun k r => k ≤ m ∧ ∀ recs, r = .ok recs → Rec.depthList recs ≤ m) m := by
  induction n generalizing m with
  | zero => exact ⟨Nat.le_refl m, fun recs hr => by simp only [Except.ok.injEq] at hr; subst hr; exact Nat.zero_le _⟩
  | succ n ih =>
    refine Safe.bind (h m (Nat.le_refl m)) fun m1 r ⟨h1, d1⟩ => ?_
    cases r with
    | error e => exact ⟨h1, fun _ hr => by simp at hr⟩
    | ok r =>
      refine Safe.bind (ih fun m' h2 => h m' (Nat.le_trans h2 h1)) fun m2 rs ⟨h2, d2⟩ => ?_
      cases rs with
      | error e => exact ⟨by omega, fun _ hr => by simp at hr⟩
      | ok rs =>
        refine ⟨by omega, fun recs hr => ?_⟩
        simp only [Except.ok.injEq] at hr
        subst hr
        have := d1 r rfl
        have := d2 rs rfl
        simp only [Rec.depthList]
        omega

/-- A recording is read with recursion depth bounded by the input left. -/
theorem safe_buildRec (T : RTables) (hT : T.Safe) (fuel m : Nat) (hm : m < fuel) (hf : m < T.fuel) :
    (buildRec T fuel).Safe Expected (fun k r => k ≤ m ∧ ∀ rec, r = .ok rec → rec.depth ≤ m) m := by
  induction fuel generalizing m with
  | zero => omega
  | succ fuel ih =>
    refine Safe.bind (op_readString.safe m) fun m1 _ h1 => Safe.bind (op_readString.safe m1) fun m2 _ h2 =>
      Safe.bind (safe_readMetadata T.fuel T.keys m2 (by omega)) fun m3 r h3 => ?_
    cases r with
    | error e => have := h3.1; exact ⟨by omega, fun _ hr => by simp at hr⟩
    | ok md =>
      have h3 := h3.2 rfl
      refine Safe.bind (op_readUvarint.safe m3) fun m4 _ h4 => Safe.bind ((op_make _ _).safe m4) fun m5 _ h5 =>
        Safe.bind ((op_readStreams T hT _).safe m5) fun m6 _ h6 =>
        Safe.bind (op_readUvarint.safe m6) fun m7 _ h7 => Safe.bind ((op_make _ _).safe m7) fun m8 _ h8 =>
        Safe.bind (safe_readRefs T _ m8 (by omega)) fun m9 _ h9 =>
        Safe.bind (op_readUvarint.safe m9) fun m10 _ h10 => Safe.bind ((op_make _ _).safe m10) fun m11 _ h11 =>
        Safe.bind (safe_readBins T _ m11 (by omega)) fun m12 _ h12 =>
        Safe.bind (op_readUvarint.safe m12) fun m13 _ h13 => Safe.bind ((op_make _ _).safe m13) fun m14 _ h14 =>
        Safe.bind (safe_readChildren (fun m' h15 => ih m' (by omega) (by omega)) _) fun m15 r ⟨h15, d15⟩ => ?_
      cases r with
      | error e => exact ⟨by omega, fun _ hr => by simp at hr⟩
      | ok recs =>
        have d15 := d15 recs rfl
        intro e
        cases e with
        | none =>
          refine ⟨by omega, fun rec hr => ?_⟩
          simp only [Except.ok.injEq] at hr
          subst hr
          simp only [Rec.depth]
          omega
        | some e => exact ⟨by omega, fun _ hr => by simp at hr⟩

theorem op_readHeaders (n total : Nat) : (readHeaders n total).OnlyPanics Expected := by
  induction n generalizing total with
  | zero => trivial
  | succ n ih =>
    refine OnlyPanics.bind op_readBytesArray ?_
    rintro ⟨h, read, err⟩
    cases err with
    | some e => trivial
    | none =>
      refine OnlyPanics.bind (ih _) ?_
      rintro ⟨r, t⟩
      cases r <;> trivial

theorem op_readTables (encs : List Encoder) (total : Nat) : (readTables encs total).OnlyPanics Expected := by
  refine OnlyPanics.bind (op_readHeaders ..) ?_
  rintro ⟨r, t⟩
  cases r with
  | error e => trivial
  | ok hs =>
    refine OnlyPanics.bind op_readStringArray ?_
    rintro ⟨keys, read, err⟩
    cases err <;> trivial

theorem op_readVersions (n total : Nat) : (readVersions n total).OnlyPanics Expected := by
  induction n generalizing total with
  | zero => trivial
  | succ n ih =>
    refine OnlyPanics.bind op_readUvarint ?_
    rintro ⟨v, read, err⟩
    cases err with
    | some e => trivial
    | none => exact OnlyPanics.bind (ih _) fun _ => trivial

theorem op_readEncoders (registered : List Encoder) : (readEncoders registered).OnlyPanics Expected := by
  refine OnlyPanics.bind op_readStringArray ?_
  rintro ⟨sigs, read, err⟩
  cases err with
  | some e => trivial
  | none =>
    refine OnlyPanics.bind (op_readVersions ..) ?_
    rintro ⟨vs, t, err⟩
    cases err <;> trivial

theorem op_readV1 (X : Ext) (unmarshal : Bytes → Except Err V1.Recording) :
    (V1.readRecording X unmarshal).OnlyPanics Expected := by
  intro b err
  cases err with
  | some e => trivial
  | none =>
    dsimp only
    split
    · trivial
    split
    · trivial
    intro b8 err
    cases err with
    | some e => trivial
    | none =>
      dsimp only
      split
      · trivial
      refine OnlyPanics.bind (op_make _ _) fun _ data err => ?_
      cases err with
      | some e => trivial
      | none =>
        dsimp only
        split
        · trivial
        split
        · trivial
        split <;> trivial

theorem op_readPrelude (X : Ext) (unmarshal : Bytes → Except Err V1.Recording) (registered : List Encoder) :
    (readPrelude X unmarshal registered).OnlyPanics Expected := by
  intro got err
  cases err with
  | some e => trivial
  | none =>
    dsimp only
    split
    · exact OnlyPanics.bind (op_readV1 X unmarshal) fun _ => trivial
    split
    · trivial
    refine OnlyPanics.bind (op_readEncoders registered) ?_
    rintro ⟨r, n⟩
    cases r with
    | error e => trivial
    | ok encs => intro got err; cases err <;> trivial

end Rap
