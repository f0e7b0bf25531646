import Verif.Model.Prog

/-!
# Reasoning about reader programs

`clean` is the semantics in which every read is fully satisfied. `clean_flat` and `clean_er` carry
its results over to bytes in memory, `run_chunked` and `run_er_chunked` from there to sources delivering pieces.
-/

namespace Rap
namespace Prog

variable {α β γ σ τ : Type}

@[simp] theorem pure_eq (a : α) : (Pure.pure a : Prog α) = Prog.pure a := rfl
@[simp] theorem bind_eq (p : Prog α) (f : α → Prog β) : (p >>= f) = p.bind f := rfl

@[simp] theorem pure_bind' (a : α) (f : α → Prog β) : (Prog.pure a).bind f = f a := rfl
@[simp] theorem panic_bind' (x : Panic) (f : α → Prog β) : (Prog.panic x : Prog α).bind f = .panic x := rfl
@[simp] theorem read_bind' (n : Nat) (k : Bytes → Option Err → Prog α) (f : α → Prog β) :
    (Prog.read n k).bind f = .read n fun b e => (k b e).bind f := rfl
@[simp] theorem readFull_bind' (n : Nat) (k : Bytes → Option Err → Prog α) (f : α → Prog β) :
    (Prog.readFull n k).bind f = .readFull n fun b e => (k b e).bind f := rfl
@[simp] theorem erErr_bind' (k : Option Err → Prog α) (f : α → Prog β) :
    (Prog.erErr k).bind f = .erErr fun e => (k e).bind f := rfl

theorem bind_pure' (p : Prog α) : p.bind Prog.pure = p := by
  induction p with
  | pure a => rfl
  | panic x => rfl
  | read n k ih => simp only [read_bind', ih]
  | readFull n k ih => simp only [readFull_bind', ih]
  | erErr k ih => simp only [erErr_bind', ih]

theorem bind_assoc' (p : Prog α) (f : α → Prog β) (g : β → Prog γ) :
    (p.bind f).bind g = p.bind fun a => (f a).bind g := by
  induction p with
  | pure a => rfl
  | panic x => rfl
  | read n k ih => simp only [read_bind', ih]
  | readFull n k ih => simp only [readFull_bind', ih]
  | erErr k ih => simp only [erErr_bind', ih]

/-- The semantics in which every read is fully satisfied: result and remaining bytes. -/
def clean : Prog α → Bytes → Option (α × Bytes)
  | .pure a, d => some (a, d)
  | .panic _, _ => none
  | .read n k, d => if 0 < n ∧ n ≤ d.length then (k (d.take n) none).clean (d.drop n) else none
  | .readFull n k, d => if n ≤ d.length then (k (d.take n) none).clean (d.drop n) else none
  | .erErr k, d => (k none).clean d

@[simp] theorem clean_pure (a : α) (d : Bytes) : (Prog.pure a).clean d = some (a, d) := rfl
@[simp] theorem clean_panic (x : Panic) (d : Bytes) : (Prog.panic x : Prog α).clean d = none := rfl
@[simp] theorem clean_erErr (k : Option Err → Prog α) (d : Bytes) : (Prog.erErr k).clean d = (k none).clean d := rfl

theorem clean_read (n : Nat) (k : Bytes → Option Err → Prog α) (b rest : Bytes) (hb : b.length = n) (hn : 0 < n) :
    (Prog.read n k).clean (b ++ rest) = (k b none).clean rest := by
  subst hb; simp [clean, hn]

theorem clean_read1 (k : Bytes → Option Err → Prog α) (b : UInt8) (rest : Bytes) :
    (Prog.read 1 k).clean (b :: rest) = (k [b] none).clean rest := by
  simp [clean]

theorem clean_readFull (n : Nat) (k : Bytes → Option Err → Prog α) (b rest : Bytes) (hb : b.length = n) :
    (Prog.readFull n k).clean (b ++ rest) = (k b none).clean rest := by
  subst hb; simp [clean]

theorem clean_bind (p : Prog α) (f : α → Prog β) (d : Bytes) :
    (p.bind f).clean d = (p.clean d).bind fun r => (f r.1).clean r.2 := by
  induction p generalizing d with
  | pure a => rfl
  | panic x => rfl
  | read n k ih =>
    simp only [read_bind', clean]
    split <;> simp [ih]
  | readFull n k ih =>
    simp only [readFull_bind', clean]
    split <;> simp [ih]
  | erErr k ih => simp only [erErr_bind', clean, ih]

theorem clean_bind_of {p : Prog α} {f : α → Prog β} {d rest : Bytes} {a : α}
    (h : p.clean d = some (a, rest)) : (p.bind f).clean d = (f a).clean rest := by
  simp [clean_bind, h]

@[simp] theorem clean_make (n elem : Nat) (f : Unit → Prog β) (d : Bytes) (h : n * elem ≤ maxAlloc) :
    ((Prog.make n elem).bind f).clean d = (f ()).clean d := by
  simp [Prog.make, h]

/-- What a satisfied run consumes is a prefix of the input, and bytes after the input do not matter. -/
theorem clean_append {p : Prog α} {d rest : Bytes} {a : α} (h : p.clean d = some (a, rest)) (x : Bytes) :
    p.clean (d ++ x) = some (a, rest ++ x) := by
  induction p generalizing d with
  | pure a => simp only [clean_pure, Option.some.injEq, Prod.mk.injEq] at h; simp [h.1, h.2]
  | panic x => simp at h
  | read n k ih =>
    simp only [clean] at h ⊢
    split at h
    · rename_i hn
      have h1 := ih _ _ h
      rw [if_pos (by simp; omega), List.take_append_of_le_length hn.2, List.drop_append_of_le_length hn.2]
      exact h1
    · simp at h
  | readFull n k ih =>
    simp only [clean] at h ⊢
    split at h
    · rename_i hn
      have h1 := ih _ _ h
      rw [if_pos (by simp; omega), List.take_append_of_le_length hn, List.drop_append_of_le_length hn]
      exact h1
    · simp at h
  | erErr k ih => simp only [clean] at h ⊢; exact ih _ h

theorem clean_suffix {p : Prog α} {d rest : Bytes} {a : α} (h : p.clean d = some (a, rest)) :
    ∃ used, d = used ++ rest := by
  induction p generalizing d with
  | pure a => simp only [clean_pure, Option.some.injEq, Prod.mk.injEq] at h; exact ⟨[], by simp [h.2]⟩
  | panic x => simp at h
  | read n k ih =>
    simp only [clean] at h
    split at h
    · obtain ⟨u, hu⟩ := ih _ _ h
      exact ⟨d.take n ++ u, by rw [List.append_assoc, ← hu, List.take_append_drop]⟩
    · simp at h
  | readFull n k ih =>
    simp only [clean] at h
    split at h
    · obtain ⟨u, hu⟩ := ih _ _ h
      exact ⟨d.take n ++ u, by rw [List.append_assoc, ← hu, List.take_append_drop]⟩
    · simp at h
  | erErr k ih => exact ih _ h

theorem run_bind [Src σ] (p : Prog α) (f : α → Prog β) (s : σ) :
    (p.bind f).run s = (p.run s).bind fun r => (f r.1).run r.2 := by
  induction p generalizing s with
  | pure a => rfl
  | panic x => rfl
  | read n k ih => simp only [read_bind', run, ih]
  | readFull n k ih => simp only [readFull_bind', run, ih]
  | erErr k ih => simp only [erErr_bind', run, ih]

/-- In-memory bytes. -/
theorem clean_flat {p : Prog α} {d rest : Bytes} {a : α} (fin : Err) (h : p.clean d = some (a, rest)) :
    p.run (⟨d, fin⟩ : Flat) = .ok (a, ⟨rest, fin⟩) := by
  induction p generalizing d with
  | pure a => simp only [clean_pure, Option.some.injEq, Prod.mk.injEq] at h; simp [run, h.1, h.2]
  | panic x => simp at h
  | read n k ih =>
    simp only [clean] at h
    split at h
    · rename_i hn
      have hd : d.isEmpty = false := by
        cases d <;> simp at hn ⊢; omega
      simp only [run, Src.read, hd]
      exact ih _ _ h
    · simp at h
  | readFull n k ih =>
    simp only [clean] at h
    split at h
    · rename_i hn
      simp only [run, Src.readFull, hn, if_true]
      exact ih _ _ h
    · simp at h
  | erErr k ih => exact ih _ h

/-- An `ErrReader` around in-memory bytes: same result, no stored error, and the count grows by the bytes used. -/
theorem clean_er {p : Prog α} {d rest : Bytes} {a : α} (fin : Err) (m : Nat) (h : p.clean d = some (a, rest)) :
    p.run (⟨⟨d, fin⟩, none, m⟩ : ER Flat) = .ok (a, ⟨⟨rest, fin⟩, none, m + (d.length - rest.length)⟩) := by
  induction p generalizing d m with
  | pure a => simp only [clean_pure, Option.some.injEq, Prod.mk.injEq] at h; simp [run, h.1, h.2]
  | panic x => simp at h
  | read n k ih =>
    simp only [clean] at h
    split at h
    · rename_i hn
      simp only [run, Src.read, ER.doRead, Src.readFull, hn, if_true]
      rw [ih _ _ _ h]
      obtain ⟨u, hu⟩ := clean_suffix h
      have := congrArg List.length hu
      have h2 : m + (List.take n d).length + ((List.drop n d).length - rest.length) =
          m + (d.length - rest.length) := by
        simp only [List.length_drop, List.length_append, List.length_take] at this ⊢; omega
      rw [h2]
    · simp at h
  | readFull n k ih =>
    simp only [clean] at h
    split at h
    · rename_i hn
      by_cases h0 : n = 0
      · subst h0
        simp only [run, Src.readFull, if_true]
        have := ih _ _ m h
        simpa using this
      · simp only [run, Src.readFull, if_neg h0, ER.doRead, hn, if_true]
        rw [ih _ _ _ h]
        obtain ⟨u, hu⟩ := clean_suffix h
        have := congrArg List.length hu
        have h2 : m + (List.take n d).length + ((List.drop n d).length - rest.length) =
            m + (d.length - rest.length) := by
          simp only [List.length_drop, List.length_append, List.length_take] at this ⊢; omega
        rw [h2]
    · simp at h
  | erErr k ih => exact ih _ m h

/-! ## Sources that behave alike -/

/-- Two runs with the same value or the same panic, ending in related source states. -/
def Alike (R : σ → τ → Prop) : Go (α × σ) → Go (α × τ) → Prop
  | .ok (a, s), .ok (b, t) => a = b ∧ R s t
  | .error p, .error q => p = q
  | _, _ => False

/-- All raw `Read` calls of the program ask for sizes satisfying `P`. -/
def RawReads (P : Nat → Prop) : Prog α → Prop
  | .pure _ => True
  | .panic _ => True
  | .read n k => P n ∧ ∀ b e, (k b e).RawReads P
  | .readFull _ k => ∀ b e, (k b e).RawReads P
  | .erErr k => ∀ e, (k e).RawReads P

theorem RawReads.bind {P : Nat → Prop} {p : Prog α} {f : α → Prog β} (hp : p.RawReads P)
    (hf : ∀ a, (f a).RawReads P) : (p.bind f).RawReads P := by
  induction p with
  | pure a => exact hf a
  | panic x => trivial
  | read n k ih => exact ⟨hp.1, fun b e => ih b e (hp.2 b e)⟩
  | readFull n k ih => exact fun b e => ih b e (hp b e)
  | erErr k ih => exact fun e => ih e (hp e)

theorem RawReads.make {P : Nat → Prop} (n m : Nat) : (Prog.make n m).RawReads P := by
  unfold Prog.make; split <;> trivial

theorem RawReads.all (p : Prog α) : p.RawReads fun _ => True := by
  induction p with
  | pure a => trivial
  | panic x => trivial
  | read n k ih => exact ⟨trivial, ih⟩
  | readFull n k ih => exact ih
  | erErr k ih => exact ih

/-- Related sources whose operations agree give the same run of every program. -/
theorem run_sim [Src σ] [Src τ] (R : σ → τ → Prop) (P : Nat → Prop)
    (hread : ∀ n s t, P n → R s t → (Src.read n s).1 = (Src.read n t).1 ∧
      (Src.read n s).2.1 = (Src.read n t).2.1 ∧ R (Src.read n s).2.2 (Src.read n t).2.2)
    (hfull : ∀ n s t, R s t → (Src.readFull n s).1 = (Src.readFull n t).1 ∧
      (Src.readFull n s).2.1 = (Src.readFull n t).2.1 ∧ R (Src.readFull n s).2.2 (Src.readFull n t).2.2)
    (herr : ∀ s t, R s t → Src.erErr s = Src.erErr t)
    (p : Prog α) (hp : p.RawReads P) (s : σ) (t : τ) (h : R s t) : Alike R (p.run s) (p.run t) := by
  induction p generalizing s t with
  | pure a => exact ⟨rfl, h⟩
  | panic x => exact rfl
  | read n k ih =>
    obtain ⟨h1, h2, h3⟩ := hread n s t hp.1 h
    simp only [run]
    rw [h1, h2]
    exact ih _ _ (hp.2 _ _) _ _ h3
  | readFull n k ih =>
    obtain ⟨h1, h2, h3⟩ := hfull n s t h
    simp only [run]
    rw [h1, h2]
    exact ih _ _ (hp _ _) _ _ h3
  | erErr k ih =>
    simp only [run, herr s t h]
    exact ih _ (hp _) _ _ h

/-- The pieces of `s`, put together, are the bytes of `t`; no piece is empty. -/
def Delivers (s : Chunked) (t : Flat) : Prop :=
  s.chunks.flatten = t.data ∧ s.fin = t.fin ∧ ∀ c ∈ s.chunks, c ≠ []

theorem fill_spec (n : Nat) (cs : List Bytes) (h : ∀ c ∈ cs, c ≠ []) :
    (Chunked.fill n cs).1 = cs.flatten.take n ∧ (Chunked.fill n cs).2.1 = decide (n ≤ cs.flatten.length) ∧
      (Chunked.fill n cs).2.2.flatten = cs.flatten.drop n ∧ ∀ c ∈ (Chunked.fill n cs).2.2, c ≠ [] := by
  induction cs generalizing n with
  | nil =>
    cases n <;> simp [Chunked.fill]
  | cons c cs ih =>
    obtain ⟨h1, h2, h3, h4⟩ := ih (n - c.length) fun x hx => h x (by simp [hx])
    simp only [Chunked.fill]
    split
    · rename_i h0; subst h0; simp at h ⊢; exact h
    · split
      · rename_i h0 hle
        simp only [List.flatten_cons, h1, h2, h3]
        refine ⟨?_, ?_, ?_, h4⟩
        · rw [List.take_append, List.take_of_length_le hle]
        · apply decide_eq_decide.2; rw [List.length_append]; omega
        · rw [List.drop_append, List.drop_of_length_le hle, List.nil_append]
      · rename_i h0 hle
        simp only [List.flatten_cons]
        refine ⟨?_, ?_, ?_, ?_⟩
        · rw [List.take_append_of_le_length (by omega)]
        · simp; omega
        · rw [List.drop_append_of_le_length (by omega)]
        · intro x hx
          simp only [List.mem_cons] at hx
          rcases hx with rfl | hx
          · intro hc
            have := congrArg List.length hc
            simp at this; omega
          · exact h x (by simp [hx])

theorem delivers_full (n : Nat) (s : Chunked) (t : Flat) (h : Delivers s t) :
    (Src.readFull n s).1 = (Src.readFull n t).1 ∧
      (Src.readFull n s).2.1 = (Src.readFull n t).2.1 ∧ Delivers (Src.readFull n s).2.2 (Src.readFull n t).2.2 := by
  obtain ⟨hd, hf, hc⟩ := h
  obtain ⟨h1, h2, h3, h4⟩ := fill_spec n s.chunks hc
  simp only [Src.readFull]
  rcases hfill : Chunked.fill n s.chunks with ⟨b, ok, cs⟩
  rw [hfill] at h1 h2 h3 h4
  simp only at h1 h2 h3 h4
  rw [hd] at h1 h2 h3
  by_cases hn : n ≤ t.data.length
  · simp only [hn, decide_true] at h2
    subst h2
    simp only [if_pos hn]
    exact ⟨h1, trivial, h3, hf, h4⟩
  · simp only [hn, decide_false] at h2
    subst h2
    have : b = t.data := by rw [h1, List.take_of_length_le (by omega)]
    subst this
    simp only [if_neg hn, hf]
    refine ⟨trivial, trivial, ?_, rfl, h4⟩
    rw [h3, List.drop_of_length_le (by omega)]

theorem delivers_read1 (n : Nat) (s : Chunked) (t : Flat) (hn : n = 1) (h : Delivers s t) :
    (Src.read n s).1 = (Src.read n t).1 ∧
      (Src.read n s).2.1 = (Src.read n t).2.1 ∧ Delivers (Src.read n s).2.2 (Src.read n t).2.2 := by
  subst hn
  obtain ⟨hd, hf, hc⟩ := h
  obtain ⟨cs, fin⟩ := s
  obtain ⟨d, fin'⟩ := t
  simp only at hd hf hc
  subst hd hf
  cases cs with
  | nil => exact ⟨rfl, rfl, rfl, rfl, hc⟩
  | cons c cs =>
    cases c with
    | nil => simp at hc
    | cons b c =>
      simp only [Src.read]
      cases c with
      | nil =>
        refine ⟨rfl, rfl, rfl, rfl, ?_⟩
        intro x hx; exact hc x (List.mem_cons_of_mem _ hx)
      | cons b' c =>
        refine ⟨rfl, rfl, rfl, rfl, ?_⟩
        intro x hx
        have hx : x ∈ (b' :: c) :: cs := hx
        rcases List.mem_cons.1 hx with rfl | hx
        · simp
        · exact hc x (by simp [hx])

/-- Programs that read single bytes or full buffers do not see how the bytes are delivered. -/
theorem run_chunked (p : Prog α) (hp : p.RawReads (· = 1)) (s : Chunked) (t : Flat) (h : Delivers s t) :
    Alike Delivers (p.run s) (p.run t) :=
  run_sim Delivers (· = 1) (fun n s t hn h => delivers_read1 n s t hn h) (fun n s t h => delivers_full n s t h)
    (fun _ _ _ => rfl) p hp s t h

/-- `ErrReader`s around sources that deliver the same bytes. -/
def DeliversER (s : ER Chunked) (t : ER Flat) : Prop := Delivers s.src t.src ∧ s.err = t.err ∧ s.n = t.n

theorem doRead_alike (n : Nat) (s : ER Chunked) (t : ER Flat) (h : DeliversER s t) :
    (ER.doRead n s).1 = (ER.doRead n t).1 ∧
      (ER.doRead n s).2.1 = (ER.doRead n t).2.1 ∧ DeliversER (ER.doRead n s).2.2 (ER.doRead n t).2.2 := by
  obtain ⟨h1, h2, h3⟩ := h
  simp only [ER.doRead, h2]
  cases hx : t.err with
  | some e => exact ⟨rfl, rfl, h1, h2, h3⟩
  | none =>
    obtain ⟨r1, r2, r3⟩ := delivers_full n s.src t.src h1
    exact ⟨r1, r2, r3, r2, by simp only [r1, h3]⟩

/-- Programs reading through an `ErrReader` do not see how the bytes are delivered. -/
theorem run_er_chunked (p : Prog α) (s : ER Chunked) (t : ER Flat) (h : DeliversER s t) :
    Alike DeliversER (p.run s) (p.run t) := by
  refine run_sim DeliversER (fun _ => True) (fun n s t _ h => doRead_alike n s t h) (fun n s t h => ?_)
    (fun _ _ h => h.2.1) p (RawReads.all p) s t h
  simp only [Src.readFull]
  split
  · exact ⟨rfl, rfl, h⟩
  · exact doRead_alike n s t h

end Prog
end Rap
