import Verif.Spec.Size
import Verif.Proof.Loaded

/-! # Every byte a program consumes is counted; what it returns is paid for with such bytes -/

namespace Rap
namespace Prog

variable {α β : Type}

/-- Every result `a` of the program satisfies `Q a k`, where `k` is the number of bytes consumed, on a source that delivers at
least a byte when it reports no error, and everything when `io.ReadFull` reports none. -/
def Spends (Q : α → Nat → Prop) : Prog α → Nat → Prop
  | .pure a, k => Q a k
  | .panic _, _ => True
  | .read n f, k => ∀ b e, (e = none → 1 ≤ n → 1 ≤ b.length) → (f b e).Spends Q (k + b.length)
  | .readFull n f, k => ∀ b e, (e = none → b.length = n) → (f b e).Spends Q (k + b.length)
  | .erErr f, k => ∀ e, (f e).Spends Q k

/-- The same if no read fails. -/
def SpendsAll (Q : α → Nat → Prop) : Prog α → Nat → Prop
  | .pure a, k => Q a k
  | .panic _, _ => True
  | .read n f, k => ∀ b, b.length = n → (f b none).SpendsAll Q (k + b.length)
  | .readFull n f, k => ∀ b, b.length = n → (f b none).SpendsAll Q (k + b.length)
  | .erErr f, k => (f none).SpendsAll Q k

theorem Spends.bind {Q : α → Nat → Prop} {R : β → Nat → Prop} {p : Prog α} {f : α → Prog β} {k : Nat} (h : p.Spends Q k)
    (hf : ∀ a j, Q a j → (f a).Spends R j) : (p.bind f).Spends R k := by
  induction p generalizing k with
  | pure x => exact hf x _ h
  | panic x => trivial
  | read n k ih => exact fun b e hb => ih b e (h b e hb)
  | readFull n k ih => exact fun b e hb => ih b e (h b e hb)
  | erErr k ih => exact fun e => ih e (h e)

theorem SpendsAll.bind {Q : α → Nat → Prop} {R : β → Nat → Prop} {p : Prog α} {f : α → Prog β} {k : Nat}
    (h : p.SpendsAll Q k) (hf : ∀ a j, Q a j → (f a).SpendsAll R j) : (p.bind f).SpendsAll R k := by
  induction p generalizing k with
  | pure x => exact hf x _ h
  | panic x => trivial
  | read n k ih => exact fun b hb => ih b none (h b hb)
  | readFull n k ih => exact fun b hb => ih b none (h b hb)
  | erErr k ih => exact ih none h

theorem Spends.all {Q : α → Nat → Prop} {p : Prog α} {k : Nat} (h : p.Spends Q k) : p.SpendsAll Q k := by
  induction p generalizing k with
  | pure x => exact h
  | panic x => trivial
  | read n k ih => exact fun b hb => ih b none (h b none fun _ hn => by omega)
  | readFull n k ih => exact fun b hb => ih b none (h b none fun _ => hb)
  | erErr k ih => exact ih none (h none)

theorem Spends.mono {Q R : α → Nat → Prop} {p : Prog α} {k : Nat} (h : p.Spends Q k) (hr : ∀ a j, Q a j → R a j) :
    p.Spends R k := by
  induction p generalizing k with
  | pure x => exact hr _ _ h
  | panic x => trivial
  | read n k ih => exact fun b e hb => ih b e (h b e hb)
  | readFull n k ih => exact fun b e hb => ih b e (h b e hb)
  | erErr k ih => exact fun e => ih e (h e)

theorem SpendsAll.mono {Q R : α → Nat → Prop} {p : Prog α} {k : Nat} (h : p.SpendsAll Q k) (hr : ∀ a j, Q a j → R a j) :
    p.SpendsAll R k := by
  induction p generalizing k with
  | pure x => exact hr _ _ h
  | panic x => trivial
  | read n k ih => exact fun b hb => ih b none (h b hb)
  | readFull n k ih => exact fun b hb => ih b none (h b hb)
  | erErr k ih => exact ih none h

theorem Spends.make {Q : Unit → Nat → Prop} {n e k : Nat} (h : Q () k) : (Prog.make n e).Spends Q k := by
  unfold Prog.make
  split
  · exact h
  · trivial

theorem Spends.post {Q : α → Nat → Prop} {P : α → Prop} {p : Prog α} {k : Nat} (h : p.Spends Q k) (hp : p.Post P) :
    p.Spends (fun a j => Q a j ∧ P a) k := by
  induction p generalizing k with
  | pure x => exact ⟨h, hp⟩
  | panic x => trivial
  | read n k ih => exact fun b e hb => ih b e (h b e hb) (hp b e)
  | readFull n k ih => exact fun b e hb => ih b e (h b e hb) (hp b e)
  | erErr k ih => exact fun e => ih e (h e) (hp e)

/-- On bytes in memory. -/
theorem Spends.flat {Q : α → Nat → Prop} {p : Prog α} {k : Nat} (h : p.Spends Q k) {s s' : Flat} {a : α}
    (hr : p.run s = .ok (a, s')) : ∃ j, Q a j ∧ j + s'.data.length = k + s.data.length ∧ s'.fin = s.fin ∧
      ∃ m, s'.data = s.data.drop m := by
  induction p generalizing s k with
  | pure x =>
    simp only [Prog.run, Except.ok.injEq, Prod.mk.injEq] at hr
    obtain ⟨rfl, rfl⟩ := hr
    exact ⟨k, h, rfl, rfl, 0, by simp⟩
  | panic x => simp [Prog.run] at hr
  | read n f ih =>
    simp only [Prog.run, Src.read] at hr
    split at hr
    · exact ih _ _ (h [] _ (by simp)) hr
    · rename_i he
      have hne : 1 ≤ s.data.length := by
        cases hd : s.data with
        | nil => simp [hd] at he
        | cons x l => simp
      obtain ⟨j, h1, h2, h3, m, h4⟩ := ih _ _ (h (s.data.take n) none (by simp; omega)) hr
      refine ⟨j, h1, ?_, h3, n + m, by rw [h4]; simp⟩
      simp at h2
      omega
  | readFull n f ih =>
    simp only [Prog.run, Src.readFull] at hr
    split at hr
    · obtain ⟨j, h1, h2, h3, m, h4⟩ := ih _ _ (h (s.data.take n) none (by simp; omega)) hr
      refine ⟨j, h1, ?_, h3, n + m, by rw [h4]; simp⟩
      simp at h2
      omega
    · obtain ⟨j, h1, h2, h3, m, h4⟩ := ih _ _ (h s.data _ (by simp)) hr
      refine ⟨j, h1, ?_, h3, s.data.length + m, by rw [h4]; simp⟩
      simp at h2
      omega
  | erErr f ih => exact ih _ (h _) hr

theorem Spends.onBytes {Q : α → Nat → Prop} {p : Prog α} (h : p.Spends Q 0) {d : Bytes} {a : α} (hr : p.onBytes d = .ok a) :
    ∃ j, Q a j ∧ j ≤ d.length := by
  unfold Prog.onBytes at hr
  cases hx : p.run (⟨d, .eof⟩ : Flat) with
  | error x => simp [hx, Bind.bind, Except.bind] at hr
  | ok r =>
    simp only [hx, Bind.bind, Except.bind, Except.ok.injEq] at hr
    subst hr
    obtain ⟨j, h1, h2, -⟩ := h.flat hx
    exact ⟨j, h1, by simp at h2; omega⟩

/-- Through an `ErrReader` over bytes in memory: the bytes consumed, whatever fails, are those it counts. -/
theorem Spends.er {Q : α → Nat → Prop} {p : Prog α} {k : Nat} (h : p.Spends Q k) {e e' : ER Flat} {a : α}
    (hr : p.run e = .ok (a, e')) : ∃ j, Q a j ∧ j + e'.src.data.length = k + e.src.data.length ∧
      e'.n + e'.src.data.length = e.n + e.src.data.length := by
  have one : ∀ (n : Nat) (e : ER Flat), ∃ b x e1, ER.doRead n e = (b, x, e1) ∧ (x = none → b.length = n) ∧
      b.length + e1.src.data.length = e.src.data.length ∧ e1.n + e1.src.data.length = e.n + e.src.data.length := by
    intro n e
    unfold ER.doRead
    split
    · exact ⟨_, _, _, rfl, by simp, by simp, rfl⟩
    · simp only [Src.readFull]
      split
      · exact ⟨_, _, _, rfl, by simp; omega, by simp; omega, by simp; omega⟩
      · exact ⟨_, _, _, rfl, by simp, by simp, by simp⟩
  induction p generalizing e k with
  | pure x =>
    simp only [Prog.run, Except.ok.injEq, Prod.mk.injEq] at hr
    obtain ⟨rfl, rfl⟩ := hr
    exact ⟨k, h, rfl, rfl⟩
  | panic x => simp [Prog.run] at hr
  | erErr f ih => exact ih _ (h _) hr
  | read n f ih =>
    obtain ⟨b, x, e1, k1, k2, k3, k4⟩ := one n e
    simp only [Prog.run, Src.read, k1] at hr
    obtain ⟨j, h1, h2, h3⟩ := ih _ _ (h b x fun hx hn => by have := k2 hx; omega) hr
    exact ⟨j, h1, by omega, by omega⟩
  | readFull n f ih =>
    have key : ∃ b x e1, (Src.readFull n e : Bytes × Option Err × ER Flat) = (b, x, e1) ∧ (x = none → b.length = n) ∧
        b.length + e1.src.data.length = e.src.data.length ∧ e1.n + e1.src.data.length = e.n + e.src.data.length := by
      simp only [Src.readFull]
      split
      · rename_i hn
        exact ⟨_, _, _, rfl, by simp [hn], by simp, rfl⟩
      · exact one n e
    obtain ⟨b, x, e1, k1, k2, k3, k4⟩ := key
    simp only [Prog.run, k1] at hr
    obtain ⟨j, h1, h2, h3⟩ := ih _ _ (h b x k2) hr
    exact ⟨j, h1, by omega, by omega⟩

theorem Spends.onErrReader {Q : α → Nat → Prop} {p : Prog α} (h : p.Spends Q 0) {d : Bytes} {a : α} {e : Option Err}
    (hr : p.onErrReader d = .ok (a, e)) : ∃ j, Q a j ∧ j ≤ d.length := by
  unfold Prog.onErrReader at hr
  cases hx : p.run (ER.new (⟨d, .eof⟩ : Flat)) with
  | error x => simp [hx, Bind.bind, Except.bind] at hr
  | ok r =>
    simp only [hx, Bind.bind, Except.bind, Except.ok.injEq, Prod.mk.injEq] at hr
    rw [← hr.1]
    obtain ⟨j, h1, h2, -⟩ := h.er hx
    exact ⟨j, h1, by simp [ER.new] at h2; omega⟩

/-- An `ErrReader` keeps its error. -/
theorem er_sticks {σ : Type} [Src σ] {p : Prog α} {e e' : ER σ} {a : α} (hr : p.run e = .ok (a, e')) {x : Err}
    (hx : e.err = some x) : e'.err = some x := by
  induction p generalizing e with
  | pure y =>
    simp only [Prog.run, Except.ok.injEq, Prod.mk.injEq] at hr
    rw [← hr.2, hx]
  | panic y => simp [Prog.run] at hr
  | erErr f ih => exact ih _ hr hx
  | read n f ih =>
    simp only [Prog.run, Src.read, ER.doRead, hx] at hr
    exact ih _ _ hr hx
  | readFull n f ih =>
    simp only [Prog.run, Src.readFull, ER.doRead, hx] at hr
    split at hr
    · exact ih _ _ hr hx
    · exact ih _ _ hr hx

/-- Through an `ErrReader` that has no error at the end: the bytes it counted. -/
theorem SpendsAll.er {Q : α → Nat → Prop} {p : Prog α} {k : Nat} (h : p.SpendsAll Q k) {e e' : ER Flat} {a : α}
    (hr : p.run e = .ok (a, e')) (he : e'.err = none) : ∃ j, Q a j ∧ j + e.n = k + e'.n ∧
      e'.src.data.length + e'.n = e.src.data.length + e.n := by
  induction p generalizing e k with
  | pure x =>
    simp only [Prog.run, Except.ok.injEq, Prod.mk.injEq] at hr
    obtain ⟨rfl, rfl⟩ := hr
    exact ⟨k, h, rfl, rfl⟩
  | panic x => simp [Prog.run] at hr
  | erErr f ih =>
    have h0 : e.err = none := by
      cases hx : e.err with
      | none => rfl
      | some x => rw [er_sticks hr hx] at he; cases he
    simp only [Prog.run, Src.erErr, h0] at hr
    exact ih _ h hr
  | read n f ih =>
    have h0 : e.err = none := by
      cases hx : e.err with
      | none => rfl
      | some x => rw [er_sticks hr hx] at he; cases he
    simp only [Prog.run, Src.read, ER.doRead, h0, Src.readFull] at hr
    split at hr
    · obtain ⟨j, h1, h2, h3⟩ := ih _ _ (h _ (by simp; omega)) hr
      simp at h2 h3
      exact ⟨j, h1, by omega, by omega⟩
    · rw [er_sticks hr rfl] at he
      cases he
  | readFull n f ih =>
    have h0 : e.err = none := by
      cases hx : e.err with
      | none => rfl
      | some x => rw [er_sticks hr hx] at he; cases he
    simp only [Prog.run, Src.readFull, ER.doRead, h0] at hr
    split at hr
    · rename_i hn
      obtain ⟨j, h1, h2, h3⟩ := ih _ _ (h [] (by simp [hn])) hr
      simp at h2 h3
      exact ⟨j, h1, by omega, by omega⟩
    split at hr
    · obtain ⟨j, h1, h2, h3⟩ := ih _ _ (h _ (by simp; omega)) hr
      simp at h2 h3
      exact ⟨j, h1, by omega, by omega⟩
    · rw [er_sticks hr rfl] at he
      cases he

/-- Consumed bytes are never given back. -/
theorem Spends.ge (p : Prog α) (k : Nat) : p.Spends (fun _ j => k ≤ j) k := by
  have aux : ∀ (p : Prog α) (k j : Nat), k ≤ j → p.Spends (fun _ i => k ≤ i) j := by
    intro p
    induction p with
    | pure x => exact fun k j h => h
    | panic x => exact fun k j h => True.intro
    | read n f ih => exact fun k j h b e _ => ih b e k _ (by omega)
    | readFull n f ih => exact fun k j h b e _ => ih b e k _ (by omega)
    | erErr f ih => exact fun k j h e => ih e k _ h
  exact aux p k k (Nat.le_refl _)

theorem Spends.any {R : β → Nat → Prop} {p : Prog α} {f : α → Prog β} {k : Nat}
    (hf : ∀ a j, k ≤ j → (f a).Spends R j) : (p.bind f).Spends R k :=
  (Spends.ge p k).bind hf

theorem SpendsAll.any {R : β → Nat → Prop} {p : Prog α} {f : α → Prog β} {k : Nat}
    (hf : ∀ a j, k ≤ j → (f a).SpendsAll R j) : (p.bind f).SpendsAll R k :=
  (Spends.ge p k).all.bind hf

theorem Spends.ofGo {Q : α → Nat → Prop} {g : Go α} {k : Nat} (h : ∀ a, g = .ok a → Q a k) : (Prog.ofGo g).Spends Q k := by
  cases g with
  | ok a => exact h a rfl
  | error p => trivial

end Prog

open Prog (Spends SpendsAll)

/-! ## Integers, strings, byte blocks -/

theorem putUvarint_length_lt (k v : Nat) (hv : v < 2 ^ (7 * k)) (hk : 1 ≤ k) : (putUvarint v).length ≤ k := by
  induction k generalizing v with
  | zero => omega
  | succ k ih =>
    by_cases h : v < 128
    · rw [putUvarint_lt h]; simp
    · rw [putUvarint_ge h, List.length_cons]
      have h1 : v / 128 < 2 ^ (7 * k) := by
        rw [Nat.div_lt_iff_lt_mul (by omega)]
        have : 2 ^ (7 * (k + 1)) = 2 ^ (7 * k) * 128 := by rw [Nat.mul_add, Nat.pow_add]
        omega
      have hk : 1 ≤ k := by
        cases k with
        | zero => simp at h1; omega
        | succ => omega
      exact Nat.succ_le_succ (ih _ h1 hk)

/-- An integer read without an error cost at least a byte for each of its groups of 7 bits. -/
def PaidInt (k : Nat) (r : Nat × Nat × Option Err) (j : Nat) : Prop :=
  k + r.2.1 ≤ j ∧ (r.2.2 = none → k + 1 ≤ j ∧ r.1 < 2 ^ (7 * (j - k)))

theorem spends_uvarintLoop (fuel i : Nat) (b : UInt8) (x t k j : Nat) (hx : x < 2 ^ (7 * i)) (hi : k + i ≤ j)
    (ht : k + t ≤ j) : (readUvarintLoop fuel i b x (7 * i) t).Spends (PaidInt k) j := by
  induction fuel generalizing i b x t j with
  | zero => exact ⟨ht, by simp⟩
  | succ fuel ih =>
    intro got e hgot
    dsimp only
    cases e with
    | some e => exact ⟨by dsimp only; omega, by simp⟩
    | none =>
      have h1 := hgot rfl (Nat.le_refl 1)
      have hmono : 2 ^ (7 * (i + 1)) ≤ 2 ^ (7 * (j + got.length - k)) := Nat.pow_le_pow_right (by omega) (by omega)
      have hor : ∀ c : Nat, c < 128 → u64 (x ||| c <<< (7 * i)) < 2 ^ (7 * (i + 1)) := by
        intro c hc
        refine Nat.lt_of_le_of_lt (Nat.mod_le _ _) (Nat.or_lt_two_pow ?_ ?_)
        · exact Nat.lt_of_lt_of_le hx (Nat.pow_le_pow_right (by omega) (by omega))
        · rw [Nat.shiftLeft_eq, Nat.mul_add, Nat.pow_add, Nat.mul_comm]
          exact Nat.mul_lt_mul_of_pos_left hc (Nat.pow_pos (by omega))
      dsimp only
      split
      · rename_i hb
        split
        · exact ⟨by dsimp only; omega, by simp⟩
        · refine ⟨by dsimp only; omega, fun _ => ⟨by omega, Nat.lt_of_lt_of_le (hor _ ?_) hmono⟩⟩
          rw [UInt8.lt_iff_toNat_lt] at hb
          exact hb
      · have hs : 7 * i + 7 = 7 * (i + 1) := by omega
        rw [hs]
        refine ih _ _ _ _ _ (hor _ ?_) (by omega) (by omega)
        simp only [UInt8.toNat_and]
        exact Nat.lt_of_le_of_lt Nat.and_le_right (by decide)

theorem spends_uvarint (k : Nat) : readUvarint.Spends (PaidInt k) k :=
  spends_uvarintLoop 10 0 0 0 0 k k (by decide) (by omega) (by omega)

/-- If no read fails an integer costs at least a byte, whatever it is. -/
theorem spendsAll_uvarint (k : Nat) : readUvarint.SpendsAll (fun r j => PaidInt k r j ∧ k + 1 ≤ j) k := by
  intro got hgot
  have h := (spends_uvarint k).all got hgot
  have h2 : ∀ {α : Type} (p : Prog α) (Q : α → Nat → Prop) (m j : Nat), m ≤ j → p.SpendsAll Q j →
      p.SpendsAll (fun a i => Q a i ∧ m ≤ i) j := by
    intro α p
    induction p with
    | pure x => exact fun Q m j hm h => ⟨h, hm⟩
    | panic x => exact fun Q m j hm h => True.intro
    | read n f ih => exact fun Q m j hm h b hb => ih b none Q m _ (by omega) (h b hb)
    | readFull n f ih => exact fun Q m j hm h b hb => ih b none Q m _ (by omega) (h b hb)
    | erErr f ih => exact fun Q m j hm h => ih none Q m _ hm h
  exact h2 _ _ (k + 1) _ (by omega) h

/-- Bytes read with their length in front: with no error the length was paid for as well. -/
def PaidBytes (k : Nat) (r : Bytes × Nat × Option Err) (j : Nat) : Prop :=
  k + r.2.1 ≤ j ∧ (r.2.2 = none → ∀ n : Nat, n ≤ r.1.length → k + (putUvarint n).length + r.1.length ≤ j) ∧
    (r.2.2 ≠ none → r.1 = [])

theorem PaidBytes.le {k j : Nat} {r : Bytes × Nat × Option Err} (h : PaidBytes k r j) (he : r.2.2 = none) :
    k + 1 + r.1.length ≤ j := by
  have := h.2.1 he 0 (Nat.zero_le _)
  rw [putUvarint_lt (by omega)] at this
  simpa using this

theorem spends_string (k : Nat) : readString.Spends (PaidBytes k) k := by
  refine (spends_uvarint k).bind ?_
  rintro ⟨v, n, err⟩ j ⟨h1, h2⟩
  cases err with
  | some e => exact ⟨h1, by simp, by simp⟩
  | none =>
    obtain ⟨h3, h4⟩ := h2 rfl
    dsimp only at h1 h4 ⊢
    refine (Spends.make (Q := fun _ i => i = j) rfl).bind ?_
    rintro _ j rfl
    intro buf e hb
    cases e with
    | some e => exact ⟨by dsimp only; omega, by simp, by simp⟩
    | none =>
      have hl := hb rfl
      refine ⟨by dsimp only; omega, fun _ m hm => ?_, by simp⟩
      dsimp only at hm ⊢
      have := putUvarint_length_lt (j - k) m (by omega) (by omega)
      omega

theorem spends_bytesArray (k : Nat) : readBytesArray.Spends (PaidBytes k) k := by
  refine (spends_uvarint k).bind ?_
  rintro ⟨v, n, err⟩ j ⟨h1, h2⟩
  cases err with
  | some e => exact ⟨h1, by simp, by simp⟩
  | none =>
    obtain ⟨h3, h4⟩ := h2 rfl
    dsimp only at h1 h4 ⊢
    refine (Spends.make (Q := fun _ i => i = j) rfl).bind ?_
    rintro _ j rfl
    intro buf e hb
    dsimp only
    split
    · rename_i he
      refine ⟨by dsimp only; omega, fun h => ?_, by simp⟩
      dsimp only at h
      simp [h] at he
    split
    · exact ⟨by dsimp only; omega, by simp, by simp⟩
    · rename_i hl
      have hl : buf.length = v := by simpa using hl
      refine ⟨by dsimp only; omega, fun _ m hm => ?_, by simp⟩
      dsimp only at hm ⊢
      have := putUvarint_length_lt (j - k) m (by omega) (by omega)
      omega

/-- If no read fails, bytes with their length in front cost at least one byte and their own number. -/
theorem spendsAll_string (k : Nat) : readString.SpendsAll (fun r j => k + 1 + r.1.length ≤ j) k := by
  refine (spendsAll_uvarint k).bind ?_
  rintro ⟨v, n, err⟩ j ⟨-, h2⟩
  cases err with
  | some e => exact h2
  | none =>
    refine (Spends.make (Q := fun _ i => i = j) rfl).all.bind ?_
    rintro _ j rfl
    intro buf hb
    show k + 1 + buf.length ≤ j + buf.length
    omega

theorem spendsAll_bytesArray (k : Nat) : readBytesArray.SpendsAll (fun r j => k + 1 + r.1.length ≤ j) k := by
  refine (spendsAll_uvarint k).bind ?_
  rintro ⟨v, n, err⟩ j ⟨-, h2⟩
  cases err with
  | some e => exact h2
  | none =>
    refine (Spends.make (Q := fun _ i => i = j) rfl).all.bind ?_
    rintro _ j rfl
    intro buf hb
    dsimp only
    split
    · show k + 1 + 0 ≤ _
      omega
    split
    · show k + 1 + 0 ≤ _
      omega
    · show k + 1 + buf.length ≤ j + buf.length
      omega

/-- A list: with no error every item cost at least a byte, and so did their number. -/
def PaidList {α : Type} (k : Nat) (r : List α × Nat × Option Err) (j : Nat) : Prop :=
  k + r.2.1 ≤ j ∧ (r.2.2 = none → k + 1 + r.1.length ≤ j) ∧ (r.2.2 ≠ none → r.1 = [])

theorem spends_uvarIntLoop (n : Nat) (acc : List Nat) (t k j : Nat) (ht : k + t ≤ j) (ha : k + 1 + acc.length ≤ j) :
    (readUvarIntLoop n acc t).Spends (PaidList k) j := by
  induction n generalizing acc t j with
  | zero => exact ⟨ht, by simpa using ha, by simp⟩
  | succ n ih =>
    refine (spends_uvarint j).bind ?_
    rintro ⟨v, m, err⟩ i ⟨h1, h2⟩
    dsimp only at h1
    cases err with
    | some e => exact ⟨by dsimp only; omega, by simp, by simp⟩
    | none =>
      have := (h2 rfl).1
      exact ih _ _ _ (by omega) (by simp; omega)

theorem spends_uvarIntArray (k : Nat) : readUvarIntArray.Spends (PaidList k) k := by
  refine (spends_uvarint k).bind ?_
  rintro ⟨v, n, err⟩ j ⟨h1, h2⟩
  cases err with
  | some e => exact ⟨h1, by simp, by simp⟩
  | none =>
    refine (Spends.make (Q := fun _ i => i = j) rfl).bind ?_
    rintro _ j rfl
    exact spends_uvarIntLoop _ _ _ _ _ h1 (h2 rfl).1

theorem spends_stringLoop (n : Nat) (acc : List Bytes) (t k j : Nat) (ht : k + t ≤ j) (ha : k + 1 + acc.length ≤ j) :
    (readStringLoop n acc t).Spends (PaidList k) j := by
  induction n generalizing acc t j with
  | zero => exact ⟨ht, by simpa using ha, by simp⟩
  | succ n ih =>
    refine (spends_string j).bind ?_
    rintro ⟨v, m, err⟩ i h
    have h1 := h.1
    dsimp only at h1
    cases err with
    | some e => exact ⟨by dsimp only; omega, by simp, by simp⟩
    | none =>
      have := h.le rfl
      exact ih _ _ _ (by omega) (by simp; omega)

theorem spends_stringArray (k : Nat) : readStringArray.Spends (PaidList k) k := by
  refine (spends_uvarint k).bind ?_
  rintro ⟨v, n, err⟩ j ⟨h1, h2⟩
  cases err with
  | some e => exact ⟨h1, by simp, by simp⟩
  | none =>
    refine (Spends.make (Q := fun _ i => i = j) rfl).bind ?_
    rintro _ j rfl
    exact spends_stringLoop _ _ _ _ _ h1 (h2 rfl).1

/-! ## Metadata -/

theorem heldEntries_set (b : Block) (key : Bytes) (p : Property) :
    heldEntries (mapSet b key p) ≤ heldEntries b + 1 + p.held := by
  induction b with
  | nil => simp [mapSet, heldEntries]
  | cons kv b ih =>
    obtain ⟨k', v⟩ := kv
    simp only [mapSet]
    split
    · simp only [heldEntries]; omega
    · simp only [heldEntries]; omega

theorem heldElements_append (l m : List Property) : heldElements (l ++ m) = heldElements l + heldElements m := by
  induction l with
  | nil => simp [heldElements]
  | cons p l ih => simp only [List.cons_append, heldElements, ih]; omega

theorem heldElements_reverse (l : List Property) : heldElements l.reverse = heldElements l := by
  induction l with
  | nil => rfl
  | cons p l ih =>
    rw [List.reverse_cons, heldElements_append, ih]
    simp only [heldElements]
    omega

/-- What the value of type code `c` needs beyond the bytes after its code: the truth values are in the code itself. -/
def bonus (c : UInt8) : Nat := if c = 3 ∨ c = 4 then 1 else 0

/-- A value read after its type code `c` is paid for. -/
def PaidValue (k : Nat) (c : UInt8) (r : Except Err Property) (j : Nat) : Prop :=
  ∀ p, r = .ok p → k + p.held ≤ j + bonus c

/-- A value read with its type code is paid for. -/
def PaidProp (k : Nat) (r : Except Err Property) (j : Nat) : Prop := ∀ p, r = .ok p → k + p.held ≤ j

theorem paidValue_error (k : Nat) (c : UInt8) (e : Err) (j : Nat) : PaidValue k c (.error e) j := fun p h => by cases h
theorem paidProp_error (k : Nat) (e : Err) (j : Nat) : PaidProp k (.error e) j := fun p h => by cases h

theorem spends_propertyWith {rd : UInt8 → Prog (Except Err Property)} (h : ∀ c k, (rd c).Spends (PaidValue k c) k) (k : Nat) :
    (readPropertyWith rd).Spends (PaidProp k) k := by
  intro got e hgot
  cases e with
  | some e => exact paidProp_error _ _ _
  | none =>
    have h1 := hgot rfl (Nat.le_refl 1)
    refine (h (got.headD 0) (k + got.length)).mono ?_
    intro r j hr p hp
    have := hr p hp
    have hb : bonus (got.headD 0) ≤ 1 := by unfold bonus; split <;> omega
    omega

theorem spends_blockLoop {rd : UInt8 → Prog (Except Err Property)} (h : ∀ c k, (rd c).Spends (PaidValue k c) k)
    (keys : List Bytes) (acc : Block) (k j : Nat) (ha : k + 1 + heldEntries acc + keys.length ≤ j) :
    (readBlockLoop rd keys acc).Spends (PaidProp k) j := by
  induction keys generalizing acc j with
  | nil => intro p hp; cases hp; simp only [Property.held]; simp at ha; omega
  | cons key keys ih =>
    refine (spends_propertyWith h j).bind ?_
    intro r i hr
    cases r with
    | error e => exact paidProp_error _ _ _
    | ok p =>
      have := hr p rfl
      have h2 := heldEntries_set acc key p
      simp only [List.length_cons] at ha
      exact ih _ _ (by omega)

theorem spends_elemLoop {rd : Prog (Except Err Property)} (h : ∀ k, rd.Spends (PaidProp k) k) (base : UInt8) (n : Nat)
    (acc : List Property) (k j : Nat) (ha : k + 1 + heldElements acc ≤ j) :
    (readElemLoop rd base n acc).Spends (PaidProp k) j := by
  induction n generalizing acc j with
  | zero => intro p hp; cases hp; simp only [Property.held, heldElements_reverse]; omega
  | succ n ih =>
    refine (h j).bind ?_
    intro r i hr
    cases r with
    | error e => exact paidProp_error _ _ _
    | ok p =>
      have := hr p rfl
      exact ih _ _ (by simp only [heldElements]; omega)

theorem spends_fixed (n k : Nat) : (readFixed n).Spends (fun r j => ∀ v, r = .ok v → k + n ≤ j) k := by
  intro b e hb
  cases e with
  | some e => intro v hv; cases hv
  | none =>
    have := hb rfl
    intro v hv
    omega

theorem spends_floats (n k : Nat) : (readFloat64s n).Spends (fun r j => ∀ v, r = .ok v → k + n ≤ j) k := by
  induction n generalizing k with
  | zero => intro v hv; omega
  | succ n ih =>
    refine (spends_fixed 8 k).bind ?_
    intro r j hr
    cases r with
    | error e => intro v hv; cases hv
    | ok x =>
      have := hr x rfl
      refine (ih j).bind ?_
      intro r i hr
      cases r with
      | error e => intro v hv; cases hv
      | ok xs =>
        have := hr xs rfl
        intro v hv
        omega

theorem PaidProp.value {k j : Nat} {r : Except Err Property} (h : PaidProp k r j) (c : UInt8) : PaidValue k c r j :=
  fun p hp => Nat.le_trans (h p hp) (Nat.le_add_right _ _)

theorem spends_ite {α : Type} {Q : α → Nat → Prop} {k : Nat} {c : Prop} [Decidable c] {p q : Prog α}
    (h1 : c → p.Spends Q k) (h2 : ¬ c → q.Spends Q k) : (if c then p else q).Spends Q k := by
  split
  · exact h1 ‹_›
  · exact h2 ‹_›

theorem spends_one {n : Nat} (hn : 1 ≤ n) (c : UInt8) (f : Nat → Property) (hf : ∀ v, (f v).held = 1) (k : Nat) :
    (Prog.bind (readFixed n) fun r => match r with
      | .error e => .pure (.error e)
      | .ok v => .pure (.ok (f v))).Spends (PaidValue k c) k := by
  refine (spends_fixed n k).bind ?_
  intro r j hr
  cases r with
  | error e => exact paidValue_error _ _ _ _
  | ok v =>
    have := hr v rfl
    intro p hp
    cases hp
    rw [hf]
    omega

theorem spends_propData (fuel : Nat) (c : UInt8) (k : Nat) : (readPropData fuel c).Spends (PaidValue k c) k := by
  induction fuel generalizing c k with
  | zero => trivial
  | succ fuel ih =>
    unfold readPropData
    refine spends_ite (fun _ => ?_) fun _ => ?_
    · refine (spends_string k).bind ?_
      rintro ⟨s, n, err⟩ j h
      cases err with
      | some e => exact paidValue_error _ _ _ _
      | none =>
        have := h.le rfl
        intro p hp
        cases hp
        simp only [Property.held]
        dsimp only at this
        omega
    refine spends_ite (fun _ => spends_one (by omega) c _ (fun v => rfl) k) fun _ => ?_
    refine spends_ite (fun _ => spends_one (by omega) c _ (fun v => rfl) k) fun _ => ?_
    refine spends_ite (fun hc => ?_) fun _ => ?_
    · intro p hp; cases hp; simp [Property.held, bonus, hc]
    refine spends_ite (fun hc => ?_) fun _ => ?_
    · intro p hp; cases hp; simp [Property.held, bonus, hc]
    refine spends_ite (fun hc => ?_) fun _ => ?_
    · intro got e hgot
      cases e with
      | some e => exact paidValue_error _ _ _ _
      | none =>
        have := hgot rfl (Nat.le_refl 1)
        intro p hp
        cases hp
        simp only [Property.held]
        omega
    refine spends_ite (fun hc => ?_) fun _ => ?_
    · refine (spends_floats 2 k).bind ?_
      intro r j hr
      cases r with
      | error e => exact paidValue_error _ _ _ _
      | ok v =>
        have := hr v rfl
        intro p hp
        cases hp
        simp only [Property.held]
        omega
    refine spends_ite (fun hc => ?_) fun _ => ?_
    · refine (spends_floats 3 k).bind ?_
      intro r j hr
      cases r with
      | error e => exact paidValue_error _ _ _ _
      | ok v =>
        have := hr v rfl
        intro p hp
        cases hp
        simp only [Property.held]
        omega
    refine spends_ite (fun hc => ?_) fun _ => ?_
    · refine (spends_stringArray k).bind ?_
      rintro ⟨keys, n, err⟩ j h
      cases err with
      | some e => exact paidValue_error _ _ _ _
      | none =>
        have := h.2.1 rfl
        refine (spends_blockLoop ih keys [] k j ?_).mono fun _ _ h => h.value c
        simp only [heldEntries]
        dsimp only at this
        omega
    refine spends_ite (fun _ => spends_one (by omega) c _ (fun v => rfl) k) fun _ => ?_
    refine spends_ite (fun hc => ?_) fun _ => ?_
    · refine (spends_bytesArray k).bind ?_
      rintro ⟨s, n, err⟩ j h
      cases err with
      | some e => exact paidValue_error _ _ _ _
      | none =>
        have := h.2.1 rfl (u64 s.length) (Nat.mod_le _ _)
        intro p hp
        cases hp
        simp only [Property.held, bytesArrayToBytes, List.length_append]
        dsimp only at this
        omega
    refine spends_ite (fun hc => ?_) fun _ => ?_
    · refine (spends_bytesArray k).bind ?_
      rintro ⟨s, n, err⟩ j h
      cases err with
      | some e => exact paidValue_error _ _ _ _
      | none =>
        have := h.2.1 rfl (u64 s.length) (Nat.mod_le _ _)
        intro p hp
        cases hp
        simp only [Property.newBinaryArray, Property.held, bytesArrayToBytes, List.length_append]
        dsimp only at this
        omega
    refine spends_ite (fun hc => ?_) fun _ => paidValue_error _ _ _ _
    refine (spends_uvarint k).bind ?_
    rintro ⟨v, n, err⟩ j ⟨h1, h2⟩
    cases err with
    | some e => exact paidValue_error _ _ _ _
    | none =>
      refine (Spends.make (Q := fun _ i => i = j) rfl).bind ?_
      rintro _ j rfl
      refine (spends_elemLoop (fun k => (ih (c - 13) k).mono ?_) _ _ _ k _ ?_).mono fun _ _ h => h.value c
      · intro r i hr p hp
        have := hr p hp
        have hb : bonus (c - 13) = 0 := by
          rcases hc with rfl | rfl | rfl | rfl | rfl | rfl | rfl <;> decide
        omega
      · have := (h2 rfl).1
        simp only [heldElements]
        omega

theorem spends_property (fuel k : Nat) : (readProperty fuel).Spends (PaidProp k) k :=
  spends_propertyWith (fun c k => spends_propData fuel c k) k

/-- A block is paid for. -/
def PaidBlock (k : Nat) (r : Except Err Block) (j : Nat) : Prop := ∀ b, r = .ok b → k + heldEntries b ≤ j

theorem spends_mdLoop (fuel : Nat) (keys : List Bytes) (is : List Nat) (acc : Block) (k j : Nat)
    (ha : k + heldEntries acc + is.length ≤ j) : (readMdLoop fuel keys is acc).Spends (PaidBlock k) j := by
  induction is generalizing acc j with
  | nil => intro b hb; cases hb; simp at ha; omega
  | cons i is ih =>
    unfold readMdLoop
    split
    · trivial
    · rename_i key _
      refine (spends_property fuel j).bind ?_
      intro r m hr
      cases r with
      | error e => intro b hb; cases hb
      | ok p =>
        have := hr p rfl
        have h2 := heldEntries_set acc key p
        simp only [List.length_cons] at ha
        exact ih _ _ (by omega)

theorem spends_metadata (fuel : Nat) (keys : List Bytes) (k : Nat) : (readMetadata fuel keys).Spends (PaidBlock k) k := by
  refine (spends_uvarIntArray k).bind ?_
  rintro ⟨is, n, err⟩ j h
  cases err with
  | some e => intro b hb; cases hb
  | none =>
    have := h.2.1 rfl
    refine spends_mdLoop _ _ _ _ _ _ ?_
    simp only [heldEntries]
    dsimp only at this
    omega

theorem spends_eventBlock (fuel : Nat) (keys : List Bytes) (is : List Nat) (acc : Block) (k j : Nat)
    (ha : k + heldEntries acc + is.length ≤ j) : (eventBlock fuel keys is acc).Spends (PaidBlock k) j := by
  induction is generalizing acc j with
  | nil => intro b hb; cases hb; simp at ha; omega
  | cons i is ih =>
    refine (spends_property fuel j).bind ?_
    intro r m hr
    cases r with
    | error e => intro b hb; cases hb
    | ok p =>
      dsimp only
      split
      · trivial
      · rename_i key _
        have := hr p rfl
        have h2 := heldEntries_set acc key p
        simp only [List.length_cons] at ha
        exact ih _ _ (by omega)

theorem spends_eventCaptures (fuel : Nat) (names keys : List Bytes) (ts : List F64) (k : Nat) :
    (eventCaptures fuel names keys ts).Spends (fun r j => ∀ caps, r = .ok caps →
      k + (caps.map fun c => 1 + heldEntries c.2.2).sum ≤ j) k := by
  induction ts generalizing k with
  | nil => intro caps h; cases h; simp
  | cons t ts ih =>
    refine (spends_uvarint k).bind ?_
    rintro ⟨i, n, err⟩ j ⟨h1, h2⟩
    cases err with
    | some e => intro b hb; cases hb
    | none =>
      refine (spends_uvarIntArray j).bind ?_
      rintro ⟨is, n, err⟩ m h
      cases err with
      | some e => intro b hb; cases hb
      | none =>
        have h3 := (h2 rfl).1
        have h4 := h.2.1 rfl
        refine (spends_eventBlock fuel keys is [] j m ?_).bind ?_
        · simp only [heldEntries]
          dsimp only at h4
          omega
        intro r q hr
        cases r with
        | error e => intro b hb; cases hb
        | ok block =>
          have h5 := hr block rfl
          dsimp only
          split
          · trivial
          · refine (ih q).bind ?_
            intro r u hr
            cases r with
            | error e => intro b hb; cases hb
            | ok rest =>
              have h6 := hr rest rfl
              intro caps hc
              cases hc
              simp only [List.map_cons, List.sum_cons]
              omega

/-! ## Collections -/

theorem lookupAll_length {table : List Bytes} {is : List Nat} {ms : List Bytes} (h : lookupAll table is = .ok ms) :
    ms.length = is.length := by
  induction is generalizing ms with
  | nil => cases h; rfl
  | cons i is ih =>
    simp only [lookupAll, Bind.bind, Except.bind] at h
    split at h
    · cases h
    · split at h
      · cases h
      · rename_i l hl
        cases h
        simp [ih hl]

theorem Carries.length {α : Type} {ts : List F64} {caps : List (F64 × α)} (h : Carries ts caps) : caps.length = ts.length := by
  rw [← h, List.length_map]

/-- What a decoder of the package makes holds no more than the name, the times and the body it was given. -/
theorem builtin_decode_held (b : Builtin) (name header body : Bytes) (times : List F64) (c : Coll) (e : Option Err)
    (h : b.encoder.decode name header body times = .ok (some c, e)) :
    c.held ≤ 1 + name.length + times.length + body.length := by
  cases b with
  | event =>
    simp only [Builtin.encoder, eventEncoder, eventDecode, Bind.bind, Except.bind] at h
    split at h
    · simp at h
    · rename_i v hv
      obtain ⟨names, keys, err⟩ := v
      cases err with
      | some x => simp at h
      | none =>
        simp only at h
        split at h
        · simp at h
        · rename_i v hv
          cases v with
          | error x => simp at h
          | ok caps =>
            simp only [Except.ok.injEq, Prod.mk.injEq, Option.some.injEq] at h
            rw [← h.1]
            obtain ⟨j, h1, h2⟩ := (spends_eventCaptures _ _ _ _ 0).onBytes hv
            have := h1 caps rfl
            simp only [Coll.held]
            omega
  | enum =>
    simp only [Builtin.encoder, enumEncoder, enumDecode, Bind.bind, Except.bind] at h
    split at h
    · simp at h
    · rename_i v hv
      obtain ⟨names, n, err⟩ := v
      cases err with
      | some x => simp at h
      | none =>
        simp only at h
        split at h
        · simp at h
        · rename_i v hv
          obtain ⟨⟨ms, caps⟩, err⟩ := v
          simp only [Except.ok.injEq, Prod.mk.injEq, Option.some.injEq] at h
          rw [← h.1]
          have hs : (Prog.bind readUvarIntArray fun r => Prog.bind (Prog.ofGo (lookupAll names r.1)) fun ms =>
              Prog.bind (enumCaptures times) fun caps => Prog.pure (ms, caps)).Spends
              (fun r j => r.1.length ≤ j ∧ r.2.length = times.length) 0 := by
            refine (spends_uvarIntArray 0).bind ?_
            rintro ⟨is, n, err⟩ j ⟨-, h2, h3⟩
            refine (Spends.ofGo (Q := fun ms i => i = j ∧ ms.length = is.length)
              fun ms hms => ⟨rfl, lookupAll_length hms⟩).bind ?_
            rintro ms j ⟨rfl, hl⟩
            refine ((Spends.ge _ _).post (post_enumCaptures times)).bind ?_
            rintro caps i ⟨hi, hc⟩
            refine ⟨?_, hc.length⟩
            dsimp only
            cases err with
            | none => have := h2 rfl; dsimp only at this; omega
            | some e => have := h3 (by simp); dsimp only at this; subst this; simp at hl; simp [hl]
          obtain ⟨j, ⟨h1, h2⟩, h3⟩ := hs.onErrReader hv
          simp only [Coll.held]
          dsimp only at h1 h2
          omega
  | position t =>
    simp only [Builtin.encoder, positionEncoder, positionDecode, Bind.bind, Except.bind] at h
    split at h
    · simp at h
    · rename_i v hv
      cases v with
      | error x => simp at h
      | ok caps =>
        simp only [Except.ok.injEq, Prod.mk.injEq, Option.some.injEq] at h
        rw [← h.1]
        have := Carries.length ((post_positionCaptures times).onBytes hv)
        simp only [Coll.held]
        omega
  | euler t =>
    simp only [Builtin.encoder, eulerEncoder, eulerDecode, Bind.bind, Except.bind] at h
    split at h
    · simp at h
    · rename_i v hv
      cases v with
      | error x => simp at h
      | ok caps =>
        simp only [Except.ok.injEq, Prod.mk.injEq, Option.some.injEq] at h
        rw [← h.1]
        have := Carries.length ((post_eulerCaptures times).onBytes hv)
        simp only [Coll.held]
        omega
  | float t =>
    simp only [Builtin.encoder, floatEncoder, floatDecode, Bind.bind, Except.bind] at h
    split at h
    · simp at h
    · split at h
      · simp at h
      · rename_i v hv
        obtain ⟨caps, err⟩ := v
        simp only [Except.ok.injEq, Prod.mk.injEq, Option.some.injEq] at h
        rw [← h.1]
        have hp : caps.length ≤ times.length := by
          refine Prog.Post.onErrReader (Q := fun l => l.length ≤ times.length) ?_ hv
          split
          · exact (post_floatDec64 _ _).imp fun _ h => Nat.le_of_eq h.length
          split
          · exact (post_floatDec32 _ _).imp fun _ h => Nat.le_of_eq h.length
          split
          · exact (post_floatDecBst _).imp fun _ h => Nat.le_of_eq h.length
          · exact Nat.zero_le _
        simp only [Coll.held]
        omega

/-! ## Recordings -/

theorem spendsAll_time64 (n k : Nat) : (decTime64Loop n).SpendsAll (fun r j => k + r.length ≤ j) k := by
  induction n generalizing k with
  | zero => exact Nat.le_refl _
  | succ n ih =>
    intro b hb
    refine (ih _).bind ?_
    intro ts j h
    show k + (ts.length + 1) ≤ j
    omega

theorem spendsAll_f32 (v : F32) (k : Nat) : (readF32 v).SpendsAll (fun r j => r.2 = none ∧ k + 4 ≤ j) k := by
  intro b hb
  exact ⟨rfl, by omega⟩

theorem spendsAll_into (buf : Bytes) (k : Nat) : (readInto buf).SpendsAll (fun r j => k + buf.length ≤ j ∧
    r.1.length = buf.length) k := by
  intro b hb
  exact ⟨by omega, by simp [hb]⟩

theorem spendsAll_time32 (n k : Nat) : (decTime32Loop n).SpendsAll (fun r j => k + r.length ≤ j) k := by
  induction n generalizing k with
  | zero => exact Nat.le_refl _
  | succ n ih =>
    refine (spendsAll_f32 _ _).bind ?_
    rintro ⟨v, e⟩ j ⟨-, h1⟩
    refine (ih _).bind ?_
    intro ts j h
    show k + (ts.length + 1) ≤ j
    omega

theorem spendsAll_timeBstLoop (gap : F64) (n : Nat) (cur : F64) (buf : Bytes) (k : Nat) (hb : 1 ≤ buf.length) :
    (decTimeBstLoop gap n cur buf).SpendsAll (fun r j => k + r.length ≤ j) k := by
  induction n generalizing k cur buf with
  | zero => exact Nat.le_refl _
  | succ n ih =>
    refine (spendsAll_into _ _).bind ?_
    rintro ⟨v, e⟩ j ⟨h1, h2⟩
    refine (ih _ _ _ (by dsimp only at h2; omega)).bind ?_
    intro ts j h
    show k + (ts.length + 1) ≤ j
    omega

theorem spendsAll_timeBst (n k : Nat) : (decTimeBst n).SpendsAll (fun r j => k + r.1.length ≤ j) k := by
  cases n with
  | zero => exact Nat.le_refl _
  | succ n =>
    refine (spendsAll_f32 _ _).bind ?_
    rintro ⟨v, e⟩ j ⟨he, h1⟩
    dsimp only at he
    subst he
    dsimp only
    split
    · show k + 1 ≤ j
      omega
    · refine (spendsAll_f32 _ _).bind ?_
      rintro ⟨v, e⟩ i ⟨he, h2⟩
      dsimp only at he
      subst he
      refine (Spends.make (Q := fun _ m => m = i) rfl).all.bind ?_
      rintro _ i rfl
      refine (spendsAll_timeBstLoop _ _ _ _ _ (by simp)).bind ?_
      intro ts m h
      show k + (ts.length + 1) ≤ m
      omega

theorem spendsAll_times (k : Nat) : decTime.SpendsAll (fun r j => k + r.1.length ≤ j) k := by
  intro got hgot
  refine SpendsAll.any ?_
  rintro ⟨n, _, err⟩ j hj
  cases err with
  | some e => show k + 0 ≤ j; omega
  | none =>
    dsimp only
    split
    · refine (Spends.make (Q := fun _ i => i = j) rfl).all.bind ?_
      rintro _ j rfl
      refine (spendsAll_time64 _ _).bind ?_
      intro ts i h
      show k + ts.length ≤ i
      omega
    split
    · refine (Spends.make (Q := fun _ i => i = j) rfl).all.bind ?_
      rintro _ j rfl
      refine (spendsAll_time32 _ _).bind ?_
      intro ts i h
      show k + ts.length ≤ i
      omega
    split
    · refine (spendsAll_timeBst _ _).mono ?_
      intro ts i h
      omega
    · show k + 0 ≤ j
      omega

theorem spendsAll_streams (T : RTables) (hT : ∀ e ∈ T.encs, ∀ name body times c err,
    e.1.decode name e.2 body times = .ok (some c, err) → c.held ≤ 1 + name.length + times.length + body.length) (n k : Nat) :
    (readStreams T n).SpendsAll (fun r j => k + (r.map heldColl).sum ≤ j) k := by
  induction n generalizing k with
  | zero => exact Nat.le_refl _
  | succ n ih =>
    refine (spendsAll_uvarint k).bind ?_
    rintro ⟨idx, _, _⟩ j1 ⟨-, h1⟩
    refine (spendsAll_string j1).bind ?_
    rintro ⟨name, _, _⟩ j2 h2
    refine (spendsAll_times j2).bind ?_
    rintro ⟨times, _⟩ j3 h3
    refine (spendsAll_bytesArray j3).bind ?_
    rintro ⟨body, _, _⟩ j4 h4
    dsimp only at h2 h3 h4 ⊢
    split
    · trivial
    · rename_i enc header hx
      refine (Spends.ofGo (Q := fun r i => i = j4 ∧ heldColl r.1 ≤ 1 + name.length + times.length + body.length)
        ?_).all.bind ?_
      · rintro ⟨c, err⟩ hd
        refine ⟨rfl, ?_⟩
        cases c with
        | none => simp only [heldColl]; omega
        | some c => exact hT _ (List.mem_of_getElem? hx) _ _ _ _ _ hd
      · rintro ⟨c, err⟩ i ⟨rfl, hc⟩
        refine (ih _).bind ?_
        intro rest j5 h5
        show k + (heldColl c + (rest.map heldColl).sum) ≤ j5
        dsimp only at hc
        omega

theorem PaidBlock.orEmpty {k j : Nat} {r : Except Err Block} (h : PaidBlock k r j) (hj : k ≤ j) :
    k + heldEntries (blockOrEmpty r) ≤ j := by
  cases r with
  | error e => simpa [blockOrEmpty, heldEntries] using hj
  | ok b => exact h b rfl

theorem spends_and_ge {α : Type} {Q : α → Nat → Prop} {p : Prog α} {k m : Nat} (hm : m ≤ k) (h : p.Spends Q k) :
    p.Spends (fun a j => Q a j ∧ m ≤ j) k := by
  induction p generalizing k with
  | pure x => exact ⟨h, hm⟩
  | panic x => trivial
  | read n f ih => exact fun b e hb => ih b e (by omega) (h b e hb)
  | readFull n f ih => exact fun b e hb => ih b e (by omega) (h b e hb)
  | erErr f ih => exact fun e => ih e hm (h e)

theorem spends_mdOrEmpty (fuel : Nat) (keys : List Bytes) (k : Nat) :
    (readMetadata fuel keys).Spends (fun r j => k + heldEntries (blockOrEmpty r) ≤ j) k :=
  (spends_and_ge (Nat.le_refl k) (spends_metadata fuel keys k)).mono fun _ _ h => h.1.orEmpty h.2

theorem spendsAll_refs (T : RTables) (n k : Nat) :
    (readRefs T n).SpendsAll (fun r j => k + (r.map heldRef).sum ≤ j) k := by
  induction n generalizing k with
  | zero => exact Nat.le_refl _
  | succ n ih =>
    refine (spendsAll_string k).bind ?_
    rintro ⟨name, _, _⟩ j1 h1
    refine (spendsAll_string j1).bind ?_
    rintro ⟨uri, _, _⟩ j2 h2
    refine SpendsAll.any ?_
    rintro ⟨size, _, _⟩ j3 h3
    refine (spends_mdOrEmpty _ _ j3).all.bind ?_
    intro md j4 h4
    refine (ih _).bind ?_
    intro rest j5 h5
    show k + (heldRef (some ⟨name, uri, size, blockOrEmpty md⟩) + (rest.map heldRef).sum) ≤ j5
    simp only [heldRef]
    dsimp only at h1 h2
    omega

theorem spendsAll_bins (T : RTables) (n k : Nat) :
    (readBins T n).SpendsAll (fun r j => k + (r.map heldBin).sum ≤ j) k := by
  induction n generalizing k with
  | zero => exact Nat.le_refl _
  | succ n ih =>
    refine (spendsAll_string k).bind ?_
    rintro ⟨name, _, _⟩ j1 h1
    refine SpendsAll.any ?_
    rintro ⟨size, _, _⟩ j3 h3
    refine (spends_mdOrEmpty _ _ j3).all.bind ?_
    intro md j4 h4
    refine (Spends.make (Q := fun _ i => i = j4) rfl).all.bind ?_
    rintro _ j4 rfl
    intro got hgot
    refine (ih _).bind ?_
    intro rest j5 h5
    show k + (heldBin (some (newBinary name (got ++ List.replicate (size - got.length) 0) (blockOrEmpty md))) +
      (rest.map heldBin).sum) ≤ j5
    simp only [heldBin, newBinary, hgot, Nat.sub_self, List.replicate_zero, List.append_nil]
    dsimp only at h1 hgot
    omega

theorem spendsAll_children {rd : Prog (Except Err Rec)}
    (h : ∀ k, rd.SpendsAll (fun r j => ∀ rec, r = .ok rec → k + rec.held ≤ j) k) (n k : Nat) :
    (readChildren rd n).SpendsAll (fun r j => ∀ rs, r = .ok rs → k + heldRecs rs ≤ j) k := by
  induction n generalizing k with
  | zero => intro rs h; cases h; simp [heldRecs]
  | succ n ih =>
    refine (h k).bind ?_
    intro r j hr
    cases r with
    | error e => intro rs h; cases h
    | ok r =>
      have h1 := hr r rfl
      refine (ih j).bind ?_
      intro r2 i hr2
      cases r2 with
      | error e => intro rs h; cases h
      | ok rs =>
        have h2 := hr2 rs rfl
        intro rs' h
        cases h
        simp only [heldRecs]
        omega

/-- Everything a recording holds was paid for with bytes. -/
theorem spendsAll_buildRec (T : RTables) (hT : ∀ e ∈ T.encs, ∀ name body times c err,
    e.1.decode name e.2 body times = .ok (some c, err) → c.held ≤ 1 + name.length + times.length + body.length)
    (fuel k : Nat) : (buildRec T fuel).SpendsAll (fun r j => ∀ rec, r = .ok rec → k + rec.held ≤ j) k := by
  induction fuel generalizing k with
  | zero => trivial
  | succ fuel ih =>
    refine (spendsAll_string k).bind ?_
    rintro ⟨id, _, _⟩ j1 h1
    refine (spendsAll_string j1).bind ?_
    rintro ⟨name, _, _⟩ j2 h2
    refine (spends_metadata _ _ j2).all.bind ?_
    intro md j3 h3
    cases md with
    | error e => intro rec h; cases h
    | ok md =>
      have h3 := h3 md rfl
      refine SpendsAll.any ?_
      rintro ⟨ns, _, _⟩ j4 h4
      refine (Spends.make (Q := fun _ i => i = j4) rfl).all.bind ?_
      rintro _ j4 rfl
      refine (spendsAll_streams T hT ns j4).bind ?_
      intro colls j5 h5
      refine SpendsAll.any ?_
      rintro ⟨nr, _, _⟩ j6 h6
      refine (Spends.make (Q := fun _ i => i = j6) rfl).all.bind ?_
      rintro _ j6 rfl
      refine (spendsAll_refs T nr j6).bind ?_
      intro refs j7 h7
      refine SpendsAll.any ?_
      rintro ⟨nb, _, _⟩ j8 h8
      refine (Spends.make (Q := fun _ i => i = j8) rfl).all.bind ?_
      rintro _ j8 rfl
      refine (spendsAll_bins T nb j8).bind ?_
      intro bins j9 h9
      refine SpendsAll.any ?_
      rintro ⟨nc, _, _⟩ j10 h10
      refine (Spends.make (Q := fun _ i => i = j10) rfl).all.bind ?_
      rintro _ j10 rfl
      refine (spendsAll_children ih nc j10).bind ?_
      intro r j11 h11
      cases r with
      | error e => intro rec h; cases h
      | ok recs =>
        have h11 := h11 recs rfl
        intro rec h
        cases h
        simp only [Rec.held]
        dsimp only at h1 h2
        omega

/-! ## Files -/

theorem spends_versions (n t k j : Nat) (ht : k + t ≤ j) :
    (readVersions n t).Spends (fun r i => k + r.2.1 ≤ i) j := by
  induction n generalizing t j with
  | zero => exact ht
  | succ n ih =>
    refine (spends_uvarint j).bind ?_
    rintro ⟨v, m, err⟩ i ⟨h1, h2⟩
    dsimp only at h1
    cases err with
    | some e => show k + t ≤ i; omega
    | none => exact (ih _ _ (by omega)).bind fun r q h => h

theorem spends_encoders (reg : List Encoder) (k : Nat) : (readEncoders reg).Spends (fun r j => k + r.2 ≤ j) k := by
  refine (spends_stringArray k).bind ?_
  rintro ⟨sigs, n, err⟩ j ⟨h1, -⟩
  cases err with
  | some e => exact h1
  | none =>
    refine (spends_versions _ _ _ _ h1).bind ?_
    rintro ⟨vs, n, err⟩ i h
    cases err with
    | some e => exact h
    | none => exact h

theorem spends_headers (n t k j : Nat) (ht : t ≤ k + j) :
    (readHeaders n t).Spends (fun r i => r.2 ≤ k + i) j := by
  induction n generalizing t j with
  | zero => exact ht
  | succ n ih =>
    refine (spends_bytesArray j).bind ?_
    rintro ⟨v, m, err⟩ i ⟨h1, -⟩
    dsimp only at h1
    cases err with
    | some e => show t + m ≤ k + i; omega
    | none =>
      refine (ih (t + m) _ (by omega)).bind ?_
      rintro ⟨r, q⟩ u h
      cases r with
      | error e => exact h
      | ok hs => exact h

theorem spends_tables (encs : List Encoder) (t : Nat) :
    (readTables encs t).Spends (fun r j => r.2 ≤ t + j) 0 := by
  refine (spends_headers _ t t 0 (by omega)).bind ?_
  rintro ⟨r, q⟩ u h
  cases r with
  | error e => exact h
  | ok hs =>
    refine (spends_stringArray u).bind ?_
    rintro ⟨v, m, err⟩ i ⟨h1, -⟩
    dsimp only at h1 h
    cases err with
    | some e => show q + m ≤ t + i; omega
    | none => show q + m ≤ t + i; omega

/-- Before any result in `Q` the program asked the `ErrReader` for its error and got none. -/
def Prog.Checks {α : Type} (Q : α → Prop) : Prog α → Prop
  | .pure a => ¬ Q a
  | .panic _ => True
  | .read _ f => ∀ b e, (f b e).Checks Q
  | .readFull _ f => ∀ b e, (f b e).Checks Q
  | .erErr f => (∀ e, (f (some e)).Checks Q) ∧ ((f none).Checks Q ∨ ∃ a, f none = .pure a)

theorem Prog.Checks.bind {α β : Type} {Q : β → Prop} (p : Prog α) {f : α → Prog β} (h : ∀ a, (f a).Checks Q) :
    (p.bind f).Checks Q := by
  induction p with
  | pure x => exact h x
  | panic x => trivial
  | read n k ih => exact fun b e => ih b e
  | readFull n k ih => exact fun b e => ih b e
  | erErr k ih => exact ⟨fun e => ih (some e), .inl (ih none)⟩

theorem Prog.Checks.er {α σ : Type} [Src σ] {Q : α → Prop} {p : Prog α} (h : p.Checks Q) {e e' : ER σ} {a : α}
    (hr : p.run e = .ok (a, e')) (ha : Q a) : e'.err = none := by
  induction p generalizing e with
  | pure x =>
    simp only [Prog.run, Except.ok.injEq, Prod.mk.injEq] at hr
    rw [hr.1] at h
    exact absurd ha h
  | panic x => simp [Prog.run] at hr
  | read n f ih => exact ih _ _ (h _ _) hr
  | readFull n f ih => exact ih _ _ (h _ _) hr
  | erErr f ih =>
    simp only [Prog.run, Src.erErr] at hr
    cases he : e.err with
    | some x => rw [he] at hr; exact ih _ (h.1 x) hr
    | none =>
      rw [he] at hr
      rcases h.2 with h2 | ⟨b, hb⟩
      · exact ih _ h2 hr
      · rw [hb] at hr
        simp only [Prog.run, Except.ok.injEq, Prod.mk.injEq] at hr
        rw [← hr.2, he]

theorem checks_buildRec (T : RTables) (fuel : Nat) : (buildRec T fuel).Checks fun r => ∃ rec, r = .ok rec := by
  cases fuel with
  | zero => trivial
  | succ fuel =>
    refine .bind _ fun _ => .bind _ fun _ => .bind _ fun md => ?_
    cases md with
    | error e => rintro ⟨rec, h⟩; cases h
    | ok md =>
      refine .bind _ fun _ => .bind _ fun _ => .bind _ fun _ => .bind _ fun _ => .bind _ fun _ => .bind _ fun _ =>
        .bind _ fun _ => .bind _ fun _ => .bind _ fun _ => .bind _ fun _ => .bind _ fun _ => .bind _ fun r => ?_
      cases r with
      | error e => rintro ⟨rec, h⟩; cases h
      | ok recs =>
        refine ⟨fun e => ?_, .inr ⟨_, rfl⟩⟩
        rintro ⟨rec, h⟩
        cases h

/-- What a reading of the part after the prelude reports and returns. -/
theorem readBody_paid {encs : List Encoder} (hS : ∀ e ∈ encs, ∀ name header body times c err,
    e.decode name header body times = .ok (some c, err) → c.held ≤ 1 + name.length + times.length + body.length)
    {total n : Nat} {s s' : Flat} {rec : Rec} {err : Option Err} (h : readBody encs total s = .ok ((rec, n, err), s')) :
    n ≤ total + s.data.length ∧ rec.held ≤ n := by
  unfold readBody at h
  cases ht : (readTables encs total).run s with
  | error q => simp [ht, Bind.bind, Except.bind] at h
  | ok r =>
    obtain ⟨⟨r, t⟩, s1⟩ := r
    obtain ⟨j, h1, h2, -⟩ := (spends_tables encs total).flat ht
    dsimp only at h1
    rw [ht] at h
    cases r with
    | error e =>
      simp only [Bind.bind, Except.bind, Except.ok.injEq, Prod.mk.injEq] at h
      obtain ⟨⟨rfl, rfl, -⟩, -⟩ := h
      exact ⟨by omega, by simp [Rec.held]⟩
    | ok hk =>
      obtain ⟨headers, keys⟩ := hk
      simp only [Bind.bind, Except.bind] at h
      split at h
      · simp at h
      · rename_i v hv
        obtain ⟨r, er⟩ := v
        obtain ⟨-, -, -, h3⟩ := (Spends.ge _ 0).er hv
        simp only [ER.new] at h3
        cases r with
        | error e =>
          simp only [Except.ok.injEq, Prod.mk.injEq] at h
          obtain ⟨⟨rfl, rfl, -⟩, -⟩ := h
          exact ⟨by omega, by simp [Rec.held]⟩
        | ok rec' =>
          simp only [Except.ok.injEq, Prod.mk.injEq] at h
          obtain ⟨⟨rfl, rfl, -⟩, -⟩ := h
          refine ⟨by omega, ?_⟩
          have herr : er.err = none := (checks_buildRec _ _).er hv ⟨rec', rfl⟩
          obtain ⟨q, h4, h5, -⟩ := (spendsAll_buildRec _ (by
            rintro ⟨e, hd⟩ he name body times c err hdec
            exact hS e (List.of_mem_zip he).1 _ _ _ _ _ _ hdec) _ 0).er hv herr
          have := h4 rec' rfl
          simp only [ER.new] at h5
          omega

theorem spends_v1 (X : Ext) (unmarshal : Bytes → Except Err V1.Recording) (k : Nat) :
    (V1.readRecording X unmarshal).Spends (fun r j => k + r.2.1 ≤ j) k := by
  intro b err _
  cases err with
  | some e => exact Nat.le_refl _
  | none =>
    dsimp only
    split
    · exact Nat.le_refl _
    split
    · exact Nat.le_refl _
    rename_i h4 _
    have h4 : b.length = 4 := by simpa using h4
    intro b8 err _
    cases err with
    | some e => show k + (4 + b8.length) ≤ k + b.length + b8.length; omega
    | none =>
      dsimp only
      split
      · show k + (4 + b8.length) ≤ k + b.length + b8.length; omega
      rename_i h8
      have h8 : b8.length = 8 := by simpa using h8
      refine (Spends.make (Q := fun _ i => i = k + b.length + b8.length) rfl).bind ?_
      rintro _ i hi data err _
      have hle : k + (12 + data.length) ≤ i + data.length := by omega
      cases err with
      | some e => exact hle
      | none =>
        dsimp only
        split
        · exact hle
        split
        · exact hle
        split
        · exact hle
        · exact hle

/-- What is reported when the prelude is over. -/
def PaidPrelude : (Rec × Nat × Option Err) ⊕ (List Encoder × UInt8 × Nat) → Nat → Prop
  | .inl (_, n, _), j => n ≤ j
  | .inr (_, _, n), j => n ≤ j

theorem spends_prelude (X : Ext) (unmarshal : Bytes → Except Err V1.Recording) (reg : List Encoder) :
    (readPrelude X unmarshal reg).Spends PaidPrelude 0 := by
  intro got err _
  cases err with
  | some e => show got.length ≤ 0 + got.length; omega
  | none =>
    dsimp only
    split
    · refine (spends_v1 X unmarshal _).bind ?_
      rintro ⟨r, n, e⟩ j h
      show n + got.length ≤ j
      dsimp only at h
      omega
    split
    · show got.length ≤ 0 + got.length; omega
    refine (spends_encoders reg _).bind ?_
    rintro ⟨r, n⟩ j h
    dsimp only at h
    cases r with
    | error e => show got.length + n ≤ j; omega
    | ok encs =>
      intro got2 err _
      cases err with
      | some e => show got.length + n + got2.length ≤ j + got2.length; omega
      | none => show got.length + n + got2.length ≤ j + got2.length; omega

end Rap
