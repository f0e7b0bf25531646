import Verif.Proof.Prog
import Verif.Model.Encoders

/-! # Facts about every result of a reader program, whatever the source delivers -/

namespace Rap
namespace Prog

variable {α β σ : Type}

/-- Every result the program can return satisfies `Q`. -/
def Post (Q : α → Prop) : Prog α → Prop
  | .pure a => Q a
  | .panic _ => True
  | .read _ k => ∀ b e, (k b e).Post Q
  | .readFull _ k => ∀ b e, (k b e).Post Q
  | .erErr k => ∀ e, (k e).Post Q

theorem Post.run [Src σ] {Q : α → Prop} {p : Prog α} (h : p.Post Q) {s s' : σ} {a : α}
    (hr : p.run s = .ok (a, s')) : Q a := by
  induction p generalizing s with
  | pure x => simp only [Prog.run, Except.ok.injEq, Prod.mk.injEq] at hr; rw [← hr.1]; exact h
  | panic x => simp [Prog.run] at hr
  | read n k ih => exact ih _ _ (h _ _) hr
  | readFull n k ih => exact ih _ _ (h _ _) hr
  | erErr k ih => exact ih _ (h _) hr

theorem Post.bind {Q : α → Prop} {R : β → Prop} {p : Prog α} {f : α → Prog β} (h : p.Post Q)
    (hf : ∀ a, Q a → (f a).Post R) : (p.bind f).Post R := by
  induction p with
  | pure x => exact hf x h
  | panic x => trivial
  | read n k ih => exact fun b e => ih b e (h b e)
  | readFull n k ih => exact fun b e => ih b e (h b e)
  | erErr k ih => exact fun e => ih e (h e)

theorem Post.trivial (p : Prog α) : p.Post fun _ => True := by
  induction p with
  | pure x => exact True.intro
  | panic x => exact True.intro
  | read n k ih => exact fun b e => ih b e
  | readFull n k ih => exact fun b e => ih b e
  | erErr k ih => exact fun e => ih e

theorem Post.any {R : β → Prop} {p : Prog α} {f : α → Prog β} (hf : ∀ a, (f a).Post R) : (p.bind f).Post R :=
  Post.bind (Post.trivial p) fun a _ => hf a

theorem Post.onBytes {Q : α → Prop} {p : Prog α} (h : p.Post Q) {d : Bytes} {a : α} (hr : p.onBytes d = .ok a) :
    Q a := by
  unfold Prog.onBytes at hr
  cases hx : p.run (⟨d, .eof⟩ : Flat) with
  | error x => simp [hx, Bind.bind, Except.bind] at hr
  | ok r =>
    simp only [hx, Bind.bind, Except.bind, Except.ok.injEq] at hr
    subst hr
    exact h.run hx

theorem Post.onErrReader {Q : α → Prop} {p : Prog α} (h : p.Post Q) {d : Bytes} {a : α} {e : Option Err}
    (hr : p.onErrReader d = .ok (a, e)) : Q a := by
  unfold Prog.onErrReader at hr
  cases hx : p.run (ER.new (⟨d, .eof⟩ : Flat)) with
  | error x => simp [hx, Bind.bind, Except.bind] at hr
  | ok r =>
    simp only [hx, Bind.bind, Except.bind, Except.ok.injEq, Prod.mk.injEq] at hr
    rw [← hr.1]
    exact h.run hx

end Prog

open Prog (Post)

/-- The captures carry the times `ts`, one each and in order. -/
def Carries {α : Type} (ts : List F64) (caps : List (F64 × α)) : Prop := caps.map (·.1) = ts

/-- The same unless there was an error. -/
def CarriesOk {α : Type} (ts : List F64) : Except Err (List (F64 × α)) → Prop
  | .ok caps => Carries ts caps
  | .error _ => True

theorem post_enumCaptures (ts : List F64) : (enumCaptures ts).Post (Carries ts) := by
  induction ts with
  | nil => exact rfl
  | cons t ts ih => exact Post.any fun _ => Post.bind ih fun a ha => by simp [Post, Carries, ha.symm]

theorem post_eventCaptures (fuel : Nat) (names keys : List Bytes) (ts : List F64) :
    (eventCaptures fuel names keys ts).Post (CarriesOk ts) := by
  induction ts with
  | nil => exact rfl
  | cons t ts ih =>
    refine Post.any fun x => ?_
    obtain ⟨i, _, err⟩ := x
    cases err with
    | some e => exact True.intro
    | none =>
      refine Post.any fun x => ?_
      obtain ⟨is, _, err⟩ := x
      cases err with
      | some e => exact True.intro
      | none =>
        refine Post.any fun x => ?_
        cases x with
        | error e => exact True.intro
        | ok block =>
          simp only
          split
          · exact True.intro
          · refine Post.bind ih fun a ha => ?_
            cases a with
            | error e => exact True.intro
            | ok rest => simp [Post, CarriesOk, Carries, ← show rest.map (·.1) = ts from ha]

theorem post_decRaw64 (ts : List F64) (buf : Bytes) : (decRaw64 ts buf).Post (CarriesOk ts) := by
  induction ts generalizing buf with
  | nil => exact rfl
  | cons t ts ih =>
    refine Post.any fun x => ?_
    obtain ⟨b1, err⟩ := x
    cases err with
    | some e => exact True.intro
    | none =>
      refine Post.any fun x => ?_
      obtain ⟨b2, err⟩ := x
      cases err with
      | some e => exact True.intro
      | none =>
        refine Post.any fun x => ?_
        obtain ⟨b3, err⟩ := x
        cases err with
        | some e => exact True.intro
        | none =>
          refine Post.bind (ih b3) fun a ha => ?_
          cases a with
          | error e => exact True.intro
          | ok rest => simp [Post, CarriesOk, Carries, ← show rest.map (·.1) = ts from ha]

theorem post_decRaw32 (stale : Bool) (ts : List F64) (x y z : F32) : (decRaw32 stale ts x y z).Post (Carries ts) := by
  induction ts generalizing x y z with
  | nil => exact rfl
  | cons t ts ih =>
    refine Post.any fun a => Post.any fun b => Post.any fun c => Post.bind (ih a.1 b.1 c.1) fun r hr => ?_
    simp [Post, Carries, ← show r.map (·.1) = ts from hr]

theorem post_decRaw16Loop (ts : List F64) (buf : Bytes) : (decRaw16Loop ts buf).Post (Carries ts) := by
  induction ts generalizing buf with
  | nil => exact rfl
  | cons t ts ih =>
    refine Post.any fun a => Post.any fun b => Post.any fun c => Post.bind (ih c.1) fun r hr => ?_
    simp [Post, Carries, ← show r.map (·.1) = ts from hr]

theorem post_ok {α : Type} {ts : List F64} {p : Prog (List (F64 × α))} (h : p.Post (Carries ts)) :
    (p.bind fun caps => Prog.pure (.ok caps : Except Err (List (F64 × α)))).Post (CarriesOk ts) :=
  Post.bind h fun _ ha => ha

theorem post_single {t : F64} : (Prog.bind readV32 fun x => match x.2 with
    | some e => Prog.pure (.error e : Except Err (List (F64 × V3)))
    | none => Prog.pure (.ok [(t, x.1)])).Post (CarriesOk [t]) := by
  refine Post.any fun x => ?_
  obtain ⟨v, err⟩ := x
  cases err with
  | some e => exact True.intro
  | none => exact rfl

theorem post_decRaw16 (ts : List F64) : (decRaw16 ts).Post (CarriesOk ts) := by
  match ts with
  | [] => exact post_ok (post_decRaw16Loop [] _)
  | [t] => exact post_single
  | t :: u :: ts => exact post_ok (post_decRaw16Loop _ _)

theorem post_octDecodeLoop (min max : V3) (ts : List F64) (cur : V3) (buf : Bytes) :
    (octDecodeLoop min max ts cur buf).Post (Carries ts) := by
  induction ts generalizing cur buf with
  | nil => exact rfl
  | cons t ts ih =>
    refine Post.any fun a => Post.bind (ih _ _) fun r hr => ?_
    simp [Post, Carries, ← show r.map (·.1) = ts from hr]

theorem post_decOct (n : Nat) (ts : List F64) : (decOct n ts).Post (CarriesOk ts) := by
  match ts with
  | [] => exact rfl
  | [t] => exact post_single
  | t :: u :: ts =>
    refine Post.any fun a => Post.any fun b => Post.any fun c => Post.bind (post_octDecodeLoop _ _ _ _ _) fun r hr => ?_
    obtain ⟨v, err⟩ := c
    cases err with
    | some e => exact True.intro
    | none => simp [Post, CarriesOk, Carries, ← show r.map (·.1) = u :: ts from hr]

theorem post_positionCaptures (ts : List F64) : (positionCaptures ts).Post (CarriesOk ts) := by
  intro got err
  cases err with
  | some e => exact True.intro
  | none =>
    simp only
    split
    · exact post_decRaw64 _ _
    · split
      · exact post_ok (post_decRaw32 _ _ _ _ _)
      · split
        · exact post_decOct _ _
        · split
          · exact post_decOct _ _
          · exact True.intro

theorem post_eulerCaptures (ts : List F64) : (eulerCaptures ts).Post (CarriesOk ts) := by
  intro got err
  cases err with
  | some e => exact True.intro
  | none =>
    simp only
    split
    · exact post_decRaw64 _ _
    · split
      · exact post_ok (post_decRaw32 _ _ _ _ _)
      · split
        · exact post_decRaw16 _
        · exact True.intro

theorem post_floatDec64 (ts : List F64) (v : F64) : (floatDec64 ts v).Post (Carries ts) := by
  induction ts generalizing v with
  | nil => exact rfl
  | cons t ts ih =>
    intro b e
    refine Post.bind (ih _) fun r hr => ?_
    simp [Post, Carries, ← show r.map (·.1) = ts from hr]

theorem post_floatDec32 (ts : List F64) (v : F32) : (floatDec32 ts v).Post (Carries ts) := by
  induction ts generalizing v with
  | nil => exact rfl
  | cons t ts ih =>
    refine Post.any fun x => Post.bind (ih _) fun r hr => ?_
    simp [Post, Carries, ← show r.map (·.1) = ts from hr]

theorem post_floatDecBst (ts : List F64) : (floatDecBst ts).Post (Carries ts) := by
  refine Post.any fun x => Post.any fun y => ?_
  have : ∀ ts buf, (floatDecBstLoop x.1 y.1 ts buf).Post (Carries ts) := by
    intro ts
    induction ts with
    | nil => intro _; exact rfl
    | cons t ts ih =>
      intro buf
      refine Post.any fun a => Post.bind (ih _) fun r hr => ?_
      simp [Post, Carries, ← show r.map (·.1) = ts from hr]
  exact this ts _

end Rap
