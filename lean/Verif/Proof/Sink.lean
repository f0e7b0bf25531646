import Verif.Spec.Recording

/-! # Reasoning about writer programs -/

namespace Rap
namespace WProg

variable {α β σ τ : Type}

@[simp] theorem pure_eq (a : α) : (Pure.pure a : WProg α) = WProg.pure a := rfl
@[simp] theorem bind_eq (p : WProg α) (f : α → WProg β) : (p >>= f) = p.bind f := rfl
@[simp] theorem pure_bind' (a : α) (f : α → WProg β) : (WProg.pure a).bind f = f a := rfl
@[simp] theorem panic_bind' (x : Panic) (f : α → WProg β) : (WProg.panic x : WProg α).bind f = .panic x := rfl
@[simp] theorem write_bind' (b : Bytes) (k : Nat → Option Err → WProg α) (f : α → WProg β) :
    (WProg.write b k).bind f = .write b fun n e => (k n e).bind f := rfl
@[simp] theorem err_bind' (k : Option Err → WProg α) (f : α → WProg β) :
    (WProg.err k).bind f = .err fun e => (k e).bind f := rfl

/-- The semantics in which every write succeeds: result and the list of writes. -/
def emit : WProg α → Go (α × List Bytes)
  | .pure a => .ok (a, [])
  | .panic p => .error p
  | .write b k =>
    match (k b.length none).emit with
    | .ok (a, ws) => .ok (a, b :: ws)
    | .error p => .error p
  | .err k => (k none).emit

/-- All writes succeeding, `p` returns `a` having written `d`. -/
def Emits (p : WProg α) (a : α) (d : Bytes) : Prop := ∃ ws, p.emit = .ok (a, ws) ∧ ws.flatten = d

theorem emit_bind (p : WProg α) (f : α → WProg β) :
    (p.bind f).emit = match p.emit with
      | .error x => .error x
      | .ok (a, ws) => match (f a).emit with
        | .error x => .error x
        | .ok (b, ws') => .ok (b, ws ++ ws') := by
  induction p with
  | pure a =>
    simp only [pure_bind', emit]
    cases (f a).emit <;> rfl
  | panic x => rfl
  | write b k ih =>
    simp only [write_bind', emit, ih]
    cases (k b.length none).emit with
    | error x => rfl
    | ok r =>
      obtain ⟨a, ws⟩ := r
      simp only
      cases (f a).emit <;> rfl
  | err k ih => simp only [err_bind', emit, ih]

theorem Emits.pure (a : α) : Emits (.pure a) a [] := ⟨[], rfl, rfl⟩

theorem Emits.bind {p : WProg α} {f : α → WProg β} {a : α} {b : β} {d d' : Bytes} (h : Emits p a d)
    (h' : Emits (f a) b d') : Emits (p.bind f) b (d ++ d') := by
  obtain ⟨ws, h1, rfl⟩ := h
  obtain ⟨ws', h2, rfl⟩ := h'
  refine ⟨ws ++ ws', ?_, by simp⟩
  rw [emit_bind, h1]
  simp only [h2]

theorem Emits.put (b : Bytes) : Emits (WProg.put b) (b.length, none) b := ⟨[b], rfl, by simp⟩

theorem Emits.ofGo {x : Go α} {a : α} (h : x = .ok a) : Emits (WProg.ofGo x) a [] := by
  subst h; exact ⟨[], rfl, rfl⟩

theorem Emits.ofGo_bind {x : Go α} {f : α → WProg β} {a : α} {b : β} {d : Bytes} (h : x = .ok a)
    (h' : Emits (f a) b d) : Emits ((WProg.ofGo x).bind f) b d := by
  subst h; exact h'

theorem Emits.bind_silent {p : WProg α} {f : α → WProg β} {a : α} {b : β} {d : Bytes} (h : Emits p a d)
    (h' : Emits (f a) b []) : Emits (p.bind f) b d := by
  have := Emits.bind h h'
  rwa [List.append_nil] at this

theorem Emits.err {k : Option Err → WProg α} {a : α} {d : Bytes} (h : Emits (k none) a d) : Emits (.err k) a d := h

theorem Emits.det {p : WProg α} {a a' : α} {d d' : Bytes} (h : Emits p a d) (h' : Emits p a' d') :
    a = a' ∧ d = d' := by
  obtain ⟨ws, h1, rfl⟩ := h
  obtain ⟨ws', h2, rfl⟩ := h'
  rw [h1] at h2; cases h2; exact ⟨rfl, rfl⟩

theorem run_bind [Snk σ] (p : WProg α) (f : α → WProg β) (s : EW σ) :
    (p.bind f).run s = (p.run s).bind fun r => (f r.1).run r.2 := by
  induction p generalizing s with
  | pure a => rfl
  | panic x => rfl
  | write b k ih => simp only [write_bind', run, ih]
  | err k ih => simp only [err_bind', run, ih]

/-- Once the `errWriter` has failed nothing reaches the output any more. -/
theorem run_failed [Snk σ] (p : WProg α) (s : EW σ) (e : Err) (h : s.err = some e) (a : α) (s' : EW σ)
    (hr : p.run s = .ok (a, s')) : s' = s := by
  induction p generalizing s with
  | pure a => simp only [run, Except.ok.injEq, Prod.mk.injEq] at hr; exact hr.2.symm
  | panic x => simp [run] at hr
  | write b k ih =>
    simp only [run, EW.write, h] at hr
    exact ih _ _ _ h hr
  | err k ih =>
    simp only [run] at hr
    exact ih _ _ h hr

/-- An `errWriter` around an `errWriter` that has the same error adds nothing: the program returns the same and leaves the
inner one as if it had written to it directly, and the two errors stay the same. -/
theorem nested_errWriter [Snk σ] (p : WProg α) (c : EW (EW σ)) (h : c.err = c.sink.err) :
    (∀ x, p.run c.sink = .error x → p.run c = .error x) ∧
    ∀ a s', p.run c.sink = .ok (a, s') → ∃ c', p.run c = .ok (a, c') ∧ c'.sink = s' ∧ c'.err = s'.err := by
  induction p generalizing c with
  | pure a =>
    refine ⟨fun x hx => (by simp [run] at hx), fun a' s' hr => ?_⟩
    simp only [run, Except.ok.injEq, Prod.mk.injEq] at hr
    obtain ⟨rfl, rfl⟩ := hr
    exact ⟨c, rfl, rfl, h⟩
  | panic x =>
    refine ⟨fun y hy => by simpa [run] using hy, fun a' s' hr => ?_⟩
    simp [run] at hr
  | write b k ih =>
    have key : ∀ n e s', EW.write b c.sink = (n, e, s') → ∃ c', EW.write b c = (n, e, c') ∧ c'.sink = s' ∧
        c'.err = s'.err := by
      intro n e s' hw
      cases hc : c.err with
      | some x =>
        rw [hc] at h
        simp only [EW.write, ← h, Prod.mk.injEq] at hw
        obtain ⟨rfl, rfl, rfl⟩ := hw
        exact ⟨c, by simp only [EW.write, hc], rfl, by rw [hc, h]⟩
      | none =>
        rw [hc] at h
        refine ⟨⟨s', e, c.n + n⟩, ?_, rfl, ?_⟩
        · simp only [EW.write, hc]
          have hw' : Snk.write b c.sink = (n, e, s') := hw
          rw [hw']
        · simp only [EW.write, ← h] at hw
          simp only [Prod.mk.injEq] at hw
          obtain ⟨_, rfl, rfl⟩ := hw
          rfl
    rcases hw : EW.write b c.sink with ⟨n, e, s'⟩
    obtain ⟨c', hc', rfl, he'⟩ := key n e s' hw
    simp only [run, hc', hw]
    exact ih n e c' he'
  | err k ih =>
    simp only [run]
    rw [← h]
    exact ih _ c h

/-- The Go code starts a new `errWriter` for a child: it begins with a write, whose result it ignores, so it makes no
difference that the new one does not know of an earlier failure. -/
theorem nested_errWriter_new [Snk σ] (b : Bytes) (p : WProg α) (s : EW σ) :
    (∀ x, (WProg.write b fun _ _ => p).run s = .error x → (WProg.write b fun _ _ => p).run (EW.new s) = .error x) ∧
    ∀ a s', (WProg.write b fun _ _ => p).run s = .ok (a, s') →
      ∃ c', (WProg.write b fun _ _ => p).run (EW.new s) = .ok (a, c') ∧ c'.sink = s' ∧ c'.err = s'.err := by
  have key : (EW.write b (EW.new s)).2.2.sink = (EW.write b s).2.2 ∧
      (EW.write b (EW.new s)).2.2.err = (EW.write b (EW.new s)).2.2.sink.err := by
    have hn : EW.write b (EW.new s) = ((EW.write b s).1, (EW.write b s).2.1,
        ⟨(EW.write b s).2.2, (EW.write b s).2.1, 0 + (EW.write b s).1⟩) := rfl
    rw [hn]
    refine ⟨rfl, ?_⟩
    simp only [EW.write]
    cases hs : s.err with
    | some x => simp only [hs]
    | none => simp only
  have h2 := nested_errWriter p (EW.write b (EW.new s)).2.2 key.2
  rw [key.1] at h2
  exact h2

end WProg

/-- A sink on which the listed writes all succeed, one after another, leading from `s` to `s'`. -/
inductive Takes {σ : Type} [Snk σ] : σ → List Bytes → σ → Prop where
  | nil (s) : Takes s [] s
  | cons (s b ws s') : (Snk.write b s).1 = b.length → (Snk.write b s).2.1 = none →
      Takes (Snk.write b s).2.2 ws s' → Takes s (b :: ws) s'

theorem Takes.append {σ : Type} [Snk σ] {s s' s'' : σ} {ws ws' : List Bytes} (h : Takes s ws s')
    (h' : Takes s' ws' s'') : Takes s (ws ++ ws') s'' := by
  induction h with
  | nil s => exact h'
  | cons s b ws s' h1 h2 _ ih => exact .cons s b _ _ h1 h2 (ih h')

theorem Takes.buf (s : Buf) (ws : List Bytes) : Takes s ws ⟨s.bytes ++ ws.flatten⟩ := by
  induction ws generalizing s with
  | nil => simp only [List.flatten_nil, List.append_nil]; exact .nil s
  | cons b ws ih =>
    refine .cons s b ws _ rfl rfl ?_
    have := ih ⟨s.bytes ++ b⟩
    simp only [List.append_assoc] at this
    exact this

/-- If the sink takes all writes of a program, an `errWriter` on it runs as `emit` says. -/
theorem WProg.run_takes {α σ : Type} [Snk σ] (p : WProg α) (a : α) (ws : List Bytes) (s s' : σ) (n : Nat)
    (h : p.emit = .ok (a, ws)) (ht : Takes s ws s') :
    p.run (⟨s, none, n⟩ : EW σ) = .ok (a, ⟨s', none, n + ws.flatten.length⟩) := by
  induction p generalizing s n ws with
  | pure a =>
    simp only [emit, Except.ok.injEq, Prod.mk.injEq] at h
    obtain ⟨rfl, rfl⟩ := h
    cases ht
    simp [run]
  | panic x => simp [emit] at h
  | write b k ih =>
    simp only [emit] at h
    cases hk : (k b.length none).emit with
    | error x => rw [hk] at h; simp at h
    | ok r =>
      obtain ⟨a', ws'⟩ := r
      rw [hk] at h
      simp only [Except.ok.injEq, Prod.mk.injEq] at h
      obtain ⟨rfl, rfl⟩ := h
      cases ht with
      | cons _ _ _ _ h1 h2 h3 =>
        simp only [run, EW.write]
        rcases hw : Snk.write b s with ⟨n1, e1, s1⟩
        rw [hw] at h1 h2 h3
        simp only at h1 h2 h3
        subst h1 h2
        simp only
        rw [ih b.length none ws' s1 (n + b.length) hk h3]
        simp [Nat.add_assoc]
  | err k ih =>
    simp only [emit] at h
    simp only [run]
    exact ih none ws s n h ht

theorem Takes.ew {σ : Type} [Snk σ] {s s' : σ} {ws : List Bytes} (h : Takes s ws s') (n : Nat) :
    Takes (⟨s, none, n⟩ : EW σ) ws ⟨s', none, n + ws.flatten.length⟩ := by
  induction h generalizing n with
  | nil s => simp only [List.flatten_nil, List.length_nil, Nat.add_zero]; exact .nil _
  | cons s b ws s' h1 h2 h3 ih =>
    refine .cons _ _ _ _ ?_ ?_ ?_
    · simp only [Snk.write, EW.write]; exact h1
    · simp only [Snk.write, EW.write]; exact h2
    · have := ih (n + b.length)
      simp only [List.flatten_cons, List.length_append, ← Nat.add_assoc]
      have he : (Snk.write b (⟨s, none, n⟩ : EW σ)).2.2 = ⟨(Snk.write b s).2.2, none, n + b.length⟩ := by
        simp only [Snk.write, EW.write]
        rw [h1, h2]
      rw [he]
      exact this

/-- All pieces a list of `flate` writes produces, without the closing ones. -/
def Flate.pieces (F : Flate) : F.S → List Bytes → List Bytes × F.S
  | s, [] => ([], s)
  | s, w :: ws => ((F.step s w).1 ++ (F.pieces (F.step s w).2 ws).1, (F.pieces (F.step s w).2 ws).2)

theorem Flate.output_eq (F : Flate) (s : F.S) (ws : List Bytes) :
    F.output s ws = (F.pieces s ws).1.flatten ++ (F.close (F.pieces s ws).2).flatten := by
  induction ws generalizing s with
  | nil => simp [Flate.output, Flate.pieces]
  | cons w ws ih => simp [Flate.output, Flate.pieces, ih]

theorem writeAll_buf (ps : List Bytes) (s : Buf) : writeAll ps s = (none, ⟨s.bytes ++ ps.flatten⟩) := by
  induction ps generalizing s with
  | nil => simp [writeAll]
  | cons p ps ih =>
    simp only [writeAll, Snk.write]
    rw [ih]; simp

theorem Takes.fw (F : Flate) (s : Buf) (st : F.S) (ws : List Bytes) :
    Takes (⟨s, st, none⟩ : FW F Buf) ws
      ⟨⟨s.bytes ++ (F.pieces st ws).1.flatten⟩, (F.pieces st ws).2, none⟩ := by
  induction ws generalizing s st with
  | nil => simp only [Flate.pieces, List.flatten_nil, List.append_nil]; exact .nil _
  | cons w ws ih =>
    refine .cons _ _ _ _ ?_ ?_ ?_
    · simp [Snk.write, FW.write, writeAll_buf]
    · simp [Snk.write, FW.write, writeAll_buf]
    · have := ih ⟨s.bytes ++ (F.step st w).1.flatten⟩ (F.step st w).2
      simp only [Snk.write, FW.write, writeAll_buf, Flate.pieces, List.flatten_append]
      simp only [List.append_assoc] at this
      exact this

end Rap
