import Verif.Proof.File
import Verif.Spec.Query

/-!
# Writing to an output that may fail

A run on an output that may fail is compared with the run on a `Buf`, which never does.
-/

namespace Rap

/-- `w` follows `v`, a writer that never fails, until its first error. `R` relates the two before the error, `D` (with the
error) after it, while `v` goes on. -/
structure Follows {ω υ : Type} [Snk ω] [Snk υ] (R : ω → υ → Prop) (D : ω → Err → υ → Prop) : Prop where
  good : ∀ b w v, R w v → (Snk.write b v).2.1 = none
  step : ∀ b w v, R w v → (Snk.write b w).2.1 = none →
    (Snk.write b w).1 = (Snk.write b v).1 ∧ R (Snk.write b w).2.2 (Snk.write b v).2.2
  fail : ∀ b w v x, R w v → (Snk.write b w).2.1 = some x → D (Snk.write b w).2.2 x (Snk.write b v).2.2
  stay : ∀ b w v x, D w x v → D w x (Snk.write b v).2.2 ∧ (Snk.write b v).2.1 = none

section
variable {ω υ : Type} [Snk ω] [Snk υ] {R : ω → υ → Prop} {D : ω → Err → υ → Prop}

theorem Follows.ew (h : Follows R D) :
    Follows (fun (w : EW ω) (v : EW υ) => w.err = none ∧ v.err = none ∧ w.n = v.n ∧ R w.sink v.sink)
      (fun w x v => w.err = some x ∧ v.err = none ∧ D w.sink x v.sink) where
  good b w v hr := by
    obtain ⟨_, h2, _, h4⟩ := hr
    have := h.good b _ _ h4
    simp only [Snk.write, EW.write, h2]
    exact this
  step b w v hr hn := by
    obtain ⟨h1, h2, h3, h4⟩ := hr
    have hg := h.good b _ _ h4
    have hn' : (Snk.write b w.sink).2.1 = none := by simpa only [Snk.write, EW.write, h1] using hn
    obtain ⟨e1, e2⟩ := h.step b _ _ h4 hn'
    simp only [Snk.write, EW.write, h1, h2]
    exact ⟨e1, hn', hg, by rw [h3, e1], e2⟩
  fail b w v x hr hn := by
    obtain ⟨h1, h2, h3, h4⟩ := hr
    have hg := h.good b _ _ h4
    have hn' : (Snk.write b w.sink).2.1 = some x := by simpa only [Snk.write, EW.write, h1] using hn
    have e1 := h.fail b _ _ x h4 hn'
    simp only [Snk.write, EW.write, h1, h2]
    exact ⟨hn', hg, e1⟩
  stay b w v x hd := by
    obtain ⟨h1, h2, h3⟩ := hd
    obtain ⟨e1, e2⟩ := h.stay b _ _ _ h3
    simp only [Snk.write, EW.write, h2]
    exact ⟨⟨h1, e2, e1⟩, e2⟩

theorem Follows.writeAll (h : Follows R D) (ps : List Bytes) (w : ω) (v : υ) (hr : R w v) :
    (Rap.writeAll ps v).1 = none ∧
    ((Rap.writeAll ps w).1 = none → R (Rap.writeAll ps w).2 (Rap.writeAll ps v).2) ∧
    ∀ x, (Rap.writeAll ps w).1 = some x → D (Rap.writeAll ps w).2 x (Rap.writeAll ps v).2 := by
  have stay : ∀ (ps : List Bytes) (w : ω) (x : Err) (v : υ), D w x v →
      D w x (Rap.writeAll ps v).2 ∧ (Rap.writeAll ps v).1 = none := by
    intro ps
    induction ps with
    | nil => intro w x v hd; exact ⟨hd, rfl⟩
    | cons p ps ih =>
      intro w x v hd
      obtain ⟨e1, e2⟩ := h.stay p _ _ _ hd
      simp only [Rap.writeAll]
      rcases hv : Snk.write p v with ⟨n, e, v'⟩
      rw [hv] at e1 e2
      simp only at e1 e2
      subst e2
      exact ih _ _ _ e1
  induction ps generalizing w v with
  | nil => exact ⟨rfl, fun _ => hr, fun x hx => by simp [Rap.writeAll] at hx⟩
  | cons p ps ih =>
    have hg := h.good p _ _ hr
    have hs := h.step p _ _ hr
    have hf := fun x => h.fail p _ _ x hr
    simp only [Rap.writeAll]
    rcases hv : Snk.write p v with ⟨n, e, v'⟩
    rcases hw : Snk.write p w with ⟨n1, e1, w'⟩
    rw [hv] at hg hs hf
    rw [hw] at hs hf
    simp only at hg hs hf
    subst hg
    cases e1 with
    | none => exact ih _ _ (hs rfl).2
    | some x =>
      simp only
      obtain ⟨e1, e2⟩ := stay ps _ _ _ (hf x rfl)
      refine ⟨e2, fun hx => by simp at hx, fun y hy => ?_⟩
      simp only [Option.some.injEq] at hy
      subst hy
      exact e1

theorem Follows.fw (h : Follows R D) (F : Flate) :
    Follows (fun (w : FW F ω) (v : FW F υ) => w.err = none ∧ v.err = none ∧ w.st = v.st ∧ R w.sink v.sink)
      (fun w x v => w.err = some x ∧ v.err = none ∧ D w.sink x v.sink) := by
  have stay : ∀ (ps : List Bytes) (w : ω) (x : Err) (v : υ), D w x v →
      D w x (Rap.writeAll ps v).2 ∧ (Rap.writeAll ps v).1 = none := by
    intro ps
    induction ps with
    | nil => intro w x v hd; exact ⟨hd, rfl⟩
    | cons p ps ih =>
      intro w x v hd
      obtain ⟨e1, e2⟩ := h.stay p _ _ _ hd
      simp only [Rap.writeAll]
      rcases hv : Snk.write p v with ⟨n, e, v'⟩
      rw [hv] at e1 e2
      simp only at e1 e2
      subst e2
      exact ih _ _ _ e1
  refine ⟨?_, ?_, ?_, ?_⟩
  · intro b w v ⟨h1, h2, h3, h4⟩
    have := (h.writeAll (F.step v.st b).1 _ _ h4).1
    simp only [Snk.write, FW.write, h2]
    rcases hv : Rap.writeAll (F.step v.st b).1 v.sink with ⟨e, s⟩
    rw [hv] at this
    simp only at this
    subst this
    rfl
  · intro b w v ⟨h1, h2, h3, h4⟩ hn
    obtain ⟨k1, k2, k3⟩ := h.writeAll (F.step v.st b).1 _ _ h4
    simp only [Snk.write, FW.write, h1, h2, h3] at hn ⊢
    rcases hv : Rap.writeAll (F.step v.st b).1 v.sink with ⟨e, s⟩
    rcases hw : Rap.writeAll (F.step v.st b).1 w.sink with ⟨e', s'⟩
    rw [hv] at k1 k2 k3
    rw [hw] at k2 k3 hn
    simp only at k1 k2 k3
    subst k1
    cases e' with
    | some x => simp at hn
    | none => exact ⟨rfl, rfl, rfl, rfl, k2 rfl⟩
  · intro b w v x ⟨h1, h2, h3, h4⟩ hn
    obtain ⟨k1, k2, k3⟩ := h.writeAll (F.step v.st b).1 _ _ h4
    simp only [Snk.write, FW.write, h1, h2, h3] at hn ⊢
    rcases hv : Rap.writeAll (F.step v.st b).1 v.sink with ⟨e, s⟩
    rcases hw : Rap.writeAll (F.step v.st b).1 w.sink with ⟨e', s'⟩
    rw [hv] at k1 k2 k3
    rw [hw] at k2 k3 hn
    simp only at k1 k2 k3
    subst k1
    cases e' with
    | some y =>
      simp only [Option.some.injEq] at hn
      subst hn
      exact ⟨rfl, rfl, k3 _ rfl⟩
    | none => simp at hn
  · intro b w v x ⟨h1, h2, h3⟩
    obtain ⟨e1, e2⟩ := stay (F.step v.st b).1 _ _ _ h3
    simp only [Snk.write, FW.write, h2]
    rcases hv : Rap.writeAll (F.step v.st b).1 v.sink with ⟨e, s⟩
    rw [hv] at e1 e2
    simp only at e1 e2
    subst e2
    exact ⟨⟨h1, rfl, e1⟩, rfl⟩

/-- Once `w` has failed, whatever `v` still does. -/
theorem Follows.run_stay {α : Type} (h : Follows R D) (p : WProg α) (w : ω) (x : Err) (v : EW υ) (hv : v.err = none)
    (hd : D w x v.sink) (a : α) (v' : EW υ) (hr : p.run v = .ok (a, v')) : v'.err = none ∧ D w x v'.sink := by
  induction p generalizing v with
  | pure a =>
    simp only [WProg.run, Except.ok.injEq, Prod.mk.injEq] at hr
    obtain ⟨rfl, rfl⟩ := hr
    exact ⟨hv, hd⟩
  | panic y => simp [WProg.run] at hr
  | write b k ih =>
    obtain ⟨e1, e2⟩ := h.stay b _ _ _ hd
    simp only [WProg.run, EW.write, hv] at hr
    exact ih _ _ _ e2 e1 hr
  | err k ih => exact ih _ _ hv hd hr

/-- Running the same program on both: until an error both do the same, afterwards `w` is left alone. -/
theorem Follows.run {α : Type} (h : Follows R D) (p : WProg α) (w : EW ω) (v : EW υ) (hw : w.err = none)
    (hv : v.err = none) (hn : w.n = v.n) (hr : R w.sink v.sink) :
    (∀ a w', p.run w = .ok (a, w') → w'.err = none →
      ∃ v', p.run v = .ok (a, v') ∧ v'.err = none ∧ w'.n = v'.n ∧ R w'.sink v'.sink) ∧
    (∀ a w' x, p.run w = .ok (a, w') → w'.err = some x → ∀ a' v', p.run v = .ok (a', v') → D w'.sink x v'.sink) ∧
    (∀ a w' x, p.run w = .ok (a, w') → w'.err = some x → ∃ v0, D w'.sink x v0) := by
  induction p generalizing w v with
  | pure a =>
    have hno : ∀ a' w' x, (WProg.pure a).run w = .ok (a', w') → w'.err = some x → False := by
      intro a' w' x hp he
      simp only [WProg.run, Except.ok.injEq, Prod.mk.injEq] at hp
      obtain ⟨rfl, rfl⟩ := hp
      rw [hw] at he; simp at he
    refine ⟨?_, fun a' w' x hp he => (hno _ _ _ hp he).elim, fun a' w' x hp he => (hno _ _ _ hp he).elim⟩
    · intro a' w' hp _
      simp only [WProg.run, Except.ok.injEq, Prod.mk.injEq] at hp
      obtain ⟨rfl, rfl⟩ := hp
      exact ⟨v, rfl, hv, hn, hr⟩
  | panic y =>
    exact ⟨fun a w' hp => by simp [WProg.run] at hp, fun a w' x hp => by simp [WProg.run] at hp,
      fun a w' x hp => by simp [WProg.run] at hp⟩
  | write b k ih =>
    have hg := h.good b _ _ hr
    have hs := h.step b _ _ hr
    have hf := fun x => h.fail b _ _ x hr
    simp only [WProg.run, EW.write, hw, hv]
    rcases hv' : Snk.write b v.sink with ⟨n, e, v'⟩
    rcases hw' : Snk.write b w.sink with ⟨n1, e1, w'⟩
    rw [hv'] at hg hs hf
    rw [hw'] at hs hf
    simp only at hg hs hf
    subst hg
    cases e1 with
    | none =>
      obtain ⟨rfl, hR⟩ := hs rfl
      exact ih _ _ _ _ rfl rfl (by simp [hn]) hR
    | some x =>
      have hD := hf x rfl
      have hsame : ∀ a w'', (k n1 (some x)).run (⟨w', some x, w.n + n1⟩ : EW ω) = .ok (a, w'') →
          w'' = ⟨w', some x, w.n + n1⟩ := fun a w'' hp => WProg.run_failed _ _ x rfl _ _ hp
      refine ⟨?_, ?_, ?_⟩
      · intro a w'' hp he
        rw [hsame _ _ hp] at he; simp at he
      · intro a w'' y hp he a' v'' hq
        rw [hsame _ _ hp] at he ⊢
        simp only [Option.some.injEq] at he
        subst he
        exact (h.run_stay _ _ _ _ rfl hD _ _ hq).2
      · intro a w'' y hp he
        rw [hsame _ _ hp] at he ⊢
        simp only [Option.some.injEq] at he
        subst he
        exact ⟨_, hD⟩
  | err k ih =>
    simp only [WProg.run, hw, hv]
    exact ih none w v hw hv hn hr

/-- Results of the same function on both: the same as long as there was no error, otherwise that error. -/
def Agree {α : Type} (R : ω → υ → Prop) (D : ω → Err → υ → Prop) (W : Go (Nat × Except Err α × ω))
    (V : Go (Nat × Except Err α × υ)) : Prop :=
  ∀ n r w, W = .ok (n, r, w) → (∃ v, V = .ok (n, r, v) ∧ R w v) ∨
    ∃ x, r = .error x ∧ (∃ v, D w x v) ∧ ∀ n' r' v, V = .ok (n', r', v) → D w x v

theorem Follows.headers_stay (h : Follows R D) (ms : List Mapping) (k : Nat) (acc : List Bytes × List Nat) (t : Nat)
    (w : ω) (x : Err) (v : υ) (hd : D w x v) (n : Nat) (r : Except Err (List Bytes × List Nat)) (v' : υ)
    (hv : writeHeaders ms k acc t v = .ok (n, r, v')) : D w x v' := by
  induction ms generalizing k acc t v with
  | nil =>
    simp only [writeHeaders, Except.ok.injEq, Prod.mk.injEq] at hv
    obtain ⟨_, _, rfl⟩ := hv
    exact hd
  | cons m ms ih =>
    simp only [writeHeaders, bind, Except.bind] at hv
    cases he : m.encoder.encode m.colls with
    | error y => simp [he] at hv
    | ok res =>
      cases res with
      | error e =>
        simp only [he, Except.ok.injEq, Prod.mk.injEq] at hv
        obtain ⟨_, _, rfl⟩ := hv
        exact hd
      | ok hs =>
        obtain ⟨header, streams⟩ := hs
        simp only [he] at hv
        cases ha : assignBlocks k m.order streams acc with
        | error y => simp [ha] at hv
        | ok acc' =>
          simp only [ha] at hv
          obtain ⟨e1, e2⟩ := h.stay (bytesArrayToBytes header) _ _ _ hd
          rcases hw : Snk.write (bytesArrayToBytes header) v with ⟨n1, e, v1⟩
          rw [hw] at e1 e2 hv
          simp only at e1 e2
          subst e2
          exact ih _ _ _ _ e1 hv

theorem Follows.headers (h : Follows R D) (ms : List Mapping) (k : Nat) (acc : List Bytes × List Nat) (t : Nat)
    (w : ω) (v : υ) (hr : R w v) : Agree R D (writeHeaders ms k acc t w) (writeHeaders ms k acc t v) := by
  induction ms generalizing k acc t w v with
  | nil =>
    intro n r w' hw
    simp only [writeHeaders, Except.ok.injEq, Prod.mk.injEq] at hw
    obtain ⟨rfl, rfl, rfl⟩ := hw
    exact .inl ⟨v, rfl, hr⟩
  | cons m ms ih =>
    intro n r w' hw
    simp only [writeHeaders, bind, Except.bind] at hw ⊢
    cases he : m.encoder.encode m.colls with
    | error y => simp [he] at hw
    | ok res =>
      cases res with
      | error e =>
        simp only [he, Except.ok.injEq, Prod.mk.injEq] at hw ⊢
        obtain ⟨rfl, rfl, rfl⟩ := hw
        exact .inl ⟨v, ⟨rfl, rfl, rfl⟩, hr⟩
      | ok hs =>
        obtain ⟨header, streams⟩ := hs
        simp only [he] at hw ⊢
        cases ha : assignBlocks k m.order streams acc with
        | error y => simp [ha] at hw
        | ok acc' =>
          simp only [ha] at hw ⊢
          have hg := h.good (bytesArrayToBytes header) _ _ hr
          have hs := h.step (bytesArrayToBytes header) _ _ hr
          have hf := fun x => h.fail (bytesArrayToBytes header) _ _ x hr
          rcases hv' : Snk.write (bytesArrayToBytes header) v with ⟨n1, e1, v1⟩
          rcases hw' : Snk.write (bytesArrayToBytes header) w with ⟨n2, e2, w2⟩
          rw [hv'] at hg hs hf
          rw [hw'] at hs hf hw
          simp only at hg hs hf hw ⊢
          subst hg
          cases e2 with
          | none =>
            obtain ⟨rfl, hR⟩ := hs rfl
            exact ih _ _ _ _ _ hR _ _ _ hw
          | some x =>
            simp only [Except.ok.injEq, Prod.mk.injEq] at hw
            obtain ⟨_, rfl, rfl⟩ := hw
            exact .inr ⟨x, rfl, ⟨_, hf x rfl⟩, fun n' r' v' hv2 => h.headers_stay _ _ _ _ _ _ _ (hf x rfl) _ _ _ hv2⟩

end

/-- The same for `Write` itself, which returns the error as `error`. -/
def Agrees {σ τ : Type} (R : σ → τ → Prop) (D : σ → Err → τ → Prop) (W : Go (Nat × Option Err × σ))
    (V : Go (Nat × Option Err × τ)) : Prop :=
  ∀ n e w, W = .ok (n, e, w) → (∃ v, V = .ok (n, e, v) ∧ R w v) ∨
    ∃ x, e = some x ∧ (∃ v, D w x v) ∧ ∀ n' e' v, V = .ok (n', e', v) → D w x v

/-- What closing does, and where the bytes are. -/
structure Closes {ω υ σ τ : Type} [Snk σ] [Snk τ] [WC ω σ] [WC υ τ] (R : ω → υ → Prop) (D : ω → Err → υ → Prop)
    (R0 : σ → τ → Prop) (D0 : σ → Err → τ → Prop) : Prop extends Follows R D where
  underR : ∀ w v, R w v → R0 (WC.under w) (WC.under v)
  underD : ∀ w x v, D w x v → D0 (WC.under w) x (WC.under v)
  closeR : ∀ w v, R w v → (WC.close v).1 = none ∧
    ((WC.close w).1 = none → R0 (WC.close w).2 (WC.close v).2) ∧
    ∀ x, (WC.close w).1 = some x → D0 (WC.close w).2 x (WC.close v).2
  closeD : ∀ w x v, D w x v → D0 (WC.under w) x (WC.close v).2

section
variable {σ τ : Type} [Snk σ] [Snk τ] {R0 : σ → τ → Prop} {D0 : σ → Err → τ → Prop}

theorem Closes.ew (h : Follows R0 D0) :
    Closes (ω := EW σ) (υ := EW τ) (fun w v => w.err = none ∧ v.err = none ∧ w.n = v.n ∧ R0 w.sink v.sink)
      (fun w x v => w.err = some x ∧ v.err = none ∧ D0 w.sink x v.sink) R0 D0 where
  toFollows := h.ew
  underR w v hr := hr.2.2.2
  underD w x v hd := hd.2.2
  closeR w v hr := by
    obtain ⟨h1, h2, h3, h4⟩ := hr
    refine ⟨h2, fun _ => h4, fun x hx => ?_⟩
    simp only [WC.close, h1] at hx
    simp at hx
  closeD w x v hd := hd.2.2

theorem Closes.fw (h : Follows R0 D0) (F : Flate) :
    Closes (ω := FW F σ) (υ := FW F τ) (fun w v => w.err = none ∧ v.err = none ∧ w.st = v.st ∧ R0 w.sink v.sink)
      (fun w x v => w.err = some x ∧ v.err = none ∧ D0 w.sink x v.sink) R0 D0 where
  toFollows := h.fw F
  underR w v hr := hr.2.2.2
  underD w x v hd := hd.2.2
  closeR w v hr := by
    obtain ⟨h1, h2, h3, h4⟩ := hr
    simp only [WC.close, h1, h2, h3]
    exact h.writeAll _ _ _ h4
  closeD w x v hd := by
    obtain ⟨h1, h2, h3⟩ := hd
    simp only [WC.close, h2, WC.under]
    generalize F.close v.st = ps
    generalize v.sink = s at h3
    induction ps generalizing s with
    | nil => exact h3
    | cons p ps ih =>
      obtain ⟨e1, e2⟩ := h.stay p _ _ _ h3
      simp only [Rap.writeAll]
      rcases hv : Snk.write p s with ⟨n, e, v'⟩
      rw [hv] at e1 e2
      simp only at e1 e2
      subst e2
      exact ih _ e1

theorem Follows.versions_stay (h : Follows R0 D0) (ms : List Mapping) (t : Nat) (w : σ) (x : Err) (v : τ)
    (hd : D0 w x v) : D0 w x (writeVersions ms t v).2.2 ∧ (writeVersions ms t v).2.1 = none := by
  induction ms generalizing t v with
  | nil => exact ⟨hd, rfl⟩
  | cons m ms ih =>
    obtain ⟨e1, e2⟩ := h.stay (putUvarint (u64 m.encoder.version)) _ _ _ hd
    simp only [writeVersions]
    rcases hv : Snk.write (putUvarint (u64 m.encoder.version)) v with ⟨n, e, v'⟩
    rw [hv] at e1 e2
    simp only at e1 e2
    subst e2
    exact ih _ _ e1

theorem Follows.versions (h : Follows R0 D0) (ms : List Mapping) (t : Nat) (w : σ) (v : τ) (hr : R0 w v) :
    (writeVersions ms t v).2.1 = none ∧
    ((writeVersions ms t w).2.1 = none → (writeVersions ms t w).1 = (writeVersions ms t v).1 ∧
      R0 (writeVersions ms t w).2.2 (writeVersions ms t v).2.2) ∧
    ∀ x, (writeVersions ms t w).2.1 = some x → D0 (writeVersions ms t w).2.2 x (writeVersions ms t v).2.2 := by
  induction ms generalizing t w v with
  | nil => exact ⟨rfl, fun _ => ⟨rfl, hr⟩, fun x hx => by simp [writeVersions] at hx⟩
  | cons m ms ih =>
    have hg := h.good (putUvarint (u64 m.encoder.version)) _ _ hr
    have hs := h.step (putUvarint (u64 m.encoder.version)) _ _ hr
    have hf := fun x => h.fail (putUvarint (u64 m.encoder.version)) _ _ x hr
    simp only [writeVersions]
    rcases hv' : Snk.write (putUvarint (u64 m.encoder.version)) v with ⟨n1, e1, v1⟩
    rcases hw' : Snk.write (putUvarint (u64 m.encoder.version)) w with ⟨n2, e2, w2⟩
    rw [hv'] at hg hs hf
    rw [hw'] at hs hf
    simp only at hg hs hf ⊢
    subst hg
    cases e2 with
    | none =>
      obtain ⟨rfl, hR⟩ := hs rfl
      exact ih _ _ _ hR
    | some x =>
      obtain ⟨k1, k2⟩ := h.versions_stay ms (t + n1) _ _ _ (hf x rfl)
      refine ⟨k2, fun hx => by simp at hx, fun y hy => ?_⟩
      simp only [Option.some.injEq] at hy
      subst hy
      exact k1

theorem Follows.encoders_stay (h : Follows R0 D0) (ms : List Mapping) (w : σ) (x : Err) (v : τ)
    (hd : D0 w x v) : D0 w x (writeEncoders ms v).2.2 ∧ (writeEncoders ms v).2.1 = none := by
  unfold writeEncoders
  generalize stringArrayToBytes (ms.map fun m => m.encoder.sig) = b
  obtain ⟨e1, e2⟩ := h.stay b _ _ _ hd
  rcases hv : Snk.write b v with ⟨n, e, v'⟩
  rw [hv] at e1 e2
  simp only at e1 e2
  subst e2
  exact h.versions_stay _ _ _ _ _ e1

theorem Follows.encoders (h : Follows R0 D0) (ms : List Mapping) (w : σ) (v : τ) (hr : R0 w v) :
    (writeEncoders ms v).2.1 = none ∧
    ((writeEncoders ms w).2.1 = none → (writeEncoders ms w).1 = (writeEncoders ms v).1 ∧
      R0 (writeEncoders ms w).2.2 (writeEncoders ms v).2.2) ∧
    ∀ x, (writeEncoders ms w).2.1 = some x → D0 (writeEncoders ms w).2.2 x (writeEncoders ms v).2.2 := by
  unfold writeEncoders
  generalize stringArrayToBytes (ms.map fun m => m.encoder.sig) = b
  have hg := h.good b _ _ hr
  have hs := h.step b _ _ hr
  have hf := fun x => h.fail b _ _ x hr
  rcases hv' : Snk.write b v with ⟨n1, e1, v1⟩
  rcases hw' : Snk.write b w with ⟨n2, e2, w2⟩
  rw [hv'] at hg hs hf
  rw [hw'] at hs hf
  simp only at hg hs hf ⊢
  subst hg
  cases e2 with
  | none =>
    obtain ⟨rfl, hR⟩ := hs rfl
    exact h.versions _ _ _ _ hR
  | some x =>
    obtain ⟨k1, k2⟩ := h.versions_stay ms n1 _ _ _ (hf x rfl)
    refine ⟨k2, fun hx => by simp at hx, fun y hy => ?_⟩
    simp only [Option.some.injEq] at hy
    subst hy
    exact k1

end

/-- The error a tree writer returns is the one of its `errWriter`. -/
def ReportsBack {α : Type} (p : WProg (Except Err α)) : Prop :=
  ∀ (ω : Type) [Snk ω] (w : EW ω) a w', p.run w = .ok (a, w') → ∀ x, a = .error x → w'.err = some x

/-- A tree writer that returns no error has met none. -/
def Reports {α : Type} (p : WProg (Except Err α)) : Prop :=
  ∀ (ω : Type) [Snk ω] (w : EW ω) a w', p.run w = .ok (a, w') → ∀ x, w'.err = some x → a = .error x

theorem Reports.bind {α β : Type} (p : WProg β) (f : β → WProg (Except Err α)) (h : ∀ b, Reports (f b)) :
    Reports (p.bind f) := by
  intro ω _ w a w' hr
  rw [WProg.run_bind] at hr
  cases hp : p.run w with
  | error x => rw [hp] at hr; simp [Except.bind] at hr
  | ok r => rw [hp] at hr; exact h r.1 ω r.2 a w' hr

theorem ReportsBack.bind {α β : Type} (p : WProg β) (f : β → WProg (Except Err α)) (h : ∀ b, ReportsBack (f b)) :
    ReportsBack (p.bind f) := by
  intro ω _ w a w' hr
  rw [WProg.run_bind] at hr
  cases hp : p.run w with
  | error x => rw [hp] at hr; simp [Except.bind] at hr
  | ok r => rw [hp] at hr; exact h r.1 ω r.2 a w' hr

/-- If the first part fails its error is passed on at once. -/
theorem ReportsBack.tryBind {α β : Type} (p : WProg (Except Err β)) (f : Except Err β → WProg (Except Err α))
    (hp : ReportsBack p) (hf : ∀ b, ReportsBack (f (.ok b))) (he : ∀ e, f (.error e) = .pure (.error e)) :
    ReportsBack (p.bind f) := by
  intro ω _ w a w' hr
  rw [WProg.run_bind] at hr
  cases hq : p.run w with
  | error x => rw [hq] at hr; simp [Except.bind] at hr
  | ok r =>
    obtain ⟨b, w1⟩ := r
    rw [hq] at hr
    cases b with
    | ok b => exact hf b ω w1 a w' hr
    | error e =>
      simp only [Except.bind, he, WProg.run, Except.ok.injEq, Prod.mk.injEq] at hr
      obtain ⟨rfl, rfl⟩ := hr
      intro x hx
      cases hx
      exact hp ω w _ _ hq e rfl

theorem Reports.tryBind {α β : Type} (p : WProg (Except Err β)) (f : Except Err β → WProg (Except Err α))
    (hp : ReportsBack p) (hf : ∀ b, Reports (f (.ok b))) (he : ∀ e, f (.error e) = .pure (.error e)) :
    Reports (p.bind f) := by
  intro ω _ w a w' hr
  rw [WProg.run_bind] at hr
  cases hq : p.run w with
  | error x => rw [hq] at hr; simp [Except.bind] at hr
  | ok r =>
    obtain ⟨b, w1⟩ := r
    rw [hq] at hr
    cases b with
    | ok b => exact hf b ω w1 a w' hr
    | error e =>
      simp only [Except.bind, he, WProg.run, Except.ok.injEq, Prod.mk.injEq] at hr
      obtain ⟨rfl, rfl⟩ := hr
      intro x hx
      have := hp ω w _ _ hq e rfl
      rw [this] at hx
      simpa using hx

theorem reports_end (o : Nat) : Reports (.err fun e => match e with
    | some e => .pure (.error e)
    | none => .pure (.ok o)) ∧ ReportsBack (.err fun e => match e with
    | some e => .pure (.error e)
    | none => .pure (.ok o)) := by
  constructor <;> intro ω _ w a w' hr x hx <;> simp only [WProg.run] at hr <;>
    cases hw : w.err <;> rw [hw] at hr <;>
    simp only [WProg.run, Except.ok.injEq, Prod.mk.injEq] at hr <;> obtain ⟨rfl, rfl⟩ := hr <;> simp_all

mutual
theorem reportsBack_tree (T : Tables) (r : Rec) (o : Nat) : ReportsBack (recurseWrite T r o) := by
  cases r with
  | nil => intro ω _ w a w' hr; simp [recurseWrite, WProg.run] at hr
  | mk id name colls recs md bins refs =>
    simp only [recurseWrite, WProg.bind_eq]
    iterate 10 refine ReportsBack.bind _ _ fun _ => ?_
    refine ReportsBack.tryBind _ _ (reportsBack_trees T recs _) (fun b => ?_) fun e => ?_
    · exact (reports_end b).2
    · rfl
theorem reportsBack_trees (T : Tables) (rs : List Rec) (o : Nat) : ReportsBack (recurseWriteList T rs o) := by
  cases rs with
  | nil =>
    intro ω _ w a w' hr x hx
    simp only [recurseWriteList, WProg.pure_eq, WProg.run, Except.ok.injEq, Prod.mk.injEq] at hr
    rw [← hr.1] at hx; simp at hx
  | cons r rs =>
    simp only [recurseWriteList, WProg.bind_eq]
    refine ReportsBack.tryBind _ _ (reportsBack_tree T r _) (fun b => ?_) fun e => ?_
    · exact reportsBack_trees T rs b
    · rfl
end

theorem reports_tree (T : Tables) (r : Rec) (o : Nat) : Reports (recurseWrite T r o) := by
  cases r with
  | nil => intro ω _ w a w' hr; simp [recurseWrite, WProg.run] at hr
  | mk id name colls recs md bins refs =>
    simp only [recurseWrite, WProg.bind_eq]
    iterate 10 refine Reports.bind _ _ fun _ => ?_
    refine Reports.tryBind _ _ (reportsBack_trees T recs _) (fun b => ?_) fun e => ?_
    · exact (reports_end b).1
    · rfl


section
variable {ω υ σ τ : Type} [Snk σ] [Snk τ] [WC ω σ] [WC υ τ] {R : ω → υ → Prop} {D : ω → Err → υ → Prop}
  {R0 : σ → τ → Prop} {D0 : σ → Err → τ → Prop}

/-- `writeBody` after the key table. -/
def bodyEnd (p : WProg (Except Err Nat)) (total : Nat) (w : υ) : Go (Nat × Option Err × τ) :=
  match p.run (EW.new w) with
  | .error x => .error x
  | .ok (.error e, ew) => .ok (total + ew.n, some e, WC.under ew.sink)
  | .ok (.ok _, ew) => .ok (total + ew.n, WC.close ew.sink)

/-- `writeBody` after the headers. -/
def bodyTail (tech : Nat) (orders : List (List Bytes)) (rec : Rec) (total : Nat) (bi : List Bytes × List Nat) (v : υ) :
    Go (Nat × Option Err × τ) :=
  match Snk.write (stringArrayToBytes (accumulateKeys orders)) v with
  | (n, some e, w) => .ok (total + n, some e, WC.under w)
  | (n, none, w) => bodyEnd (recurseWrite ⟨accumulateKeys orders, bi.1, bi.2, tech⟩ rec 0) (total + n) w

theorem writeBody_eq (tech : Nat) (orders : List (List Bytes)) (rec : Rec) (ms : List Mapping) (total : Nat) (v : υ) :
    writeBody tech orders rec ms total v =
      match writeHeaders ms 0 (List.replicate (calcNumStreams rec) [], List.replicate (calcNumStreams rec) 0) total v with
      | .error x => .error x
      | .ok (total, .error e, w) => .ok (total, some e, WC.under w)
      | .ok (total, .ok bi, w) => bodyTail tech orders rec total bi w := by
  simp only [writeBody, bind, Except.bind]
  cases writeHeaders ms 0 (List.replicate (calcNumStreams rec) [], List.replicate (calcNumStreams rec) 0) total v with
  | error x => rfl
  | ok q =>
    obtain ⟨n, r, w⟩ := q
    cases r with
    | error e => rfl
    | ok bi =>
      simp only [bodyTail]
      generalize stringArrayToBytes (accumulateKeys orders) = b
      rcases hw : Snk.write b w with ⟨n1, e1, w1⟩
      cases e1 with
      | some e => rfl
      | none =>
        simp only [bodyEnd]
        cases (recurseWrite ⟨accumulateKeys orders, bi.1, bi.2, tech⟩ rec 0).run (EW.new w1) with
        | error x => rfl
        | ok q =>
          obtain ⟨a, ew⟩ := q
          cases a <;> rfl

/-- After `w` has failed `v` may write the rest of the body. -/
theorem Closes.end_stay (h : Closes R D R0 D0) (p : WProg (Except Err Nat)) (hp : ReportsBack p) (total : Nat) (w : ω)
    (x : Err) (v : υ) (hd : D w x v) (n : Nat) (e : Option Err) (s : τ) (hv : bodyEnd p total v = .ok (n, e, s)) :
    D0 (WC.under w) x s := by
  unfold bodyEnd at hv
  cases hq : p.run (EW.new v) with
  | error y => rw [hq] at hv; simp at hv
  | ok q =>
    obtain ⟨a, v2⟩ := q
    rw [hq] at hv
    obtain ⟨k1, k2⟩ := h.run_stay _ w x (EW.new v) rfl hd a v2 hq
    cases a with
    | error y => exact absurd (hp _ _ _ _ hq y rfl) (by rw [k1]; simp)
    | ok o =>
      simp only [Except.ok.injEq, Prod.mk.injEq] at hv
      have := h.closeD _ _ _ k2
      rw [hv.2] at this
      exact this

theorem Closes.end (h : Closes R D R0 D0) (p : WProg (Except Err Nat)) (hp : ReportsBack p) (hp' : Reports p)
    (total : Nat) (w : ω) (v : υ) (hr : R w v) : Agrees R0 D0 (bodyEnd p total w) (bodyEnd p total v) := by
  intro n e s hs
  unfold bodyEnd at hs ⊢
  obtain ⟨k1, k2, k3⟩ := h.run p (EW.new w) (EW.new v) rfl rfl rfl hr
  cases hq : p.run (EW.new w) with
  | error y => rw [hq] at hs; simp at hs
  | ok q =>
    obtain ⟨a, w2⟩ := q
    rw [hq] at hs
    cases he : w2.err with
    | none =>
      obtain ⟨v2, hv2, hv3, hv4, hv5⟩ := k1 _ _ hq he
      rw [hv2]
      cases a with
      | error y => exact absurd (hp _ _ _ _ hq y rfl) (by rw [he]; simp)
      | ok o =>
        simp only [Except.ok.injEq, Prod.mk.injEq] at hs ⊢
        obtain ⟨rfl, hs⟩ := hs
        obtain ⟨c1, c2, c3⟩ := h.closeR _ _ hv5
        rw [hs] at c2 c3
        simp only at c2 c3
        cases e with
        | none => exact .inl ⟨_, ⟨by rw [hv4], by rw [← c1]⟩, c2 rfl⟩
        | some x =>
          refine .inr ⟨x, rfl, ⟨_, c3 x rfl⟩, ?_⟩
          rintro n' e' v' ⟨_, hv'⟩
          have := c3 x rfl
          rw [hv'] at this
          exact this
    | some x =>
      have ha := hp' _ _ _ _ hq x he
      subst ha
      simp only [Except.ok.injEq, Prod.mk.injEq] at hs
      obtain ⟨rfl, rfl, rfl⟩ := hs
      refine .inr ⟨x, rfl, ?_, ?_⟩
      · obtain ⟨v0, hv0⟩ := k3 _ _ _ hq he
        exact ⟨_, h.underD _ _ _ hv0⟩
      intro n' e' v' hv
      cases hq' : p.run (EW.new v) with
      | error y => rw [hq'] at hv; simp at hv
      | ok q' =>
        obtain ⟨a', v2⟩ := q'
        have hd := k2 _ _ _ hq he _ _ hq'
        rw [hq'] at hv
        cases a' with
        | error y =>
          simp only [Except.ok.injEq, Prod.mk.injEq] at hv
          obtain ⟨_, _, rfl⟩ := hv
          exact h.underD _ _ _ hd
        | ok o =>
          simp only [Except.ok.injEq, Prod.mk.injEq] at hv
          have := h.closeD _ _ _ hd
          rw [hv.2] at this
          exact this

theorem Closes.tail_stay (h : Closes R D R0 D0) (tech : Nat) (orders : List (List Bytes)) (rec : Rec)
    (bi : List Bytes × List Nat) (total : Nat) (w : ω) (x : Err) (v : υ) (hd : D w x v)
    (n : Nat) (e : Option Err) (s : τ) (hv : bodyTail tech orders rec total bi v = .ok (n, e, s)) :
    D0 (WC.under w) x s := by
  unfold bodyTail at hv
  generalize stringArrayToBytes (accumulateKeys orders) = b at hv
  obtain ⟨e1, e2⟩ := h.stay b _ _ _ hd
  rcases hw : Snk.write b v with ⟨n1, e', v1⟩
  rw [hw] at e1 e2 hv
  simp only at e1 e2
  subst e2
  exact h.end_stay _ (reportsBack_tree _ _ _) _ _ _ _ e1 _ _ _ hv

theorem Closes.tail (h : Closes R D R0 D0) (tech : Nat) (orders : List (List Bytes)) (rec : Rec)
    (bi : List Bytes × List Nat) (total : Nat) (w : ω) (v : υ) (hr : R w v) :
    Agrees R0 D0 (bodyTail tech orders rec total bi w) (bodyTail tech orders rec total bi v) := by
  intro n e s hs
  unfold bodyTail at hs ⊢
  generalize stringArrayToBytes (accumulateKeys orders) = b at *
  have hg := h.good b _ _ hr
  have hst := h.step b _ _ hr
  have hf := fun x => h.fail b _ _ x hr
  rcases hv' : Snk.write b v with ⟨n2, e2, v2⟩
  rcases hw' : Snk.write b w with ⟨n3, e3, w2⟩
  rw [hv'] at hg hst hf
  rw [hw'] at hst hf hs
  simp only at hg hst hf hs ⊢
  subst hg
  cases e3 with
  | none =>
    obtain ⟨rfl, hR⟩ := hst rfl
    exact h.end _ (reportsBack_tree _ _ _) (reports_tree _ _ _) _ _ _ hR _ _ _ hs
  | some x =>
    simp only [Except.ok.injEq, Prod.mk.injEq] at hs
    obtain ⟨rfl, rfl, rfl⟩ := hs
    exact .inr ⟨x, rfl, ⟨_, h.underD _ _ _ (hf x rfl)⟩, fun n' e' v' hv => h.end_stay _ (reportsBack_tree _ _ _) _ _ _ _ (hf x rfl) _ _ _ hv⟩

theorem Closes.body (h : Closes R D R0 D0) (tech : Nat) (orders : List (List Bytes)) (rec : Rec) (ms : List Mapping)
    (total : Nat) (w : ω) (v : υ) (hr : R w v) :
    Agrees R0 D0 (writeBody tech orders rec ms total w) (writeBody tech orders rec ms total v) := by
  intro n e s hs
  rw [writeBody_eq] at hs ⊢
  generalize (List.replicate (calcNumStreams rec) ([] : Bytes), List.replicate (calcNumStreams rec) 0) = A at *
  have hh := h.headers ms 0 A total w v hr
  cases hw : writeHeaders ms 0 A total w with
  | error y => simp [hw] at hs
  | ok q =>
    obtain ⟨n1, r1, w1⟩ := q
    simp only [hw] at hs
    rcases hh _ _ _ hw with ⟨v1, hv1, hr1⟩ | ⟨x, rfl, ⟨v0, hv0⟩, hD⟩
    · simp only [hv1]
      cases r1 with
      | error y =>
        simp only [Except.ok.injEq, Prod.mk.injEq] at hs
        obtain ⟨rfl, rfl, rfl⟩ := hs
        exact .inl ⟨_, rfl, h.underR _ _ hr1⟩
      | ok bi => exact h.tail _ _ _ _ _ _ _ hr1 _ _ _ hs
    · simp only [Except.ok.injEq, Prod.mk.injEq] at hs
      obtain ⟨rfl, rfl, rfl⟩ := hs
      refine .inr ⟨x, rfl, ⟨_, h.underD _ _ _ hv0⟩, ?_⟩
      intro n' e' v' hv
      cases hv1 : writeHeaders ms 0 A total v with
      | error y => simp [hv1] at hv
      | ok q =>
        obtain ⟨n2, r2, v2⟩ := q
        have hD2 := hD _ _ _ hv1
        simp only [hv1] at hv
        cases r2 with
        | error y =>
          simp only [Except.ok.injEq, Prod.mk.injEq] at hv
          obtain ⟨rfl, rfl, rfl⟩ := hv
          exact h.underD _ _ _ hD2
        | ok bi => exact h.tail_stay _ _ _ _ _ _ _ _ hD2 _ _ _ hv

end

section
variable {σ τ : Type} [Snk σ] [Snk τ] {R0 : σ → τ → Prop} {D0 : σ → Err → τ → Prop}

/-- `if err != nil { return }` after a write. -/
def thenGo {σ : Type} (t : Nat) (r : Nat × Option Err × σ) (k : Nat → σ → Go (Nat × Option Err × σ)) :
    Go (Nat × Option Err × σ) :=
  match r with
  | (n, some e, s) => .ok (t + n, some e, s)
  | (n, none, s) => k (t + n) s

/-- What `v` does after `w` has failed keeps them related. -/
def Keeps (D0 : σ → Err → τ → Prop) (V : τ → Go (Nat × Option Err × τ)) : Prop :=
  ∀ w x v, D0 w x v → ∀ n e v', V v = .ok (n, e, v') → D0 w x v'

/-- One step of both. -/
structure Step (R0 : σ → τ → Prop) (D0 : σ → Err → τ → Prop) (f : σ → Nat × Option Err × σ)
    (g : τ → Nat × Option Err × τ) : Prop where
  go : ∀ w v, R0 w v → (g v).2.1 = none ∧ ((f w).2.1 = none → (f w).1 = (g v).1 ∧ R0 (f w).2.2 (g v).2.2) ∧
    ∀ x, (f w).2.1 = some x → D0 (f w).2.2 x (g v).2.2
  keep : ∀ w x v, D0 w x v → D0 w x (g v).2.2 ∧ (g v).2.1 = none

theorem Follows.stepWrite (h : Follows R0 D0) (b : Bytes) : Step R0 D0 (Snk.write b) (Snk.write b) where
  go w v hr := ⟨h.good b w v hr, h.step b w v hr, fun x => h.fail b w v x hr⟩
  keep w x v hd := h.stay b w v x hd

theorem Follows.stepEncoders (h : Follows R0 D0) (ms : List Mapping) :
    Step R0 D0 (writeEncoders ms) (writeEncoders ms) where
  go w v hr := h.encoders ms w v hr
  keep w x v hd := h.encoders_stay ms w x v hd

omit [Snk σ] [Snk τ] in
theorem Step.agrees {f : σ → Nat × Option Err × σ} {g : τ → Nat × Option Err × τ} (h : Step R0 D0 f g) (t : Nat)
    (k : Nat → σ → Go (Nat × Option Err × σ)) (l : Nat → τ → Go (Nat × Option Err × τ))
    (hk : ∀ n w v, R0 w v → Agrees R0 D0 (k n w) (l n v)) (hl : ∀ n, Keeps D0 (l n)) (w : σ) (v : τ) (hr : R0 w v) :
    Agrees R0 D0 (thenGo t (f w) k) (thenGo t (g v) l) := by
  obtain ⟨hg, hst, hf⟩ := h.go w v hr
  rcases hv' : g v with ⟨n2, e2, v2⟩
  rcases hw' : f w with ⟨n3, e3, w2⟩
  rw [hv'] at hg hst hf
  rw [hw'] at hst hf
  simp only at hg hst hf
  subst hg
  cases e3 with
  | none =>
    obtain ⟨rfl, hR⟩ := hst rfl
    exact hk _ _ _ hR
  | some x =>
    intro n e s hs
    simp only [thenGo, Except.ok.injEq, Prod.mk.injEq] at hs
    obtain ⟨rfl, rfl, rfl⟩ := hs
    exact .inr ⟨x, rfl, ⟨_, hf x rfl⟩, fun n' e' v' hv => hl _ _ _ _ (hf x rfl) _ _ _ hv⟩

omit [Snk σ] [Snk τ] in
theorem Step.keeps {f : σ → Nat × Option Err × σ} {g : τ → Nat × Option Err × τ} (h : Step R0 D0 f g) (t : Nat)
    (l : Nat → τ → Go (Nat × Option Err × τ)) (hl : ∀ n, Keeps D0 (l n)) : Keeps D0 fun v => thenGo t (g v) l := by
  intro w x v hd n e v' hv
  obtain ⟨h1, h2⟩ := h.keep w x v hd
  dsimp only at hv
  rcases hv' : g v with ⟨n2, e2, v2⟩
  rw [hv'] at h1 h2 hv
  simp only at h1 h2 hv
  subst h2
  exact hl _ _ _ _ h1 _ _ _ hv

end

/-- `Write` after the check for nil parts and the choice of encoders. -/
def writeRest {σ : Type} [Snk σ] (F : Flate) (cfg : WriterCfg) (orders : List (List Bytes)) (rec : Rec)
    (ms : List Mapping) (out : σ) : Go (Nat × Option Err × σ) :=
  thenGo 0 (Snk.write [2] out) fun n out =>
    thenGo n (writeEncoders ms out) fun n out =>
      if cfg.compress then
        thenGo n (Snk.write [1] out) fun n out => writeBody cfg.tech orders rec ms n (⟨out, F.init, none⟩ : FW F σ)
      else thenGo n (Snk.write [0] out) fun n out => writeBody cfg.tech orders rec ms n (EW.new out)

theorem write_eq {σ : Type} [Snk σ] (F : Flate) (cfg : WriterCfg) (orders : List (List Bytes)) (id name : Bytes)
    (colls : List (Option Coll)) (recs : List Rec) (md : Block) (bins : List (Option Bin)) (refs : List (Option BinRef))
    (out : σ) :
    write F cfg orders (.mk id name colls recs md bins refs) out =
      match checkForNil (.mk id name colls recs md bins refs) with
      | some e => .ok (0, some e, out)
      | none =>
        match evaluateCollections cfg.encoders (.mk id name colls recs md bins refs) 0 with
        | .error x => .error x
        | .ok (.error e) => .ok (0, some e, out)
        | .ok (.ok (ms, _)) => writeRest F cfg orders (.mk id name colls recs md bins refs) ms out := by
  simp only [write, bind, Except.bind]
  generalize Rec.mk id name colls recs md bins refs = rec
  cases checkForNil rec with
  | some e => rfl
  | none =>
    simp only
    cases evaluateCollections cfg.encoders rec 0 with
    | error x => rfl
    | ok res =>
      cases res with
      | error e => rfl
      | ok q =>
        obtain ⟨ms, off⟩ := q
        simp only [writeRest, thenGo]
        generalize ([2] : Bytes) = b2
        rcases Snk.write b2 out with ⟨n, e, out1⟩
        cases e with
        | some e => simp
        | none =>
          simp only [Nat.zero_add]
          rcases writeEncoders ms out1 with ⟨n2, e2, out2⟩
          cases e2 with
          | some e => simp
          | none =>
            simp only
            split
            · generalize ([1] : Bytes) = b1
              rcases Snk.write b1 out2 with ⟨n3, e3, out3⟩
              cases e3 <;> rfl
            · generalize ([0] : Bytes) = b1
              rcases Snk.write b1 out2 with ⟨n3, e3, out3⟩
              cases e3 <;> rfl

section
variable {ω υ σ τ : Type} [Snk σ] [Snk τ] [WC ω σ] [WC υ τ] {R : ω → υ → Prop} {D : ω → Err → υ → Prop}
  {R0 : σ → τ → Prop} {D0 : σ → Err → τ → Prop}

theorem Closes.body_stay (h : Closes R D R0 D0) (tech : Nat) (orders : List (List Bytes)) (rec : Rec) (ms : List Mapping)
    (total : Nat) (w : ω) (x : Err) (v : υ) (hd : D w x v) (n : Nat) (e : Option Err) (s : τ)
    (hv : writeBody tech orders rec ms total v = .ok (n, e, s)) : D0 (WC.under w) x s := by
  rw [writeBody_eq] at hv
  generalize (List.replicate (calcNumStreams rec) ([] : Bytes), List.replicate (calcNumStreams rec) 0) = A at *
  cases hv1 : writeHeaders ms 0 A total v with
  | error y => simp [hv1] at hv
  | ok q =>
    obtain ⟨n2, r2, v2⟩ := q
    have hD2 := h.headers_stay _ _ _ _ _ _ _ hd _ _ _ hv1
    simp only [hv1] at hv
    cases r2 with
    | error y =>
      simp only [Except.ok.injEq, Prod.mk.injEq] at hv
      obtain ⟨rfl, rfl, rfl⟩ := hv
      exact h.underD _ _ _ hD2
    | ok bi => exact h.tail_stay _ _ _ _ _ _ _ _ hD2 _ _ _ hv

end

theorem Follows.rest {σ τ : Type} [Snk σ] [Snk τ] {R0 : σ → τ → Prop} {D0 : σ → Err → τ → Prop} (h : Follows R0 D0)
    (F : Flate) (cfg : WriterCfg) (orders : List (List Bytes)) (rec : Rec) (ms : List Mapping) (w : σ) (v : τ)
    (hr : R0 w v) : Agrees R0 D0 (writeRest F cfg orders rec ms w) (writeRest F cfg orders rec ms v) := by
  unfold writeRest
  by_cases hc : cfg.compress = true
  · simp only [hc, if_true]
    have kf : ∀ n, Keeps D0 fun v : τ => writeBody cfg.tech orders rec ms n (⟨v, F.init, none⟩ : FW F τ) := by
      intro n w x v hd n' e v' hv
      exact (Closes.fw h F).body_stay _ _ _ _ _ (⟨w, F.init, some x⟩ : FW F σ) x (⟨v, F.init, none⟩ : FW F τ)
        ⟨rfl, rfl, hd⟩ _ _ _ hv
    have k1 : ∀ n, Keeps D0 fun v : τ => thenGo n (Snk.write [1] v) fun n out =>
        writeBody cfg.tech orders rec ms n (⟨out, F.init, none⟩ : FW F τ) := fun n =>
      (h.stepWrite [1]).keeps n _ kf
    refine (h.stepWrite [2]).agrees 0 _ _ (fun n w v hr => ?_) (fun n => (h.stepEncoders ms).keeps n _ k1) w v hr
    refine (h.stepEncoders ms).agrees n _ _ (fun n w v hr => ?_) k1 w v hr
    refine (h.stepWrite [1]).agrees n _ _ (fun n w v hr => ?_) kf w v hr
    exact (Closes.fw h F).body _ _ _ _ _ _ _ ⟨rfl, rfl, rfl, hr⟩
  · simp only [hc, if_false, Bool.false_eq_true]
    have kf : ∀ n, Keeps D0 fun v : τ => writeBody cfg.tech orders rec ms n (EW.new v) := by
      intro n w x v hd n' e v' hv
      exact (Closes.ew h).body_stay _ _ _ _ _ (⟨w, some x, 0⟩ : EW σ) x (EW.new v)
        ⟨rfl, rfl, hd⟩ _ _ _ hv
    have k1 : ∀ n, Keeps D0 fun v : τ => thenGo n (Snk.write [0] v) fun n out =>
        writeBody cfg.tech orders rec ms n (EW.new out) := fun n =>
      (h.stepWrite [0]).keeps n _ kf
    refine (h.stepWrite [2]).agrees 0 _ _ (fun n w v hr => ?_) (fun n => (h.stepEncoders ms).keeps n _ k1) w v hr
    refine (h.stepEncoders ms).agrees n _ _ (fun n w v hr => ?_) k1 w v hr
    refine (h.stepWrite [0]).agrees n _ _ (fun n w v hr => ?_) kf w v hr
    exact (Closes.ew h).body _ _ _ _ _ _ _ ⟨rfl, rfl, rfl, hr⟩

/-- `Write` on two outputs, one following the other until its first error. -/
theorem Follows.write {σ τ : Type} [Snk σ] [Snk τ] {R0 : σ → τ → Prop} {D0 : σ → Err → τ → Prop} (h : Follows R0 D0)
    (F : Flate) (cfg : WriterCfg) (orders : List (List Bytes)) (rec : Rec) (w : σ) (v : τ) (hr : R0 w v) :
    Agrees R0 D0 (Rap.write F cfg orders rec w) (Rap.write F cfg orders rec v) := by
  intro n e s hs
  cases rec with
  | nil => simp [Rap.write] at hs
  | mk id name colls recs md bins refs =>
    rw [write_eq] at hs ⊢
    generalize Rec.mk id name colls recs md bins refs = rec at *
    cases hc : checkForNil rec with
    | some y =>
      simp only [hc, Except.ok.injEq, Prod.mk.injEq] at hs ⊢
      obtain ⟨rfl, rfl, rfl⟩ := hs
      exact .inl ⟨v, ⟨rfl, rfl, rfl⟩, hr⟩
    | none =>
      simp only [hc] at hs ⊢
      cases hev : evaluateCollections cfg.encoders rec 0 with
      | error x => simp [hev] at hs
      | ok res =>
        cases res with
        | error y =>
          simp only [hev, Except.ok.injEq, Prod.mk.injEq] at hs ⊢
          obtain ⟨rfl, rfl, rfl⟩ := hs
          exact .inl ⟨v, ⟨rfl, rfl, rfl⟩, hr⟩
        | ok res =>
          obtain ⟨ms, off⟩ := res
          simp only [hev] at hs ⊢
          exact h.rest F cfg orders rec ms w v hr _ _ _ hs

/-! ## Panics when the output fails -/

/-- Whatever the writer answers, only panics in `Q` happen and results satisfy `P`. -/
def WProg.Tame {α : Type} (Q : Panic → Prop) (P : α → Prop) : WProg α → Prop
  | .pure a => P a
  | .panic x => Q x
  | .write _ k => ∀ n e, (k n e).Tame Q P
  | .err k => ∀ e, (k e).Tame Q P

namespace WProg
variable {α β : Type} {Q : Panic → Prop} {P : α → Prop} {P' : β → Prop}

theorem Tame.bind {p : WProg α} {f : α → WProg β} (h : p.Tame Q P) (h' : ∀ a, P a → (f a).Tame Q P') :
    (p.bind f).Tame Q P' := by
  induction p with
  | pure a => exact h' a h
  | panic x => exact h
  | write b k ih => exact fun n e => ih n e (h n e)
  | err k ih => exact fun e => ih e (h e)

theorem Tame.put (b : Bytes) : (WProg.put b).Tame Q fun _ => True := fun _ _ => trivial

theorem Tame.run {p : WProg α} {ω : Type} [Snk ω] (h : p.Tame Q P) (w : EW ω) :
    (∃ a w', p.run w = .ok (a, w') ∧ P a) ∨ ∃ x, p.run w = .error x ∧ Q x := by
  induction p generalizing w with
  | pure a => exact .inl ⟨a, w, rfl, h⟩
  | panic x => exact .inr ⟨x, rfl, h⟩
  | write b k ih =>
    simp only [WProg.run]
    rcases EW.write b w with ⟨n, e, w'⟩
    exact ih n e (h n e) w'
  | err k ih => exact ih _ (h _) w

/-- Both parts of a composition that succeeds when all writes do. -/
theorem emit_bind_ok {p : WProg α} {f : α → WProg β} {b : β} {ws : List Bytes} (h : (p.bind f).emit = .ok (b, ws)) :
    ∃ a ws1 ws2, p.emit = .ok (a, ws1) ∧ (f a).emit = .ok (b, ws2) := by
  rw [emit_bind] at h
  cases hp : p.emit with
  | error x => rw [hp] at h; simp at h
  | ok q =>
    obtain ⟨a, ws1⟩ := q
    rw [hp] at h
    cases hf : (f a).emit with
    | error x => simp [hf] at h
    | ok q =>
      obtain ⟨b', ws2⟩ := q
      simp only [hf, Except.ok.injEq, Prod.mk.injEq] at h
      obtain ⟨rfl, rfl⟩ := h
      exact ⟨a, ws1, ws2, rfl, hf⟩

end WProg

section
open WProg (Tame emit_bind_ok)

/-- A write whose result is ignored. -/
theorem tame_put {β : Type} {Q : Panic → Prop} {P' : β → Prop} (b : Bytes) {p : WProg β} {r : β} {ws : List Bytes}
    (h : ((WProg.put b).bind fun _ => p).emit = .ok (r, ws)) (hp : (∃ ws', p.emit = .ok (r, ws')) → p.Tame Q P') :
    ((WProg.put b).bind fun _ => p).Tame Q P' := by
  obtain ⟨a, ws1, ws2, _, h2⟩ := emit_bind_ok h
  exact (Tame.put b).bind fun _ _ => hp ⟨ws2, h2⟩

theorem tame_ofGo {α β : Type} {Q : Panic → Prop} {P' : β → Prop} {x : Go α} {f : α → WProg β} {r : β}
    {ws : List Bytes} (h : ((WProg.ofGo x).bind f).emit = .ok (r, ws))
    (hp : ∀ a, x = .ok a → (∃ ws', (f a).emit = .ok (r, ws')) → (f a).Tame Q P') :
    ((WProg.ofGo x).bind f).Tame Q P' := by
  cases x with
  | error y => simp [WProg.ofGo, WProg.emit] at h
  | ok a => exact hp a rfl ⟨ws, h⟩

theorem tame_metadata {Q : Panic → Prop} (keys : List Bytes) (b : Block) {ws : List Bytes}
    (h : (writeMetadata keys b).emit = .ok ((), ws)) : (writeMetadata keys b).Tame Q fun _ => True := by
  simp only [writeMetadata, WProg.bind_eq] at h ⊢
  refine tame_ofGo h fun v _ _ => (Tame.put _).bind fun a _ => ?_
  obtain ⟨n, e⟩ := a
  cases e with
  | some e => trivial
  | none => exact fun _ _ => trivial

/-- A program that ignores its unit result. -/
theorem tame_unit {β : Type} {Q : Panic → Prop} {P' : β → Prop} {p : WProg Unit} {q : WProg β} {r : β}
    {ws : List Bytes} (h : (p.bind fun _ => q).emit = .ok (r, ws))
    (hp : (∃ ws', p.emit = .ok ((), ws')) → p.Tame Q fun _ => True)
    (hq : (∃ ws', q.emit = .ok (r, ws')) → q.Tame Q P') : (p.bind fun _ => q).Tame Q P' := by
  obtain ⟨a, ws1, ws2, h1, h2⟩ := emit_bind_ok h
  exact (hp ⟨ws1, h1⟩).bind fun _ _ => hq ⟨ws2, h2⟩

theorem tame_streams {Q : Panic → Prop} (T : Tables) (i : Nat) (cs : List (Option Coll)) {ws : List Bytes}
    (h : (writeStreams T i cs).emit = .ok ((), ws)) : (writeStreams T i cs).Tame Q fun _ => True := by
  induction cs generalizing i ws with
  | nil => trivial
  | cons c cs ih =>
    simp only [writeStreams, WProg.bind_eq] at h ⊢
    refine tame_ofGo h fun idx _ ⟨_, h⟩ => ?_
    refine tame_put _ h fun ⟨_, h⟩ => ?_
    cases c with
    | none => simp [WProg.emit] at h
    | some c =>
      simp only at h ⊢
      refine tame_put _ h fun ⟨_, h⟩ => ?_
      refine tame_put _ h fun ⟨_, h⟩ => ?_
      refine tame_ofGo h fun idx _ ⟨_, h⟩ => ?_
      refine tame_put _ h fun ⟨_, h⟩ => ?_
      exact ih _ h

theorem tame_refs {Q : Panic → Prop} (T : Tables) (rs : List (Option BinRef)) {ws : List Bytes}
    (h : (writeRefs T rs).emit = .ok ((), ws)) : (writeRefs T rs).Tame Q fun _ => True := by
  induction rs generalizing ws with
  | nil => trivial
  | cons r rs ih =>
    cases r with
    | none => simp [writeRefs, WProg.emit] at h
    | some r =>
      simp only [writeRefs, WProg.bind_eq] at h ⊢
      refine tame_put _ h fun ⟨_, h⟩ => ?_
      refine tame_put _ h fun ⟨_, h⟩ => ?_
      refine tame_put _ h fun ⟨_, h⟩ => ?_
      exact tame_unit h (fun ⟨_, h⟩ => tame_metadata _ _ h) fun ⟨_, h⟩ => ih h

theorem tame_bins {Q : Panic → Prop} (T : Tables) (bs : List (Option Bin)) {ws : List Bytes}
    (hQ : ∀ b, some b ∈ bs → b.data ≠ [] → Q .message)
    (h : (writeBins T bs).emit = .ok ((), ws)) : (writeBins T bs).Tame Q fun _ => True := by
  induction bs generalizing ws with
  | nil => trivial
  | cons b bs ih =>
    cases b with
    | none => simp [writeBins, WProg.emit] at h
    | some b =>
      simp only [writeBins, WProg.bind_eq] at h ⊢
      refine tame_put _ h fun ⟨_, h⟩ => ?_
      refine tame_put _ h fun ⟨_, h⟩ => ?_
      refine tame_unit h (fun ⟨_, h⟩ => tame_metadata _ _ h) fun ⟨_, h⟩ => ?_
      have ih' : ∀ {ws}, (writeBins T bs).emit = .ok ((), ws) → (writeBins T bs).Tame Q fun _ => True :=
        fun h => ih (fun b' hb' => hQ b' (List.mem_cons_of_mem _ hb')) h
      by_cases hd : b.data = []
      · simp only [ioCopy, hd, List.isEmpty_nil, if_true, WProg.pure_eq, WProg.pure_bind'] at h ⊢
        split at h
        · simp [WProg.emit] at h
        · rename_i hn
          rw [if_neg hn]
          exact ih' h
      · have hq := hQ b List.mem_cons_self hd
        obtain ⟨n, ws1, ws2, h1, h2⟩ := emit_bind_ok h
        have ht : (writeBins T bs).Tame Q fun _ => True := by
          split at h2
          · simp [WProg.emit] at h2
          · exact ih' h2
        refine Tame.bind (P := fun _ => True) ?_ fun n _ => ?_
        · have : b.data.isEmpty = false := by simpa using hd
          simp only [ioCopy, this, Bool.false_eq_true, if_false, WProg.bind_eq]
          exact fun _ _ => trivial
        · split
          · exact hq
          · exact ht

mutual
theorem tame_tree {Q : Panic → Prop} (T : Tables) (r : Rec) (o : Nat) {x : Except Err Nat} {ws : List Bytes}
    (hQ : ∀ r', Within r' r → ∀ b, some b ∈ r'.bins → b.data ≠ [] → Q .message)
    (h : (recurseWrite T r o).emit = .ok (x, ws)) : (recurseWrite T r o).Tame Q fun y => ∀ o', y = .ok o' → x = y := by
  cases r with
  | nil => simp [recurseWrite, WProg.emit] at h
  | mk id name colls recs md bins refs =>
    have hQb : ∀ b, some b ∈ bins → b.data ≠ [] → Q .message := fun b hb => hQ _ (.self _) b hb
    have hQr : ∀ r ∈ recs, ∀ r', Within r' r → ∀ b, some b ∈ r'.bins → b.data ≠ [] → Q .message :=
      fun r hr r' hw => hQ r' (.child hr hw)
    simp only [recurseWrite, WProg.bind_eq] at h ⊢
    refine tame_put _ h fun ⟨_, h⟩ => ?_
    refine tame_put _ h fun ⟨_, h⟩ => ?_
    refine tame_unit h (fun ⟨_, h⟩ => tame_metadata _ _ h) fun ⟨_, h⟩ => ?_
    refine tame_put _ h fun ⟨_, h⟩ => ?_
    refine tame_unit h (fun ⟨_, h⟩ => tame_streams _ _ _ h) fun ⟨_, h⟩ => ?_
    refine tame_put _ h fun ⟨_, h⟩ => ?_
    refine tame_unit h (fun ⟨_, h⟩ => tame_refs _ _ h) fun ⟨_, h⟩ => ?_
    refine tame_put _ h fun ⟨_, h⟩ => ?_
    refine tame_unit h (fun ⟨_, h⟩ => tame_bins _ _ hQb h) fun ⟨_, h⟩ => ?_
    refine tame_put _ h fun ⟨_, h⟩ => ?_
    obtain ⟨y, ws1, ws2, h1, h2⟩ := emit_bind_ok h
    refine (tame_trees T recs _ hQr h1).bind fun z hz => ?_
    cases z with
    | error e => intro o' ho; simp at ho
    | ok o1 =>
      have := hz o1 rfl
      subst this
      simp only [WProg.emit, Except.ok.injEq, Prod.mk.injEq] at h2
      obtain ⟨rfl, _⟩ := h2
      intro e
      cases e with
      | some e => intro o' ho; simp at ho
      | none => intro o' _; rfl
theorem tame_trees {Q : Panic → Prop} (T : Tables) (rs : List Rec) (o : Nat) {x : Except Err Nat} {ws : List Bytes}
    (hQ : ∀ r ∈ rs, ∀ r', Within r' r → ∀ b, some b ∈ r'.bins → b.data ≠ [] → Q .message)
    (h : (recurseWriteList T rs o).emit = .ok (x, ws)) :
    (recurseWriteList T rs o).Tame Q fun y => ∀ o', y = .ok o' → x = y := by
  cases rs with
  | nil =>
    simp only [recurseWriteList, WProg.pure_eq, WProg.emit, Except.ok.injEq, Prod.mk.injEq] at h
    intro o' _
    exact h.1.symm
  | cons r rs =>
    simp only [recurseWriteList, WProg.bind_eq] at h ⊢
    obtain ⟨y, ws1, ws2, h1, h2⟩ := emit_bind_ok h
    refine (tame_tree T r o (hQ r List.mem_cons_self) h1).bind fun z hz => ?_
    cases z with
    | error e => intro o' ho; simp at ho
    | ok o1 =>
      have := hz o1 rfl
      subst this
      exact tame_trees T rs o1 (fun r' hr' => hQ r' (List.mem_cons_of_mem _ hr')) h2
end

end

/-! ## Counting -/

/-- The counts a writer returns add up to `c`. -/
def Counts {ω : Type} [Snk ω] (c : ω → Nat) : Prop := ∀ b w, c (Snk.write b w).2.2 = c w + (Snk.write b w).1

section
variable {ω : Type} [Snk ω] {c : ω → Nat}

theorem Counts.ew (h : Counts c) : Counts fun w : EW ω => c w.sink := by
  intro b w
  simp only [Snk.write, EW.write]
  cases hw : w.err with
  | some x => rfl
  | none => exact h b w.sink

theorem Counts.run {α : Type} (h : Counts c) (p : WProg α) (w : EW ω) (a : α) (w' : EW ω)
    (hr : p.run w = .ok (a, w')) : c w'.sink + w.n = c w.sink + w'.n := by
  induction p generalizing w with
  | pure a =>
    simp only [WProg.run, Except.ok.injEq, Prod.mk.injEq] at hr
    obtain ⟨rfl, rfl⟩ := hr
    rfl
  | panic y => simp [WProg.run] at hr
  | write b k ih =>
    simp only [WProg.run, EW.write] at hr
    cases hw : w.err with
    | some x =>
      simp only [hw] at hr
      exact ih _ _ _ hr
    | none =>
      simp only [hw] at hr
      have h1 := h b w.sink
      rcases hw1 : Snk.write b w.sink with ⟨n1, e1, w1⟩
      rw [hw1] at h1 hr
      have h2 := ih _ _ _ hr
      simp only at h1 h2
      omega
  | err k ih => exact ih _ _ hr

theorem Counts.headers (h : Counts c) (ms : List Mapping) (k : Nat) (acc : List Bytes × List Nat) (t : Nat) (w : ω)
    (n : Nat) (r : Except Err (List Bytes × List Nat)) (w' : ω) (hr : writeHeaders ms k acc t w = .ok (n, r, w')) :
    c w' + t = c w + n := by
  induction ms generalizing k acc t w with
  | nil =>
    simp only [writeHeaders, Except.ok.injEq, Prod.mk.injEq] at hr
    obtain ⟨rfl, _, rfl⟩ := hr
    rfl
  | cons m ms ih =>
    simp only [writeHeaders, bind, Except.bind] at hr
    cases he : m.encoder.encode m.colls with
    | error y => simp [he] at hr
    | ok res =>
      cases res with
      | error e =>
        simp only [he, Except.ok.injEq, Prod.mk.injEq] at hr
        obtain ⟨rfl, _, rfl⟩ := hr
        rfl
      | ok hs =>
        obtain ⟨header, streams⟩ := hs
        simp only [he] at hr
        cases ha : assignBlocks k m.order streams acc with
        | error y => simp [ha] at hr
        | ok acc' =>
          simp only [ha] at hr
          have hc := h (bytesArrayToBytes header) w
          rcases hw : Snk.write (bytesArrayToBytes header) w with ⟨n1, e, w1⟩
          rw [hw] at hc hr
          simp only at hc hr
          cases e with
          | some x =>
            simp only [Except.ok.injEq, Prod.mk.injEq] at hr
            obtain ⟨rfl, _, rfl⟩ := hr
            omega
          | none =>
            have := ih _ _ _ _ hr
            omega

theorem Counts.versions (h : Counts c) (ms : List Mapping) (t : Nat) (w : ω) :
    c (writeVersions ms t w).2.2 + t = c w + (writeVersions ms t w).1 := by
  induction ms generalizing t w with
  | nil => rfl
  | cons m ms ih =>
    have hc := h (putUvarint (u64 m.encoder.version)) w
    simp only [writeVersions]
    rcases hw : Snk.write (putUvarint (u64 m.encoder.version)) w with ⟨n1, e, w1⟩
    rw [hw] at hc
    simp only at hc
    cases e with
    | some x => simp only; omega
    | none =>
      have := ih (t + n1) w1
      simp only
      omega

theorem Counts.encoders (h : Counts c) (ms : List Mapping) (w : ω) :
    c (writeEncoders ms w).2.2 = c w + (writeEncoders ms w).1 := by
  unfold writeEncoders
  generalize stringArrayToBytes (ms.map fun m => m.encoder.sig) = b
  have hc := h b w
  rcases hw : Snk.write b w with ⟨n1, e, w1⟩
  rw [hw] at hc
  simp only at hc
  cases e with
  | some x => exact hc
  | none =>
    have := h.versions ms n1 w1
    simp only
    omega

/-- Without compression `Write` returns the number of bytes the output has accepted, also when it fails. -/
theorem Counts.write (h : Counts c) (F : Flate) (cfg : WriterCfg) (hcfg : cfg.compress = false)
    (orders : List (List Bytes)) (rec : Rec) (w : ω) (n : Nat) (e : Option Err) (w' : ω)
    (hr : Rap.write F cfg orders rec w = .ok (n, e, w')) : c w' = c w + n := by
  cases rec with
  | nil => simp [Rap.write] at hr
  | mk id name colls recs md bins refs =>
    rw [write_eq] at hr
    generalize Rec.mk id name colls recs md bins refs = rec at *
    cases hc : checkForNil rec with
    | some y =>
      simp only [hc, Except.ok.injEq, Prod.mk.injEq] at hr
      obtain ⟨rfl, _, rfl⟩ := hr
      rfl
    | none =>
      simp only [hc] at hr
      cases hev : evaluateCollections cfg.encoders rec 0 with
      | error x => simp [hev] at hr
      | ok q =>
        cases q with
        | error y =>
          simp only [hev, Except.ok.injEq, Prod.mk.injEq] at hr
          obtain ⟨rfl, _, rfl⟩ := hr
          rfl
        | ok q =>
          obtain ⟨ms, off⟩ := q
          simp only [hev, writeRest, hcfg, Bool.false_eq_true, if_false, thenGo] at hr
          generalize ([2] : Bytes) = b2 at *
          generalize ([0] : Bytes) = b0 at *
          have c1 := h b2 w
          rcases hw1 : Snk.write b2 w with ⟨n1, e1, w1⟩
          rw [hw1] at c1 hr
          simp only at c1 hr
          cases e1 with
          | some x =>
            simp only [Except.ok.injEq, Prod.mk.injEq] at hr
            obtain ⟨rfl, _, rfl⟩ := hr
            omega
          | none =>
            simp only at hr
            have c2 := h.encoders ms w1
            rcases hw2 : writeEncoders ms w1 with ⟨n2, e2, w2⟩
            rw [hw2] at c2 hr
            simp only at c2 hr
            cases e2 with
            | some x =>
              simp only [Except.ok.injEq, Prod.mk.injEq] at hr
              obtain ⟨rfl, _, rfl⟩ := hr
              omega
            | none =>
              simp only at hr
              have c3 := h b0 w2
              rcases hw3 : Snk.write b0 w2 with ⟨n3, e3, w3⟩
              rw [hw3] at c3 hr
              simp only at c3 hr
              cases e3 with
              | some x =>
                simp only [Except.ok.injEq, Prod.mk.injEq] at hr
                obtain ⟨rfl, _, rfl⟩ := hr
                omega
              | none =>
                simp only at hr
                rw [writeBody_eq] at hr
                generalize (List.replicate (calcNumStreams rec) ([] : Bytes),
                  List.replicate (calcNumStreams rec) 0) = A at *
                cases hv1 : writeHeaders ms 0 A (0 + n1 + n2 + n3) (EW.new w3) with
                | error y => rw [hv1] at hr; simp at hr
                | ok q =>
                  obtain ⟨n4, r4, w4⟩ := q
                  have c4 := h.ew.headers _ _ _ _ _ _ _ _ hv1
                  simp only [EW.new] at c4
                  rw [hv1] at hr
                  cases r4 with
                  | error y =>
                    simp only [Except.ok.injEq, Prod.mk.injEq] at hr
                    obtain ⟨rfl, _, rfl⟩ := hr
                    simp only [WC.under]
                    omega
                  | ok bi =>
                    simp only [bodyTail] at hr
                    have c5 := h.ew (stringArrayToBytes (accumulateKeys orders)) w4
                    rcases hw5 : Snk.write (stringArrayToBytes (accumulateKeys orders)) w4 with ⟨n5, e5, w5⟩
                    rw [hw5] at c5 hr
                    simp only at c5 hr
                    cases e5 with
                    | some x =>
                      simp only [Except.ok.injEq, Prod.mk.injEq] at hr
                      obtain ⟨rfl, _, rfl⟩ := hr
                      simp only [WC.under]
                      omega
                    | none =>
                      simp only [bodyEnd] at hr
                      cases hq : (recurseWrite ⟨accumulateKeys orders, bi.1, bi.2, cfg.tech⟩ rec 0).run (EW.new w5) with
                      | error y => rw [hq] at hr; simp at hr
                      | ok q =>
                        obtain ⟨a, w6⟩ := q
                        have c6 := h.ew.run _ _ _ _ hq
                        simp only [EW.new] at c6
                        rw [hq] at hr
                        cases a with
                        | error y =>
                          simp only [Except.ok.injEq, Prod.mk.injEq] at hr
                          obtain ⟨rfl, _, rfl⟩ := hr
                          simp only [WC.under]
                          omega
                        | ok o =>
                          simp only [WC.close, Except.ok.injEq, Prod.mk.injEq] at hr
                          obtain ⟨rfl, _, rfl⟩ := hr
                          omega

end

theorem headers_noPanic {ω υ : Type} [Snk ω] [Snk υ] (ms : List Mapping) (k : Nat) (acc : List Bytes × List Nat)
    (t t' : Nat) (v : υ) (w : ω) (ht : TakesAll v) (n : Nat) (r : Except Err (List Bytes × List Nat)) (v' : υ)
    (h : writeHeaders ms k acc t v = .ok (n, r, v')) :
    ∃ n' r' w', writeHeaders ms k acc t' w = .ok (n', r', w') ∧ ∀ bi, r' = .ok bi → r = .ok bi ∧ TakesAll v' := by
  induction ms generalizing k acc t t' v w with
  | nil =>
    simp only [writeHeaders, Except.ok.injEq, Prod.mk.injEq] at h
    obtain ⟨rfl, rfl, rfl⟩ := h
    exact ⟨_, _, _, rfl, fun bi hb => ⟨hb, ht⟩⟩
  | cons m ms ih =>
    simp only [writeHeaders, bind, Except.bind] at h ⊢
    cases he : m.encoder.encode m.colls with
    | error y => simp [he] at h
    | ok res =>
      cases res with
      | error e => exact ⟨_, _, _, rfl, fun bi hb => by simp at hb⟩
      | ok hs =>
        obtain ⟨header, streams⟩ := hs
        simp only [he] at h ⊢
        cases ha : assignBlocks k m.order streams acc with
        | error y => simp [ha] at h
        | ok acc' =>
          simp only [ha] at h ⊢
          obtain ⟨h1, h2, h3⟩ := ht.step (bytesArrayToBytes header)
          rcases hv : Snk.write (bytesArrayToBytes header) v with ⟨n1, e, v1⟩
          rw [hv] at h1 h2 h3 h
          simp only at h1 h2 h3
          subst h2
          rcases hw : Snk.write (bytesArrayToBytes header) w with ⟨n2, e2, w1⟩
          cases e2 with
          | some x => exact ⟨_, _, _, rfl, fun bi hb => by simp at hb⟩
          | none => exact ih _ _ _ _ _ _ h3 h

/-- If the body can be written to an output that never fails, writing it to another one ends with a result, or with the
panic about the size of a binary. -/
theorem body_noPanic {ω υ σ τ : Type} [Snk σ] [Snk τ] [WC ω σ] [WC υ τ] (Q : Panic → Prop) (tech : Nat)
    (orders : List (List Bytes)) (rec : Rec) (ms : List Mapping) (t t' : Nat) (v : υ) (w : ω) (ht : TakesAll v)
    (hQ : ∀ r', Within r' rec → ∀ b, some b ∈ r'.bins → b.data ≠ [] → Q .message) (res : Nat × Option Err × τ)
    (h : writeBody tech orders rec ms t v = .ok res) :
    (∃ res', writeBody tech orders rec ms t' w = .ok res') ∨ ∃ x, writeBody tech orders rec ms t' w = .error x ∧ Q x := by
  rw [writeBody_eq] at h ⊢
  generalize (List.replicate (calcNumStreams rec) ([] : Bytes), List.replicate (calcNumStreams rec) 0) = A at *
  cases hv1 : writeHeaders ms 0 A t v with
  | error y => simp [hv1] at h
  | ok q =>
    obtain ⟨n2, r2, v2⟩ := q
    obtain ⟨n', r', w', hw, hbi⟩ := headers_noPanic ms 0 A t t' v w ht _ _ _ hv1
    simp only [hv1] at h
    simp only [hw]
    cases r' with
    | error e => exact .inl ⟨_, rfl⟩
    | ok bi =>
      obtain ⟨rfl, ht2⟩ := hbi bi rfl
      simp only [bodyTail] at h ⊢
      obtain ⟨h1, h2, h3⟩ := ht2.step (stringArrayToBytes (accumulateKeys orders))
      rcases hv : Snk.write (stringArrayToBytes (accumulateKeys orders)) v2 with ⟨n1, e, v3⟩
      rw [hv] at h1 h2 h3 h
      simp only at h1 h2 h3
      subst h2
      rcases hw2 : Snk.write (stringArrayToBytes (accumulateKeys orders)) w' with ⟨n4, e4, w4⟩
      cases e4 with
      | some x => exact .inl ⟨_, rfl⟩
      | none =>
        simp only [bodyEnd] at h ⊢
        cases hq : (recurseWrite ⟨accumulateKeys orders, bi.1, bi.2, tech⟩ rec 0).run (EW.new v3) with
        | error y => rw [hq] at h; simp at h
        | ok q =>
          obtain ⟨a, v5⟩ := q
          obtain ⟨ws, _, hemit, _⟩ := WProg.emit_of_run _ _ _ _ _ h3 hq
          have htame := tame_tree _ _ _ hQ hemit
          rcases htame.run (EW.new w4) with ⟨a', w5, hw5, _⟩ | ⟨x, hx, hqx⟩
          · rw [hw5]
            cases a' with
            | error e => exact .inl ⟨_, rfl⟩
            | ok o => exact .inl ⟨_, rfl⟩
          · rw [hx]
            exact .inr ⟨x, rfl, hqx⟩

theorem versions_takes {τ : Type} [Snk τ] (ms : List Mapping) (t : Nat) (v : τ) (ht : TakesAll v) :
    (writeVersions ms t v).2.1 = none := by
  induction ms generalizing t v with
  | nil => rfl
  | cons m ms ih =>
    simp only [writeVersions]
    obtain ⟨h1, h2, h3⟩ := ht.step (putUvarint (u64 m.encoder.version))
    rcases hv : Snk.write (putUvarint (u64 m.encoder.version)) v with ⟨n1, e, v3⟩
    rw [hv] at h1 h2 h3
    simp only at h1 h2 h3
    subst h2
    exact ih _ _ h3

theorem encoders_buf (ms : List Mapping) (v : Buf) : (writeEncoders ms v).2.1 = none := by
  unfold writeEncoders
  generalize stringArrayToBytes (ms.map fun m => m.encoder.sig) = b
  exact versions_takes _ _ _ (TakesAll.buf _)

theorem write_noPanic {σ : Type} [Snk σ] (Q : Panic → Prop) (F : Flate) (cfg : WriterCfg) (orders : List (List Bytes))
    (rec : Rec) (v : Buf) (w : σ)
    (hQ : ∀ r', Within r' rec → ∀ b, some b ∈ r'.bins → b.data ≠ [] → Q .message) (res : Nat × Option Err × Buf)
    (h : write F cfg orders rec v = .ok res) :
    (∃ res', write F cfg orders rec w = .ok res') ∨ ∃ x, write F cfg orders rec w = .error x ∧ Q x := by
  cases rec with
  | nil => simp [write] at h
  | mk id name colls recs md bins refs =>
    rw [write_eq] at h ⊢
    generalize Rec.mk id name colls recs md bins refs = rec at *
    cases hc : checkForNil rec with
    | some y => exact .inl ⟨_, rfl⟩
    | none =>
      simp only [hc] at h ⊢
      cases hev : evaluateCollections cfg.encoders rec 0 with
      | error x => simp [hev] at h
      | ok q =>
        cases q with
        | error y => exact .inl ⟨_, rfl⟩
        | ok q =>
          obtain ⟨ms, off⟩ := q
          simp only [hev] at h ⊢
          unfold writeRest at h ⊢
          have hb : ∀ (b : Bytes) (s : Buf), (Snk.write b s : Nat × Option Err × Buf) = (b.length, none, ⟨s.bytes ++ b⟩) :=
            fun _ _ => rfl
          rw [hb] at h
          simp only [thenGo] at h
          rcases he : writeEncoders ms (⟨v.bytes ++ [2]⟩ : Buf) with ⟨n1, e1, v1⟩
          have := encoders_buf ms (⟨v.bytes ++ [2]⟩ : Buf)
          rw [he] at this h
          simp only at this
          subst this
          simp only [hb] at h
          generalize ([2] : Bytes) = b2 at *
          rcases Snk.write b2 w with ⟨m1, d1, w1⟩
          cases d1 with
          | some x => exact .inl ⟨_, rfl⟩
          | none =>
            simp only [thenGo]
            rcases writeEncoders ms w1 with ⟨m2, d2, w2⟩
            cases d2 with
            | some x => exact .inl ⟨_, rfl⟩
            | none =>
              simp only
              by_cases hcomp : cfg.compress = true
              · simp only [hcomp, if_true] at h ⊢
                generalize ([1] : Bytes) = b1 at *
                rcases Snk.write b1 w2 with ⟨m3, d3, w3⟩
                cases d3 with
                | some x => exact .inl ⟨_, rfl⟩
                | none => exact body_noPanic Q _ _ _ _ _ _ _ _ (TakesAll.fw F _ _) hQ _ h
              · simp only [hcomp, if_false, Bool.false_eq_true] at h ⊢
                generalize ([0] : Bytes) = b1 at *
                rcases Snk.write b1 w2 with ⟨m3, d3, w3⟩
                cases d3 with
                | some x => exact .inl ⟨_, rfl⟩
                | none => exact body_noPanic Q _ _ _ _ _ _ _ _ ((TakesAll.buf _).ew 0) hQ _ h

end Rap
