import Verif.Proof.SinkFail
import Verif.Proof.Sample

/-!
# Outputs that fail

C23 and C24. `LawfulSnk` (Spec/Recording) is the contract of `io.Writer`. An output reports a failure as the error of a
write; `failed` below is any way of telling from its state whether, and with which error first, it has done so.
-/

namespace Rap

/-- `failed` remembers the first error an output has returned. -/
def Remembers {σ : Type} [Snk σ] (failed : σ → Option Err) : Prop :=
  ∀ b s, failed s = none → failed (Snk.write b s).2.2 = (Snk.write b s).2.1

/-- An output with a limited amount of room. -/
structure Disk where
  room : Nat
  bytes : Bytes
  full : Option Err
  deriving DecidableEq, Repr

instance : LawfulSnk Disk where
  write b d :=
    if b.length ≤ d.room then (b.length, none, { d with room := d.room - b.length, bytes := d.bytes ++ b })
    else (d.room, some (.io 28), { room := 0, bytes := d.bytes ++ b.take d.room, full := some (.io 28) })
  content := Disk.bytes
  law b d := by
    split
    · simp
    · rename_i h
      simp only [Nat.not_le] at h
      simp only [Option.some_ne_none, false_implies, and_true]
      exact Nat.le_of_lt h

theorem disk_remembers : Remembers Disk.full := by
  intro b d h
  simp only [Snk.write]
  split
  · exact h
  · rfl

theorem lawful_follows {σ : Type} [LawfulSnk σ] (failed : σ → Option Err) (hf : Remembers failed) :
    Follows (fun (s : σ) (v : Buf) => LawfulSnk.content s = v.bytes ∧ failed s = none)
      (fun s x v => LawfulSnk.content s <+: v.bytes ∧ failed s = some x) where
  good b w v _ := rfl
  step b w v hr hn := by
    obtain ⟨h1, h2⟩ := hr
    obtain ⟨l1, l2, l3⟩ := LawfulSnk.law b w
    have hl := l3 hn
    refine ⟨hl, ?_, ?_⟩
    · rw [l2, hl, List.take_length, h1]; rfl
    · rw [hf b w h2, hn]
  fail b w v x hr hn := by
    obtain ⟨h1, h2⟩ := hr
    obtain ⟨l1, l2, l3⟩ := LawfulSnk.law b w
    refine ⟨?_, ?_⟩
    · rw [l2, h1]
      exact List.prefix_append_right_inj _ |>.2 (List.take_prefix _ _)
    · rw [hf b w h2, hn]
  stay b w v x hd := ⟨⟨hd.1.trans (List.prefix_append _ _), hd.2⟩, rfl⟩

/-- C23: either the output has returned no error, and `Write` has returned what it returns for an output that never
fails, having written the same bytes; or `Write` returns the output's first error, and what the output has accepted is the
beginning of what the output that never fails gets. -/
theorem C23_failing_output {σ : Type} [LawfulSnk σ] (failed : σ → Option Err) (hf : Remembers failed) (F : Flate)
    (cfg : WriterCfg) (orders : List (List Bytes)) (rec : Rec) (out : σ) (h0 : failed out = none) (n : Nat)
    (e : Option Err) (out' : σ) (h : write F cfg orders rec out = .ok (n, e, out')) :
    (failed out' = none ∧
      write F cfg orders rec (⟨LawfulSnk.content out⟩ : Buf) = .ok (n, e, ⟨LawfulSnk.content out'⟩)) ∨
    ∃ x, failed out' = some x ∧ e = some x ∧ ∀ n' e' full,
      write F cfg orders rec (⟨LawfulSnk.content out⟩ : Buf) = .ok (n', e', full) →
        LawfulSnk.content out' <+: full.bytes := by
  rcases (lawful_follows failed hf).write F cfg orders rec out ⟨LawfulSnk.content out⟩ ⟨rfl, h0⟩ n e out' h with
    ⟨v, hv, h1, h2⟩ | ⟨x, rfl, ⟨v0, hv0⟩, hx⟩
  · left
    refine ⟨h2, ?_⟩
    rw [hv, h1]
  · exact .inr ⟨x, hv0.2, rfl, fun n' e' full hfull => (hx _ _ _ hfull).1⟩

/-- C23: the bytes a failing output has accepted are the beginning of the file. -/
theorem C23_prefix {σ : Type} [LawfulSnk σ] (failed : σ → Option Err) (hf : Remembers failed) (F : Flate)
    (cfg : WriterCfg) (orders : List (List Bytes)) (rec : Rec) (out : σ) (h0 : failed out = none) (n n' : Nat)
    (e e' : Option Err) (out' : σ) (full : Buf) (h : write F cfg orders rec out = .ok (n, e, out'))
    (hfull : write F cfg orders rec (⟨LawfulSnk.content out⟩ : Buf) = .ok (n', e', full)) :
    LawfulSnk.content out' <+: full.bytes := by
  rcases C23_failing_output failed hf F cfg orders rec out h0 n e out' h with ⟨_, hv⟩ | ⟨x, _, _, hx⟩
  · rw [hfull] at hv
    simp only [Except.ok.injEq, Prod.mk.injEq] at hv
    obtain ⟨_, _, rfl⟩ := hv
    exact List.prefix_rfl
  · exact hx _ _ _ hfull

/-- C23: success means that the whole file was accepted and no write failed. -/
theorem C23_success_whole {σ : Type} [LawfulSnk σ] (failed : σ → Option Err) (hf : Remembers failed) (F : Flate)
    (cfg : WriterCfg) (orders : List (List Bytes)) (rec : Rec) (out : σ) (h0 : failed out = none) (n : Nat)
    (out' : σ) (h : write F cfg orders rec out = .ok (n, none, out')) :
    failed out' = none ∧
      write F cfg orders rec (⟨LawfulSnk.content out⟩ : Buf) = .ok (n, none, ⟨LawfulSnk.content out'⟩) := by
  rcases C23_failing_output failed hf F cfg orders rec out h0 n none out' h with h | ⟨x, _, hx, _⟩
  · exact h
  · simp at hx

/-- C23: without compression the count `Write` returns is the number of bytes the output has accepted, whether or not it
failed. -/
theorem C23_count {σ : Type} [LawfulSnk σ] (F : Flate) (cfg : WriterCfg) (hc : cfg.compress = false)
    (orders : List (List Bytes)) (rec : Rec) (out : σ) (n : Nat) (e : Option Err) (out' : σ)
    (h : write F cfg orders rec out = .ok (n, e, out')) :
    (LawfulSnk.content out').length = (LawfulSnk.content out).length + n := by
  refine Counts.write (c := fun s : σ => (LawfulSnk.content s).length) ?_ F cfg hc orders rec out n e out' h
  intro b s
  obtain ⟨h1, h2, _⟩ := LawfulSnk.law b s
  dsimp only
  rw [h2, List.length_append, List.length_take, Nat.min_eq_left h1]

/-- The outcome of a write to a full disk: count, error, bytes on disk. -/
def diskOutcome : Go (Nat × Option Err × Disk) → Option (Nat × Option Err × Nat)
  | .ok (n, e, d) => some (n, e, d.bytes.length)
  | .error _ => none

example : Disk.full ⟨280, [], none⟩ = none ∧ sampleCfg.compress = false ∧
    diskOutcome (write storeFlate sampleCfg sampleOrders sample (⟨280, [], none⟩ : Disk)) =
      some (280, some (.io 28), 280) ∧
    diskOutcome (write storeFlate sampleCfg sampleOrders sample (⟨300, [], none⟩ : Disk)) = some (289, none, 289) := by
  decide +kernel

/-! ## C24 -/

/-- C24 is false: a recording with a binary, the output full before the binary is written: `Write` panics with
"Binary data written was larger than size in signature". -/
theorem C24_panics : ∃ (rec : Rec) (orders : List (List Bytes)) (out : Disk), GoodRec rec ∧ KeyOrders rec orders ∧
    (∃ n full, write storeFlate sampleCfg orders rec (⟨[]⟩ : Buf) = .ok (n, none, full)) ∧
    write storeFlate sampleCfg orders rec out = .error .message := by
  refine ⟨sample, sampleOrders, ⟨100, [], none⟩, sample_good, sample_orders, ⟨289, sample_write⟩, ?_⟩
  decide +kernel

/-- C24, what holds: if the recording can be written at all, then on an output that behaves in any way whatever `Write`
returns, unless some recording of the tree has a binary that is not empty; in that case the panic about the size of a
binary is the only one possible. -/
theorem C24_returns_partial {σ : Type} [Snk σ] (F : Flate) (cfg : WriterCfg) (orders : List (List Bytes)) (rec : Rec)
    (buf : Buf) (out : σ) (res : Nat × Option Err × Buf) (h : write F cfg orders rec buf = .ok res) :
    (∃ res', write F cfg orders rec out = .ok res') ∨
    (write F cfg orders rec out = .error .message ∧ ∃ r, Within r rec ∧ ∃ b, some b ∈ r.bins ∧ b.data ≠ []) := by
  rcases write_noPanic (fun x => x = .message ∧ ∃ r, Within r rec ∧ ∃ b, some b ∈ r.bins ∧ b.data ≠ []) F cfg orders rec
    buf out (fun r hr b hb hd => ⟨rfl, r, hr, b, hb, hd⟩) res h with h | ⟨x, hx, rfl, hb⟩
  · exact .inl h
  · exact .inr ⟨hx, hb⟩

example : ∃ res, write storeFlate sampleCfg sampleOrders sample (⟨[]⟩ : Buf) = .ok res :=
  let ⟨_, h⟩ := sample_write
  ⟨_, h⟩

end Rap
