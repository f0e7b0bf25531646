import Verif.Props.Commands
import Verif.Props.Output
import Verif.Props.V1

/-!
# C53: the commands that convert files report every failure
-/

namespace Rap

/-- What a command has done when it returns. It has either refused its input and not touched the output, or it was
asked to write the recording `r`: then it reports success only if the output took the whole file, and otherwise reports
the error of the output, which holds the beginning of the file. -/
def Reported {σ : Type} [LawfulSnk σ] (failed : σ → Option Err) (F : Flate) (cfg : WriterCfg)
    (orders : Rec → List (List Bytes)) (refused : Err → Prop) (wanted : Rec → Prop) (out : σ) (err : Option Err) (out' : σ) :
    Prop :=
  (∃ e, refused e ∧ err = some e ∧ out' = out) ∨
  ∃ r, wanted r ∧
    ((failed out' = none ∧ ∃ n,
        write F cfg (orders r) r (⟨LawfulSnk.content out⟩ : Buf) = .ok (n, err, ⟨LawfulSnk.content out'⟩)) ∨
      ∃ x, failed out' = some x ∧ err = some x ∧ ∀ n e full,
        write F cfg (orders r) r (⟨LawfulSnk.content out⟩ : Buf) = .ok (n, e, full) →
          LawfulSnk.content out' <+: full.bytes)

theorem reported_write {σ : Type} [LawfulSnk σ] {failed : σ → Option Err} (hf : Remembers failed) {F : Flate}
    {cfg : WriterCfg} {orders : Rec → List (List Bytes)} {refused : Err → Prop} {wanted : Rec → Prop} {out out' : σ}
    {err : Option Err} (h0 : failed out = none) {r : Rec} (hr : wanted r)
    (h : (do
      let (_, err, out) ← write F cfg (orders r) r out
      Except.ok (err, out)) = (.ok (err, out') : Go (Option Err × σ))) :
    Reported failed F cfg orders refused wanted out err out' := by
  cases hw : write F cfg (orders r) r out with
  | error p => rw [hw] at h; cases h
  | ok x =>
    obtain ⟨n, e, o⟩ := x
    rw [hw] at h
    cases h
    refine .inr ⟨r, hr, ?_⟩
    rcases C23_failing_output failed hf F cfg (orders r) r out h0 n err out' hw with ⟨h1, h2⟩ | h2
    · exact .inl ⟨h1, n, h2⟩
    · exact .inr h2

/-- C53, from-csv: the error is the one of the table or of the output, and success means that all was written. -/
theorem C53_from_csv {σ : Type} [LawfulSnk σ] (failed : σ → Option Err) (hf : Remembers failed) (T : CsvExt) (F : Flate)
    (orders : Rec → List (List Bytes)) (input : CsvInput) (out out' : σ) (h0 : failed out = none) (err : Option Err)
    (h : fromCsv T F orders input out = .ok (err, out')) :
    Reported failed F csvWriter orders (fun e => (recordingFromCSV T input).run = .ok (.error e))
      (fun r => (recordingFromCSV T input).run = .ok (.ok r)) out err out' := by
  rw [fromCsv] at h
  cases hr : (recordingFromCSV T input).run with
  | error p => rw [hr] at h; cases h
  | ok x =>
    rw [hr] at h
    cases x with
    | error e => cases h; exact .inl ⟨e, rfl, rfl, rfl⟩
    | ok r => exact reported_write hf h0 rfl h

/-- C53, from-json. -/
theorem C53_from_json {σ : Type} [LawfulSnk σ] (failed : σ → Option Err) (hf : Remembers failed) (X : JsonExt) (F : Flate)
    (orders : Rec → List (List Bytes)) (doc : Except Err JVal) (out out' : σ) (h0 : failed out = none) (err : Option Err)
    (h : fromJson X F orders doc out = .ok (err, out')) :
    Reported failed F cliWriter orders (fun e => (fromJSON X doc).run = .ok (.error e))
      (fun r => (fromJSON X doc).run = .ok (.ok r)) out err out' := by
  rw [fromJson] at h
  cases hr : (fromJSON X doc).run with
  | error p => rw [hr] at h; cases h
  | ok x =>
    rw [hr] at h
    cases x with
    | error e => cases h; exact .inl ⟨e, rfl, rfl, rfl⟩
    | ok r => exact reported_write hf h0 rfl h

/-- C53, upgrade. -/
theorem C53_upgrade {σ τ : Type} [Drain τ] [LawfulSnk σ] (failed : σ → Option Err) (hf : Remembers failed) (F : Flate)
    (X : Ext) (unmarshal : Bytes → Except Err V1.Recording) (orders : Rec → List (List Bytes)) (s : τ) (out out' : σ)
    (h0 : failed out = none) (err : Option Err) (h : upgrade F X unmarshal orders s out = .ok (err, out')) :
    Reported failed F cliWriter orders (fun e => ∃ r n s', load F X unmarshal s = .ok ((r, n, some e), s'))
      (fun r => ∃ n s', load F X unmarshal s = .ok ((r, n, none), s')) out err out' := by
  rw [upgrade] at h
  cases hr : load F X unmarshal s with
  | error p => rw [hr] at h; cases h
  | ok x =>
    obtain ⟨⟨r, n, e⟩, s'⟩ := x
    rw [hr] at h
    cases e with
    | some e => cases h; exact .inl ⟨e, ⟨r, n, s', rfl⟩, rfl, rfl⟩
    | none => exact reported_write hf h0 ⟨n, s', rfl⟩ h

/-- C53: when from-csv reports success on any output that keeps track of its failures, what was added to the output is a
file that `Load` reads as the recording made of the table. -/
theorem C53_csv_success_loads {σ : Type} [LawfulSnk σ] (failed : σ → Option Err) (hf : Remembers failed) {T : CsvExt}
    (hT : T.Lawful) (F : Flate) (hF : F.Lawful) (X : Ext) (unmarshal : Bytes → Except Err V1.Recording)
    (orders : Rec → List (List Bytes)) (hko : ∀ r, KeyOrders r (orders r)) (input : CsvInput) (out out' : σ)
    (h0 : failed out = none) (he : LawfulSnk.content out = []) (h : fromCsv T F orders input out = .ok (none, out')) :
    ∃ r n, recordingFromCSV T input = pure r ∧ (n ≤ sizeLimit →
      ∃ s, load F X unmarshal (⟨LawfulSnk.content out', .eof⟩ : Flat) = .ok ((r, n, none), s)) := by
  rcases C53_from_csv failed hf T F orders input out out' h0 none h with ⟨e, _, h1, _⟩ | ⟨r, hr, h1⟩
  · cases h1
  · rcases h1 with ⟨_, n, hw⟩ | ⟨x, _, hx, _⟩
    · obtain ⟨n', out1, _, hw', hl⟩ := C51_from_csv hT F hF X unmarshal orders (r := r) (input := input) hr (hko r)
      rw [he, hw'] at hw
      cases hw
      exact ⟨r, _, hr, hl⟩
    · cases hx

/-- A disk with room for ten bytes: from-csv reports that it is full. -/
example : Remembers Disk.full ∧ sampleCsv.Lawful ∧ storeFlate.Lawful ∧ Disk.full ⟨10, [], none⟩ = none ∧
    (∀ r, KeyOrders r ((visitedBlocks r).map fun b => b.map (·.1))) ∧
    (fromCsv sampleCsv storeFlate (fun r => (visitedBlocks r).map fun b => b.map (·.1)) sampleTable
      (⟨10, [], none⟩ : Disk)).map (fun r => (r.1, r.2.bytes.length)) = .ok (some (.io 28), 10) ∧
    (fromCsv sampleCsv storeFlate (fun r => (visitedBlocks r).map fun b => b.map (·.1)) sampleTable
      (⟨1000, [], none⟩ : Disk)).map (fun r => (r.1, r.2.full)) = .ok (none, none) ∧
    (fromCsv sampleCsv storeFlate (fun r => (visitedBlocks r).map fun b => b.map (·.1)) { sampleTable with stop := some (.parse 99) }
      (⟨1000, [], none⟩ : Disk)).map (fun r => (r.1, r.2.bytes)) = .ok (some (.parse 99), []) := by
  refine ⟨disk_remembers, sampleCsv_lawful, storeFlate_lawful, rfl, fun r => ?_, ?_, ?_, ?_⟩
  · rw [KeyOrders, List.forall₂_map_left_iff, List.forall₂_same]
    exact fun b _ => List.Perm.refl _
  all_goals decide +kernel

end Rap
