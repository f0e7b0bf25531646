import Verif.Proof.Mapping

/-! # Whole files -/

namespace Rap

/-! ## Sinks that take everything -/

/-- No list of writes makes the sink fail. -/
def TakesAll {σ : Type} [Snk σ] (s : σ) : Prop := ∀ ws, ∃ s', Takes s ws s'

theorem TakesAll.step {σ : Type} [Snk σ] {s : σ} (h : TakesAll s) (b : Bytes) :
    (Snk.write b s).1 = b.length ∧ (Snk.write b s).2.1 = none ∧ TakesAll (Snk.write b s).2.2 := by
  obtain ⟨s', hs⟩ := h [b]
  cases hs with
  | cons _ _ _ _ h1 h2 h3 =>
    refine ⟨h1, h2, fun ws => ?_⟩
    obtain ⟨s'', hs'⟩ := h (b :: ws)
    cases hs' with
    | cons _ _ _ _ g1 g2 g3 => exact ⟨s'', g3⟩

theorem TakesAll.buf (s : Buf) : TakesAll s := fun ws => ⟨_, Takes.buf s ws⟩

theorem TakesAll.ew {σ : Type} [Snk σ] {s : σ} (h : TakesAll s) (n : Nat) : TakesAll (⟨s, none, n⟩ : EW σ) := by
  intro ws
  obtain ⟨s', hs⟩ := h ws
  exact ⟨_, hs.ew n⟩

theorem TakesAll.fw (F : Flate) (s : Buf) (st : F.S) : TakesAll (⟨s, st, none⟩ : FW F Buf) :=
  fun ws => ⟨_, Takes.fw F s st ws⟩

theorem Takes.det {σ : Type} [Snk σ] {s s' s'' : σ} {ws : List Bytes} (h : Takes s ws s') (h' : Takes s ws s'') :
    s' = s'' := by
  induction h with
  | nil s => cases h'; rfl
  | cons s b ws s' h1 h2 h3 ih =>
    cases h' with
    | cons _ _ _ _ g1 g2 g3 => exact ih g3

theorem WProg.run_panic {α σ : Type} [Snk σ] (p : WProg α) (x : Panic) (s : σ) (n : Nat) (h : p.emit = .error x)
    (ht : TakesAll s) : p.run (⟨s, none, n⟩ : EW σ) = .error x := by
  induction p generalizing s n with
  | pure a => simp [emit] at h
  | panic y => simpa [emit, run] using h
  | write b k ih =>
    obtain ⟨h1, h2, h3⟩ := ht.step b
    simp only [run, EW.write]
    rcases hw : Snk.write b s with ⟨n1, e1, s1⟩
    rw [hw] at h1 h2 h3
    simp only at h1 h2 h3
    subst h1 h2
    simp only
    apply ih _ _ _ _ _ h3
    simp only [emit] at h
    cases hk : (k b.length none).emit with
    | ok r => rw [hk] at h; simp at h
    | error y => rw [hk] at h; simpa using h
  | err k ih =>
    simp only [emit] at h
    simp only [run]
    exact ih none s n h ht

/-- On a sink that takes everything, a run that returns is what `emit` says. -/
theorem WProg.emit_of_run {α σ : Type} [Snk σ] (p : WProg α) (s : σ) (n : Nat) (a : α) (s' : EW σ) (ht : TakesAll s)
    (h : p.run (⟨s, none, n⟩ : EW σ) = .ok (a, s')) :
    ∃ ws s1, p.emit = .ok (a, ws) ∧ Takes s ws s1 ∧ s' = ⟨s1, none, n + ws.flatten.length⟩ := by
  cases he : p.emit with
  | error x => rw [p.run_panic x s n he ht] at h; simp at h
  | ok r =>
    obtain ⟨a', ws⟩ := r
    obtain ⟨s1, hs1⟩ := ht ws
    rw [p.run_takes a' ws s s1 n he hs1] at h
    simp only [Except.ok.injEq, Prod.mk.injEq] at h
    obtain ⟨rfl, rfl⟩ := h
    exact ⟨ws, s1, rfl, hs1, rfl⟩

/-! ## Headers -/

/-- `writeHeaders` without the output: headers, blocks and encoder indexes. -/
def encodeAll : List Mapping → (k : Nat) → List Bytes × List Nat → Go (Except Err (List Bytes × List Bytes × List Nat))
  | [], _, acc => .ok (.ok ([], acc))
  | m :: ms, k, acc => do
    match ← m.encoder.encode m.colls with
    | .error e => .ok (.error e)
    | .ok (header, streams) =>
      let acc ← assignBlocks k m.order streams acc
      match ← encodeAll ms (k + 1) acc with
      | .error e => .ok (.error e)
      | .ok (hs, acc) => .ok (.ok (header :: hs, acc))

theorem encodeAll_cons {m : Mapping} {ms : List Mapping} {k : Nat} {acc : List Bytes × List Nat} {hs : List Bytes}
    {r : List Bytes × List Nat} (h : encodeAll (m :: ms) k acc = .ok (.ok (hs, r))) :
    ∃ header streams acc1 hs1, m.encoder.encode m.colls = .ok (.ok (header, streams)) ∧
      assignBlocks k m.order streams acc = .ok acc1 ∧ encodeAll ms (k + 1) acc1 = .ok (.ok (hs1, r)) ∧
      hs = header :: hs1 := by
  simp only [encodeAll] at h
  cases he : m.encoder.encode m.colls with
  | error x => simp [he, bind, Except.bind] at h
  | ok res =>
    cases res with
    | error e => simp [he, bind, Except.bind] at h
    | ok res =>
      obtain ⟨header, streams⟩ := res
      simp only [he, bind, Except.bind] at h
      cases ha : assignBlocks k m.order streams acc with
      | error x => simp [ha] at h
      | ok acc1 =>
        simp only [ha] at h
        cases hr : encodeAll ms (k + 1) acc1 with
        | error x => simp [hr] at h
        | ok res =>
          cases res with
          | error e => simp [hr] at h
          | ok res =>
            obtain ⟨hs1, acc2⟩ := res
            simp only [hr, Except.ok.injEq, Prod.mk.injEq] at h
            obtain ⟨rfl, rfl⟩ := h
            exact ⟨header, streams, acc1, hs1, rfl, ha, hr, rfl⟩

theorem writeHeaders_takes {ω : Type} [Snk ω] (ms : List Mapping) (k : Nat) (acc : List Bytes × List Nat) (total : Nat)
    (w w' : ω) (hs : List Bytes) (r : List Bytes × List Nat) (h : encodeAll ms k acc = .ok (.ok (hs, r)))
    (ht : Takes w (hs.map bytesArrayToBytes) w') :
    writeHeaders ms k acc total w = .ok (total + (hs.map bytesArrayToBytes).flatten.length, .ok r, w') := by
  induction ms generalizing k acc total w hs with
  | nil =>
    simp only [encodeAll, Except.ok.injEq, Prod.mk.injEq] at h
    obtain ⟨rfl, rfl⟩ := h
    cases ht
    simp [writeHeaders]
  | cons m ms ih =>
    obtain ⟨header, streams, acc1, hs1, h1, h2, h3, rfl⟩ := encodeAll_cons h
    cases ht with
    | cons _ _ _ _ g1 g2 g3 =>
      simp only [writeHeaders, h1, h2, bind, Except.bind]
      rcases hw : Snk.write (bytesArrayToBytes header) w with ⟨n1, e1, s1⟩
      rw [hw] at g1 g2 g3
      simp only at g1 g2 g3
      subst g1 g2
      simp only
      rw [ih _ _ _ _ _ h3 g3]
      simp [Nat.add_assoc]

/-- On a sink that takes everything, headers were all encoded. -/
theorem encodeAll_of_write {ω : Type} [Snk ω] (ms : List Mapping) (k : Nat) (acc : List Bytes × List Nat) (total t : Nat)
    (w w' : ω) (r : List Bytes × List Nat) (h : writeHeaders ms k acc total w = .ok (t, .ok r, w')) :
    ∃ hs, encodeAll ms k acc = .ok (.ok (hs, r)) := by
  induction ms generalizing k acc total w with
  | nil =>
    simp only [writeHeaders, Except.ok.injEq, Prod.mk.injEq] at h
    exact ⟨[], by simp [encodeAll, h.2.1]⟩
  | cons m ms ih =>
    simp only [writeHeaders] at h
    cases he : m.encoder.encode m.colls with
    | error x => simp [he, bind, Except.bind] at h
    | ok res =>
      cases res with
      | error e => simp [he, bind, Except.bind] at h
      | ok res =>
        obtain ⟨header, streams⟩ := res
        simp only [he, bind, Except.bind] at h
        cases ha : assignBlocks k m.order streams acc with
        | error x => simp [ha] at h
        | ok acc1 =>
          simp only [ha] at h
          rcases hw : Snk.write (bytesArrayToBytes header) w with ⟨n1, e1, s1⟩
          cases e1 with
          | some e => simp [hw] at h
          | none =>
            simp only [hw] at h
            obtain ⟨hs, hh⟩ := ih _ _ _ _ h
            exact ⟨header :: hs, by simp [encodeAll, he, ha, hh, bind, Except.bind]⟩

/-! ## The start of a file -/

/-- Version, encoders, flag. -/
def prelude (ms : List Mapping) (flag : UInt8) : Bytes :=
  2 :: (stringArrayToBytes (ms.map fun m => m.encoder.sig) ++
    ((ms.map fun m => putUvarint (u64 m.encoder.version)).flatten ++ [flag]))

theorem writeVersions_buf (ms : List Mapping) (total : Nat) (s : Buf) :
    writeVersions ms total s =
      (total + (ms.map fun m => putUvarint (u64 m.encoder.version)).flatten.length, none,
        ⟨s.bytes ++ (ms.map fun m => putUvarint (u64 m.encoder.version)).flatten⟩) := by
  induction ms generalizing total s with
  | nil => simp [writeVersions]
  | cons m ms ih =>
    simp only [writeVersions, Snk.write, ih]
    simp [Nat.add_assoc]

theorem writeEncoders_buf (ms : List Mapping) (s : Buf) :
    writeEncoders ms s =
      ((stringArrayToBytes (ms.map fun m => m.encoder.sig)).length +
        (ms.map fun m => putUvarint (u64 m.encoder.version)).flatten.length, none,
        ⟨s.bytes ++ stringArrayToBytes (ms.map fun m => m.encoder.sig) ++
          (ms.map fun m => putUvarint (u64 m.encoder.version)).flatten⟩) := by
  simp only [writeEncoders, Snk.write, writeVersions_buf]

/-- All writes after the start of the file. -/
def bodyWrites (orders : List (List Bytes)) (hs : List Bytes) (ws : List Bytes) : List Bytes :=
  hs.map bytesArrayToBytes ++ (stringArrayToBytes (accumulateKeys orders) :: ws)

theorem writeBody_inv {ω σ : Type} [Snk σ] [WC ω σ] (tech : Nat) (orders : List (List Bytes)) (rec : Rec)
    (ms : List Mapping) (total : Nat) (w : ω) (n : Nat) (s' : σ) (ht : TakesAll w)
    (h : writeBody tech orders rec ms total w = .ok (n, none, s')) :
    ∃ hs blocks idx x ws w', encodeAll ms 0 (List.replicate (calcNumStreams rec) [],
        List.replicate (calcNumStreams rec) 0) = .ok (.ok (hs, blocks, idx)) ∧
      (recurseWrite ⟨accumulateKeys orders, blocks, idx, tech⟩ rec 0).emit = .ok (.ok x, ws) ∧
      Takes w (bodyWrites orders hs ws) w' ∧ n = total + (bodyWrites orders hs ws).flatten.length ∧
      WC.close w' = (none, s') := by
  simp only [writeBody] at h
  cases hwh : writeHeaders ms 0 (List.replicate (calcNumStreams rec) [], List.replicate (calcNumStreams rec) 0)
      total w with
  | error x => simp [hwh, bind, Except.bind] at h
  | ok res =>
    obtain ⟨t1, r, w1⟩ := res
    cases r with
    | error e => simp [hwh, bind, Except.bind] at h
    | ok r =>
      obtain ⟨blocks, idx⟩ := r
      obtain ⟨hs, henc⟩ := encodeAll_of_write _ _ _ _ _ _ _ _ hwh
      obtain ⟨w1', hw1'⟩ := ht (hs.map bytesArrayToBytes)
      have hfw := writeHeaders_takes ms 0 _ total w w1' hs _ henc hw1'
      rw [hwh] at hfw
      simp only [Except.ok.injEq, Prod.mk.injEq, true_and] at hfw
      obtain ⟨rfl, rfl⟩ := hfw
      have ht1 : TakesAll w1 := by
        intro ws
        obtain ⟨w2, h2⟩ := ht (hs.map bytesArrayToBytes ++ ws)
        have aux : ∀ {s s1 s2 : ω} {l l' : List Bytes}, Takes s l s1 → Takes s (l ++ l') s2 → Takes s1 l' s2 := by
          intro s s1 s2 l l' h h'
          induction h with
          | nil s => exact h'
          | cons s b ws s' g1 g2 g3 ih =>
            cases h' with
            | cons _ _ _ _ k1 k2 k3 => exact ih k3
        exact ⟨w2, aux hw1' h2⟩
      simp only [hwh, bind, Except.bind] at h
      obtain ⟨k1, k2, k3⟩ := ht1.step (stringArrayToBytes (accumulateKeys orders))
      rcases hw : Snk.write (stringArrayToBytes (accumulateKeys orders)) w1 with ⟨n2, e2, w2⟩
      rw [hw] at k1 k2 k3
      simp only at k1 k2 k3
      subst k1 k2
      simp only [hw] at h
      cases hr : (recurseWrite ⟨accumulateKeys orders, blocks, idx, tech⟩ rec 0).run (EW.new w2) with
      | error x => simp [hr] at h
      | ok res =>
        obtain ⟨r, ew⟩ := res
        simp only [hr] at h
        obtain ⟨ws, w3, e1, e2, rfl⟩ := WProg.emit_of_run _ _ _ _ _ k3 hr
        cases r with
        | error e => simp at h
        | ok x =>
          simp only at h
          rcases hc : (WC.close w3 : Option Err × σ) with ⟨err, s⟩
          simp only [hc, Except.ok.injEq, Prod.mk.injEq] at h
          obtain ⟨rfl, rfl, rfl⟩ := h
          refine ⟨hs, blocks, idx, x, ws, w3, henc, e1, ?_, ?_, hc⟩
          · refine hw1'.append (.cons _ _ _ _ ?_ ?_ ?_)
            · rw [hw]
            · rw [hw]
            · rw [hw]; exact e2
          · simp only [bodyWrites, List.flatten_append, List.flatten_cons, List.length_append]; omega

/-- What a successful `Write` to memory has written. -/
theorem write_shape (F : Flate) (cfg : WriterCfg) (orders : List (List Bytes)) (rec : Rec) (out out' : Buf) (n : Nat)
    (h : write F cfg orders rec out = .ok (n, none, out')) :
    ∃ ms off hs blocks idx x ws, evaluateCollections cfg.encoders rec 0 = .ok (.ok (ms, off)) ∧
      encodeAll ms 0 (List.replicate (calcNumStreams rec) [], List.replicate (calcNumStreams rec) 0) =
        .ok (.ok (hs, blocks, idx)) ∧
      (recurseWrite ⟨accumulateKeys orders, blocks, idx, cfg.tech⟩ rec 0).emit = .ok (.ok x, ws) ∧
      n = (prelude ms 0).length + (bodyWrites orders hs ws).flatten.length ∧
      out'.bytes = out.bytes ++ (prelude ms (if cfg.compress then 1 else 0) ++
        if cfg.compress then F.output F.init (bodyWrites orders hs ws) else (bodyWrites orders hs ws).flatten) := by
  cases rec with
  | nil => simp [write] at h
  | mk id name colls recs md bins refs =>
    simp only [write] at h
    cases hcheck : checkForNil (.mk id name colls recs md bins refs) with
    | some e => simp [hcheck] at h
    | none =>
      simp only [hcheck] at h
      cases hev : evaluateCollections cfg.encoders (.mk id name colls recs md bins refs) 0 with
      | error x => simp [hev, bind, Except.bind] at h
      | ok res =>
        cases res with
        | error e => simp [hev, bind, Except.bind] at h
        | ok res =>
          obtain ⟨ms, off⟩ := res
          simp only [hev, bind, Except.bind] at h
          have hw2 : (Snk.write [2] out : Nat × Option Err × Buf) = (1, none, ⟨out.bytes ++ [2]⟩) := rfl
          simp only [hw2, writeEncoders_buf] at h
          split at h
          · rename_i hcomp
            have hw1 : ∀ s : Buf, (Snk.write [1] s : Nat × Option Err × Buf) = (1, none, ⟨s.bytes ++ [1]⟩) :=
              fun _ => rfl
            simp only [hw1] at h
            obtain ⟨hs, blocks, idx, x, ws, w', h1, h2, h3, h4, h5⟩ :=
              writeBody_inv _ _ _ _ _ _ _ _ (TakesAll.fw F _ _) h
            refine ⟨ms, off, hs, blocks, idx, x, ws, rfl, h1, h2, ?_, ?_⟩
            · rw [h4]; simp [prelude]; omega
            · rw [hcomp, if_pos rfl, if_pos rfl]
              have := Takes.det h3 (Takes.fw F _ _ _)
              subst this
              simp only [WC.close, writeAll_buf, Prod.mk.injEq, true_and] at h5
              rw [← h5, Flate.output_eq]
              simp [prelude]
          · rename_i hcomp
            have hw1 : ∀ s : Buf, (Snk.write [0] s : Nat × Option Err × Buf) = (1, none, ⟨s.bytes ++ [0]⟩) :=
              fun _ => rfl
            simp only [hw1] at h
            obtain ⟨hs, blocks, idx, x, ws, w', h1, h2, h3, h4, h5⟩ :=
              writeBody_inv _ _ _ _ _ _ _ _ (TakesAll.ew (TakesAll.buf _) 0) h
            refine ⟨ms, off, hs, blocks, idx, x, ws, rfl, h1, h2, ?_, ?_⟩
            · rw [h4]; simp [prelude]; omega
            · rw [if_neg hcomp, if_neg hcomp]
              have := Takes.det h3 ((Takes.buf _ _).ew 0)
              subst this
              simp only [WC.close, Prod.mk.injEq, true_and] at h5
              rw [← h5]
              simp [prelude]

end Rap
