import Verif.Props.V1

/-!
# C54: version 1 files are accepted only whole
-/

namespace Rap

/-- A version 1 file after its first byte: the number of recordings, which is one; the length of the compressed
recording; the compressed recording. -/
structure V1Body (X : Ext) (unmarshal : Bytes → Except Err V1.Recording) (body : Bytes) (v : V1.Recording) (rest : Bytes) :
    Prop where
  intro ::
  parts : ∃ len data plain, body = [1, 0, 0, 0] ++ (len ++ (data ++ rest)) ∧ len.length = 8 ∧
    leNat len = data.length ∧ X.inflateAll data = .ok plain ∧ unmarshal plain = .ok v

theorem leNat_one {b : Bytes} (hl : b.length = 4) (h : leNat b = 1) : b = [1, 0, 0, 0] := by
  match b, hl with
  | [a, b, c, d], _ =>
    simp only [leNat] at h
    have h1 := a.toNat_lt
    have ha : a.toNat = 1 := by omega
    have hb : b.toNat = 0 := by omega
    have hc : c.toNat = 0 := by omega
    have hd : d.toNat = 0 := by omega
    rw [UInt8.toNat_inj.1 (ha.trans rfl : a.toNat = (1 : UInt8).toNat),
      UInt8.toNat_inj.1 (hb.trans rfl : b.toNat = (0 : UInt8).toNat),
      UInt8.toNat_inj.1 (hc.trans rfl : c.toNat = (0 : UInt8).toNat),
      UInt8.toNat_inj.1 (hd.trans rfl : d.toNat = (0 : UInt8).toNat)]

/-- What a read without error from bytes in memory returned. -/
theorem flat_read_some {n : Nat} {s s' : Flat} {b : Bytes} (h : Src.read n s = (b, none, s')) (hb : b.length = n) :
    s.data = b ++ s'.data ∧ s'.fin = s.fin := by
  simp only [Src.read] at h
  split at h
  · simp at h
  · simp only [Prod.mk.injEq, true_and] at h
    obtain ⟨rfl, rfl⟩ := h
    exact ⟨(List.take_append_drop n s.data).symm, rfl⟩

theorem readRecording_some {X : Ext} {unmarshal : Bytes → Except Err V1.Recording} {s s' : Flat} {r : Rec} {n : Nat}
    (h : (V1.readRecording X unmarshal).run s = .ok ((r, n, none), s')) :
    ∃ v, V1Body X unmarshal s.data v s'.data ∧ r = V1.protobufToStd X v ∧ n + s'.data.length = s.data.length := by
  rw [V1.readRecording, Prog.run] at h
  rcases h1 : Src.read 4 s with ⟨b, e, s1⟩
  rw [h1] at h
  dsimp only at h
  cases e with
  | some e => simp [Prog.run] at h
  | none =>
    dsimp only at h
    split at h
    · simp [Prog.run] at h
    · next hb =>
      split at h
      · simp [Prog.run] at h
      · next h4 =>
        rw [Prog.run] at h
        rcases h2 : Src.read 8 s1 with ⟨b8, e, s2⟩
        rw [h2] at h
        dsimp only at h
        cases e with
        | some e => simp [Prog.run] at h
        | none =>
          dsimp only at h
          split at h
          · simp [Prog.run] at h
          · next h8 =>
            rw [Prog.bind_eq, Prog.make] at h
            split at h
            · simp only [Prog.bind, Prog.run] at h
              rcases h3 : Src.read (leNat b8) s2 with ⟨data, e, s3⟩
              rw [h3] at h
              dsimp only at h
              cases e with
              | some e => simp [Prog.run] at h
              | none =>
                dsimp only at h
                split at h
                · simp [Prog.run] at h
                · next hd =>
                  cases hi : X.inflateAll data with
                  | error e => rw [hi] at h; simp [Prog.run] at h
                  | ok plain =>
                    rw [hi] at h
                    dsimp only at h
                    cases hu : unmarshal plain with
                    | error e => rw [hu] at h; simp [Prog.run] at h
                    | ok v =>
                      rw [hu] at h
                      simp only [Prog.run, Except.ok.injEq, Prod.mk.injEq, and_true] at h
                      obtain ⟨⟨rfl, rfl⟩, rfl⟩ := h
                      simp only [ne_eq, not_not] at hb h4 h8 hd
                      obtain ⟨p1, -⟩ := flat_read_some h1 hb
                      obtain ⟨p2, -⟩ := flat_read_some h2 h8
                      obtain ⟨p3, -⟩ := flat_read_some h3 hd
                      rw [leNat_one hb h4] at p1
                      refine ⟨v, ⟨⟨b8, data, plain, by rw [p1, p2, p3], h8, hd.symm, hi, hu⟩⟩, rfl, ?_⟩
                      rw [p1, p2, p3]
                      simp only [List.length_append, h8, List.length_cons, List.length_nil]
                      omega
            · simp [Prog.bind, Prog.run] at h

/-- C54: a file that starts with the version byte 1 is loaded without error only if it holds one recording, all the
compressed bytes it announces, and these decompress to a version 1 recording; the result is that recording converted,
and the number of bytes reported is the number consumed. -/
theorem C54_accepted (F : Flate) (X : Ext) (unmarshal : Bytes → Except Err V1.Recording) (body : Bytes) (fin : Err)
    (r : Rec) (n : Nat) (s : Flat) (h : load F X unmarshal (⟨1 :: body, fin⟩ : Flat) = .ok ((r, n, none), s)) :
    ∃ v rest, V1Body X unmarshal body v rest ∧ r = V1.protobufToStd X v ∧ n + rest.length = body.length + 1 := by
  rw [load, read, readPrelude, Prog.run] at h
  have hr : Src.read 1 (⟨1 :: body, fin⟩ : Flat) = ([1], none, ⟨body, fin⟩) := rfl
  rw [hr] at h
  dsimp only at h
  change ((((V1.readRecording X unmarshal).bind fun r => Prog.pure (Sum.inl (r.1, r.2.1 + 1, r.2.2))).run _).bind _ : Go _) = _ at h
  rw [Prog.run_bind] at h
  cases hv : (V1.readRecording X unmarshal).run (⟨body, fin⟩ : Flat) with
  | error p => rw [hv] at h; simp [Except.bind] at h
  | ok a =>
    obtain ⟨⟨r', n', e'⟩, s'⟩ := a
    rw [hv] at h
    simp only [Except.bind, Prog.run] at h
    simp only [Except.ok.injEq, Prod.mk.injEq] at h
    obtain ⟨⟨rfl, rfl, rfl⟩, rfl⟩ := h
    obtain ⟨v, hb, rfl, hn⟩ := readRecording_some hv
    exact ⟨v, s'.data, hb, rfl, by simp only at hn; omega⟩

/-- C54: no proper prefix of a version 1 file loads without error: bytes missing at the end are always noticed. -/
theorem C54_cut (F : Flate) (X : Ext) (unmarshal : Bytes → Except Err V1.Recording) (len data : Bytes) (k : Nat)
    (fin : Err) (hl : len.length = 8) (hd : leNat len = data.length) (hk : k < data.length + 12) (r : Rec) (n : Nat) (s : Flat) :
    load F X unmarshal (⟨1 :: ([1, 0, 0, 0] ++ (len ++ data)).take k, fin⟩ : Flat) ≠ .ok ((r, n, none), s) := by
  intro h
  obtain ⟨v, rest, ⟨len', data', plain, hb, hl', hd', -⟩, -⟩ := C54_accepted F X unmarshal _ fin r n s h
  have hlen := congrArg List.length hb
  simp only [List.length_take, List.length_append, List.length_cons, List.length_nil, hl, hl'] at hlen
  have h12 : 12 ≤ k := by omega
  have : len' = len := by
    have := congrArg (fun l => (l.drop 4).take 8) hb
    simp only [List.drop_take, List.take_take] at this
    rw [show min 8 (k - 4) = 8 by omega] at this
    simpa [← hl, hl'] using this.symm
  subst this
  omega

/-- C54: conversely, such a file is loaded, as the recording converted. -/
theorem C54_loaded (F : Flate) (X : Ext) (unmarshal : Bytes → Except Err V1.Recording) (v : V1.Recording)
    (len data plain rest : Bytes) (fin : Err) (hl : len.length = 8) (hd : leNat len = data.length) (hne : data ≠ [])
    (hm : data.length ≤ maxAlloc) (hi : X.inflateAll data = .ok plain) (hu : unmarshal plain = .ok v) :
    load F X unmarshal (⟨1 :: ([1, 0, 0, 0] ++ (len ++ (data ++ rest))), fin⟩ : Flat) =
      .ok ((V1.protobufToStd X v, 13 + data.length, none), ⟨rest, fin⟩) := by
  have hlen : len ≠ [] := by intro h; simp [h] at hl
  have r2 := flat_read (d := [1, 0, 0, 0]) (rest := len ++ (data ++ rest)) (fin := fin) (by simp)
  have r3 := flat_read (d := len) (rest := data ++ rest) (fin := fin) hlen
  have r4 := flat_read (d := data) (rest := rest) (fin := fin) hne
  rw [hl] at r3
  rw [← hd] at r4
  have hv1 : (V1.readRecording X unmarshal).run (⟨[1, 0, 0, 0] ++ (len ++ (data ++ rest)), fin⟩ : Flat) =
      .ok ((V1.protobufToStd X v, 12 + data.length, none), ⟨rest, fin⟩) := by
    rw [V1.readRecording, Prog.run]
    change Src.read (σ := Flat) 4 _ = _ at r2
    rw [r2]
    have h4 : leNat [1, 0, 0, 0] = 1 := by decide
    simp only [List.length_cons, List.length_nil, ne_eq, not_true_eq_false, if_false, h4, Prog.run]
    rw [r3]
    have hmk : leNat len * 1 ≤ maxAlloc := by omega
    simp only [hl, not_true_eq_false, if_false, Prog.make, hmk, if_true, Prog.bind_eq, Prog.bind, Prog.run]
    rw [r4]
    simp only [hd, not_true_eq_false, if_false, hi, hu, Prog.run]
  rw [load, read, readPrelude, Prog.run]
  have hr : Src.read 1 (⟨1 :: ([1, 0, 0, 0] ++ (len ++ (data ++ rest))), fin⟩ : Flat) =
    ([1], none, ⟨[1, 0, 0, 0] ++ (len ++ (data ++ rest)), fin⟩) := rfl
  rw [hr]
  dsimp only
  change ((((V1.readRecording X unmarshal).bind fun r => Prog.pure (Sum.inl (r.1, r.2.1 + 1, r.2.2))).run _).bind _ : Go _) = _
  rw [Prog.run_bind, hv1]
  simp only [Except.bind, Prog.run]
  rw [show 12 + data.length + 1 = 13 + data.length by omega]

/-- The sample file loads; with one byte less, or two recordings announced, it does not. -/
example : [2, 0, 0, 0, 0, 0, 0, 0].length = 8 ∧ leNat [2, 0, 0, 0, 0, 0, 0, 0] = [7, 7].length ∧
    (load storeFlate oneExt (fun _ => .ok v1Sample) (⟨1 :: ([1, 0, 0, 0] ++ ([2, 0, 0, 0, 0, 0, 0, 0] ++ ([7, 7] ++ []))), .eof⟩ :
      Flat)).map (fun a => a.1.2) = .ok (15, none) ∧
    (load storeFlate oneExt (fun _ => .ok v1Sample) (⟨1 :: ([1, 0, 0, 0] ++ ([2, 0, 0, 0, 0, 0, 0, 0] ++ [7])), .eof⟩ :
      Flat)).map (fun a => a.1.2) = .ok (14, some (.parse 1)) ∧
    (load storeFlate oneExt (fun _ => .ok v1Sample) (⟨1 :: ([2, 0, 0, 0] ++ ([2, 0, 0, 0, 0, 0, 0, 0] ++ [7, 7])), .eof⟩ :
      Flat)).map (fun a => a.1.2) = .ok (5, some (.parse 2)) := by
  refine ⟨rfl, by decide, by decide +kernel, by decide +kernel, by decide +kernel⟩

end Rap
