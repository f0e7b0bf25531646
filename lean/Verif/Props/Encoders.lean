import Verif.Proof.Post
import Verif.Proof.WriteOk

/-!
# C07, C08, C09, C12, C14, C29, C39: encoders of collections and times
-/

namespace Rap

/-! ## C07 -/

/-- C07: encoding any enum collections together always succeeds, gives one block per collection, and decoding each
block with the shared header and the times supplied returns its name, its members and its values. -/
theorem C07_enum_roundtrip (cs : List (Bytes × List Bytes × List (F64 × BitVec 64))) :
    ∃ h bs, enumEncode (cs.map fun c => .enum c.1 c.2.1 c.2.2) = .ok (.ok (h, bs)) ∧ bs.length = cs.length ∧
      (h.length ≤ sizeLimit → ∀ (j : Nat) name members caps (b : Bytes), cs[j]? = some (name, members, caps) →
        bs[j]? = some b → b.length ≤ sizeLimit → ∀ ts : List F64, ts.length = caps.length →
          enumDecode name h b ts = .ok (some (.enum name members (ts.zip (caps.map (·.2)))), none)) := by
  obtain ⟨h, bs, e1, e2⟩ := builtin_encodes .enum (cs.map fun c => .enum c.1 c.2.1 c.2.2) (by
    intro c hc
    obtain ⟨x, -, rfl⟩ := List.mem_map.1 hc
    exact ⟨trivial, trivial, by simp only [Builtin.encoder, enumEncoder, Coll.sig]; decide⟩)
  refine ⟨h, bs, e1, by simpa using e2, fun hh j name members caps b hj hb hbl ts hts => ?_⟩
  exact (decodes_enum _ h bs (by
      intro c hc
      obtain ⟨x, -, rfl⟩ := List.mem_map.1 hc
      trivial) e1 hh).2 j (.enum name members caps) b (by simp [hj]) hb hbl ts
    (by simpa [Coll.times] using hts)

/-- Two collections sharing a member, with a negative and an out-of-range value. -/
example : ∃ h b b', enumEncode [.enum [1] [[97], [98], [97]] [(0, -1#64)], .enum [2] [[98]] [(0, 7)]] =
    .ok (.ok (h, [b, b'])) ∧ h.length ≤ sizeLimit ∧ b.length ≤ sizeLimit ∧ b'.length ≤ sizeLimit :=
  ⟨[2, 1, 97, 1, 98], [3, 0, 1, 0, 255, 255, 255, 255, 255, 255, 255, 255, 255, 1], [1, 1, 7], by decide +kernel⟩

/-! ## C08 -/

/-- C08: encoding any event collections together always succeeds, gives one block per collection, and decoding each
block with the shared header and the times supplied returns its name and, for each capture in order, the event name and
metadata. The order of each metadata list stands for the order in which the runtime iterates the map. -/
theorem C08_event_roundtrip (cs : List (Bytes × List (F64 × Bytes × Block)))
    (hg : ∀ c ∈ cs, ∀ cap ∈ c.2, GoodBlock cap.2.2) :
    ∃ h bs, eventEncode (cs.map fun c => .event c.1 c.2) = .ok (.ok (h, bs)) ∧ bs.length = cs.length ∧
      (h.length ≤ sizeLimit → ∀ (j : Nat) name caps (b : Bytes), cs[j]? = some (name, caps) →
        bs[j]? = some b → b.length ≤ sizeLimit → ∀ ts : List F64, ts.length = caps.length →
          eventDecode name h b ts = .ok (some (.event name (ts.zip (caps.map (·.2)))), none)) := by
  have hgood : ∀ c ∈ cs.map fun c => Coll.event c.1 c.2, GoodColl c := by
    intro c hc
    obtain ⟨x, hx, rfl⟩ := List.mem_map.1 hc
    exact hg x hx
  obtain ⟨h, bs, e1, e2⟩ := builtin_encodes .event (cs.map fun c => .event c.1 c.2) (by
    intro c hc
    refine ⟨hgood c hc, ?_⟩
    obtain ⟨x, hx, rfl⟩ := List.mem_map.1 hc
    exact ⟨trivial, by simp only [Builtin.encoder, eventEncoder, Coll.sig]; decide⟩)
  refine ⟨h, bs, e1, by simpa using e2, fun hh j name caps b hj hb hbl ts hts => ?_⟩
  exact (decodes_event _ h bs hgood e1 hh).2 j (.event name caps) b (by simp [hj]) hb hbl ts
    (by simpa [Coll.times] using hts)

/-- Captures with nested metadata, and one key used twice. -/
example : ∀ c ∈ [(([1] : Bytes), [((0 : F64), ([104] : Bytes), ([([107], .block [([109], .bool true)])] : Block)),
    (0, [105], [([107], .byte 3), ([109], .str [])])])], ∀ cap ∈ c.2, GoodBlock cap.2.2 := by
  intro c hc cap hcap
  simp only [List.mem_cons, List.not_mem_nil, or_false] at hc
  subst hc
  simp only [List.mem_cons, List.not_mem_nil, or_false] at hcap
  rcases hcap with rfl | rfl
  · refine ⟨by simp, ?_⟩
    simp only [List.mem_cons, List.not_mem_nil, or_false, forall_eq]
    exact .block _ (by simp) (by simpa using .bool true)
  · refine ⟨by simp, ?_⟩
    intro kv hkv
    simp only [List.mem_cons, List.not_mem_nil, or_false] at hkv
    rcases hkv with rfl | rfl
    · exact .byte _
    · exact .str _

/-! ## C09 -/

private theorem zip_map_fst_snd {α β : Type} (l : List (α × β)) : (l.map (·.1)).zip (l.map (·.2)) = l := by
  induction l with
  | nil => rfl
  | cons c l ih => simp only [List.map_cons, List.zip_cons_cons, ih]

/-- C09: positions with 64-bit storage come back bit for bit, whatever the decoder's own technique. -/
theorem C09_position_raw64_exact (t' : Nat) (name : Bytes) (caps : List (F64 × V3)) :
    ∃ b, positionEncode 0 [.position name caps] = .ok (.ok ([], [b])) ∧
      (positionEncoder t').decode name [] b (caps.map (·.1)) = .ok (some (.position name caps), none) := by
  refine ⟨_, rfl, ?_⟩
  have hc := clean_positionCaptures 0 (caps.map (·.1)) (caps.map (·.2)) (by simp)
  have h0 : storedPositions (0 : Fin 4).val (caps.map (·.2)) = caps.map (·.2) := rfl
  rw [h0, zip_map_fst_snd] at hc
  show (do match ← (positionCaptures (List.map (fun c : F64 × V3 => c.1) caps)).onBytes _ with
    | .error e => Except.ok (none, some e)
    | .ok caps => .ok (some (Coll.position name caps), none)) = _
  erw [onBytes_of_clean hc]
  rfl

/-- C09: rotations with 64-bit storage come back bit for bit. -/
theorem C09_euler_raw64_exact (t' : Nat) (name : Bytes) (caps : List (F64 × V3)) :
    ∃ b, eulerEncode 0 [.euler name caps] = .ok (.ok ([], [b])) ∧
      (eulerEncoder t').decode name [] b (caps.map (·.1)) = .ok (some (.euler name caps), none) := by
  refine ⟨_, rfl, ?_⟩
  have hc := clean_eulerCaptures 0 (caps.map (·.1)) (caps.map (·.2)) (by simp)
  have h0 : storedRotations (0 : Fin 3).val (caps.map (·.2)) = caps.map (·.2) := rfl
  rw [h0, zip_map_fst_snd] at hc
  show (do match ← (eulerCaptures (List.map (fun c : F64 × V3 => c.1) caps)).onBytes _ with
    | .error e => Except.ok (none, some e)
    | .ok caps => .ok (some (Coll.euler name caps), none)) = _
  erw [onBytes_of_clean hc]
  rfl

/-- C09: floats with 64-bit storage come back bit for bit. -/
theorem C09_float_raw64_exact (t' : Nat) (name : Bytes) (caps : List (F64 × F64)) :
    ∃ b, floatEncode 0 [.float name caps] = .ok (.ok ([], [b])) ∧
      (floatEncoder t').decode name [] b (caps.map (·.1)) = .ok (some (.float name caps), none) := by
  refine ⟨_, rfl, ?_⟩
  have hc := clean_floatDec64 (caps.map (·.1)) (caps.map (·.2)) 0 [] (by simp)
  rw [List.append_nil, zip_map_fst_snd] at hc
  show floatDecode name [] (0 :: floatEnc64 (caps.map (·.2))) _ = _
  have h0 : (0 : UInt8).toNat = 0 := rfl
  simp only [floatDecode, h0, if_true, onErrReader_of_clean hc]
  rfl

/-- A signalling NaN, negative zero and the smallest subnormal. -/
example : ∃ b, positionEncode 0 [.position [1] [(0x7FF0000000000001, ⟨0x7FF0000000000001, 0x8000000000000000, 1⟩)]] =
    .ok (.ok ([], [b])) ∧ b.length = 25 := ⟨_, rfl, by decide⟩

/-! ## C12 -/

/-- C12: cells packed into bytes (`n = 1`: 8 cells in 3 bytes, `n = 2`: 16 cells in 6 bytes) are unpacked to the same
cells. -/
theorem C12_cells_roundtrip (n : Nat) (cells : List UInt8) (hl : cells.length = 8 * n) (hc : ∀ c ∈ cells, c < 8) :
    (octBytes n cells).length = 3 * n ∧ octCells (octBytes n cells) = cells :=
  ⟨octBytes_length n cells, octCells_octBytes n cells hl hc⟩

example : (8 = 8 * 1) ∧ ∀ c ∈ ([0, 1, 2, 3, 4, 5, 6, 7] : List UInt8), c < 8 := by decide

/-- C12: every buffer comes from exactly one list of cells. -/
theorem C12_bytes_from_one_cell_list (n : Nat) (b : Bytes) (h : b.length = 3 * n) :
    ∃ cells, (cells.length = 8 * n ∧ (∀ c ∈ cells, c < 8) ∧ octBytes n cells = b) ∧
      ∀ cells', cells'.length = 8 * n → (∀ c ∈ cells', c < 8) → octBytes n cells' = b → cells' = cells := by
  refine ⟨octCells b, ⟨octCells_length n b h, octCells_lt n b h, octBytes_octCells n b h⟩, ?_⟩
  intro cells' h1 h2 h3
  rw [← h3, octCells_octBytes n cells' h1 h2]

example : ([0, 255, 7, 1, 2, 3] : Bytes).length = 3 * 2 := by decide

/-- C12: the packing the code performs bit by bit: bit `i` of the three bytes are the three bits of cell `i`. -/
theorem C12_bit_layout (cells : List UInt8) (hl : cells.length = 8) (hc : ∀ c ∈ cells, c < 8) (i : Nat) (hi : i < 8) :
    ∃ b0 b1 b2, octBytes 1 cells = [b0, b1, b2] ∧
      ∀ c, cells[i]? = some c → (c.toNat.testBit 0 = b0.toNat.testBit i ∧ c.toNat.testBit 1 = b1.toNat.testBit i ∧
        c.toNat.testBit 2 = b2.toNat.testBit i) := by
  refine ⟨_, _, _, by simp only [octBytes, octBytes24, List.append_nil, List.take_of_length_le (Nat.le_of_eq hl)]; rfl, ?_⟩
  have key : ∀ l : List Bool, l.length = 8 → ∀ i, i < 8 → ∀ x, l[i]? = some x → (byteOfBits l).toNat.testBit i = x := by
    intro l hl
    obtain ⟨a, b, c, d, e, f, g, j, rfl⟩ := eq8 l hl
    intro i hi x hx
    have : i = 0 ∨ i = 1 ∨ i = 2 ∨ i = 3 ∨ i = 4 ∨ i = 5 ∨ i = 6 ∨ i = 7 := by omega
    rcases this with rfl | rfl | rfl | rfl | rfl | rfl | rfl | rfl <;> simp at hx <;> subst hx <;> clear hi hl <;>
      revert a b c d e f g j <;> decide
  have bit : ∀ c : UInt8, c < 8 → c.toNat.testBit 0 = (c &&& 1 != 0) ∧ c.toNat.testBit 1 = (c &&& 2 != 0) ∧
      c.toNat.testBit 2 = (c &&& 4 != 0) := by
    intro c _
    exact byte_ind (fun c => c.toNat.testBit 0 = (c &&& 1 != 0) ∧ c.toNat.testBit 1 = (c &&& 2 != 0) ∧
      c.toNat.testBit 2 = (c &&& 4 != 0)) (by decide +kernel) c
  intro c hci
  have hclt := hc c (List.mem_of_getElem? hci)
  obtain ⟨t0, t1, t2⟩ := bit c hclt
  rw [t0, t1, t2]
  refine ⟨(key _ (by simp [hl]) i hi _ (by simp [hci])).symm, (key _ (by simp [hl]) i hi _ (by simp [hci])).symm,
    (key _ (by simp [hl]) i hi _ (by simp [hci])).symm⟩

/-! ## C14 -/

/-- C14: 64-bit time storage is exact, and what follows stays unread. -/
theorem C14_raw64_times_exact (ts : List F64) (rest : Bytes) (fin : Err) (h : (encTime 0 ts).length ≤ sizeLimit) :
    decTime.run (⟨encTime 0 ts ++ rest, fin⟩ : Flat) = .ok ((ts, none), ⟨rest, fin⟩) :=
  Prog.clean_flat fin (clean_decTime 0 (by omega) ts rest h)

/-- C14: 32-bit time storage gives the float32 each time is converted to. -/
theorem C14_raw32_times_nearest (ts : List F64) (rest : Bytes) (fin : Err) (h : (encTime 1 ts).length ≤ sizeLimit) :
    decTime.run (⟨encTime 1 ts ++ rest, fin⟩ : Flat) = .ok ((ts.map fun t => widen (narrow t), none), ⟨rest, fin⟩) :=
  Prog.clean_flat fin (clean_decTime 1 (by omega) ts rest h)

example : (encTime 0 [0x3FF0000000000000, 0x7FF8000000000001, 0]).length ≤ sizeLimit ∧
    (encTime 1 [0x3FF0000000000000, 0x7FF8000000000001, 0]).length ≤ sizeLimit := by decide +kernel

/-! ## C29 -/

/-- C29: what any encoder of the package wrote with any technique is read by the encoder of the same signature
configured with any other technique, with the same result. -/
theorem C29_technique_is_in_the_file (b b' : Builtin) (hs : b.encoder.sig = b'.encoder.sig) (cs : List Coll)
    (h : Bytes) (bs : List Bytes) (hg : ∀ c ∈ cs, GoodColl c) (henc : b.encoder.encode cs = .ok (.ok (h, bs)))
    (hh : h.length ≤ sizeLimit) (j : Nat) (c : Coll) (d : Bytes) (hc : cs[j]? = some c) (hd : bs[j]? = some d)
    (hdl : d.length ≤ sizeLimit) (ts : List F64) (hts : ts.length = c.times.length) :
    ∃ c', b.encoder.decode c.name h d ts = .ok (some c', none) ∧ b'.encoder.decode c.name h d ts = .ok (some c', none) :=
  ⟨_, (builtin_decodes b b rfl cs h bs hg henc hh).2 j c d hc hd hdl ts hts,
    (builtin_decodes b b' hs cs h bs hg henc hh).2 j c d hc hd hdl ts hts⟩

/-- Written with Oct24 (3), read with Raw64 (0). -/
example : (Builtin.position 3).encoder.sig = (Builtin.position 0).encoder.sig ∧
    ∃ h bs, (Builtin.position 3).encoder.encode [.position [1] [(0, ⟨1, 2, 3⟩)]] = .ok (.ok (h, bs)) :=
  ⟨rfl, _, _, rfl⟩

/-! ## C39 -/

/-- C39, what holds: whatever bytes a decoder of the package is given, the result is an error, or a collection with
the given name and exactly one capture per time, carrying these times in order. Missing: float data with
a technique byte above 2, see `C39_float_unknown_technique_drops_captures`. -/
theorem C39_one_capture_per_time_partial (b : Builtin) (name header body : Bytes) (ts : List F64) (r : Option Coll)
    (e : Option Err) (h : b.encoder.decode name header body ts = .ok (r, e))
    (hfloat : ∀ t, b = .float t → ∀ x rest, body = x :: rest → x ≤ 2) :
    e.isSome ∨ ∃ c, r = some c ∧ c.name = name ∧ c.sig = b.encoder.sig ∧ c.times = ts := by
  cases b with
  | event =>
    simp only [Builtin.encoder, eventEncoder, eventDecode] at h
    cases h1 : eventHeader.onBytes header with
    | error x => simp [h1, bind, Except.bind] at h
    | ok x =>
      obtain ⟨names, keys, err⟩ := x
      simp only [h1, bind, Except.bind] at h
      cases err with
      | some x => simp only [Except.ok.injEq, Prod.mk.injEq] at h; left; rw [← h.2]; rfl
      | none =>
        cases h2 : (eventCaptures (body.length + 1) names keys ts).onBytes body with
        | error x => simp [h2] at h
        | ok x =>
          have hp := (post_eventCaptures (body.length + 1) names keys ts).onBytes h2
          cases x with
          | error x => simp only [h2, Except.ok.injEq, Prod.mk.injEq] at h; left; rw [← h.2]; rfl
          | ok caps =>
            simp only [h2, Except.ok.injEq, Prod.mk.injEq] at h
            exact Or.inr ⟨_, h.1.symm, rfl, rfl, hp⟩
  | enum =>
    simp only [Builtin.encoder, enumEncoder, enumDecode] at h
    cases h1 : readStringArray.onBytes header with
    | error x => simp [h1, bind, Except.bind] at h
    | ok x =>
      obtain ⟨members, n, err⟩ := x
      simp only [h1, bind, Except.bind] at h
      cases err with
      | some x => simp only [Except.ok.injEq, Prod.mk.injEq] at h; left; rw [← h.2]; rfl
      | none =>
        simp only at h
        have hpost : (Prog.bind readUvarIntArray fun x => Prog.bind (Prog.ofGo (lookupAll members x.1)) fun ms =>
            Prog.bind (enumCaptures ts) fun caps => Prog.pure (ms, caps)).Post fun r => Carries ts r.2 :=
          Prog.Post.any fun _ => Prog.Post.any fun _ => Prog.Post.bind (post_enumCaptures ts) fun _ ha => ha
        split at h
        · simp at h
        · rename_i v hv
          obtain ⟨⟨ms, caps⟩, err⟩ := v
          have := hpost.onErrReader hv
          simp only [Except.ok.injEq, Prod.mk.injEq] at h
          exact Or.inr ⟨_, h.1.symm, rfl, rfl, this⟩
  | position t =>
    simp only [Builtin.encoder, positionEncoder, positionDecode] at h
    cases h2 : (positionCaptures ts).onBytes body with
    | error x => simp [h2, bind, Except.bind] at h
    | ok x =>
      have hp := (post_positionCaptures ts).onBytes h2
      simp only [h2, bind, Except.bind] at h
      cases x with
      | error x => simp only [Except.ok.injEq, Prod.mk.injEq] at h; left; rw [← h.2]; rfl
      | ok caps =>
        simp only [Except.ok.injEq, Prod.mk.injEq] at h
        exact Or.inr ⟨_, h.1.symm, rfl, rfl, hp⟩
  | euler t =>
    simp only [Builtin.encoder, eulerEncoder, eulerDecode] at h
    cases h2 : (eulerCaptures ts).onBytes body with
    | error x => simp [h2, bind, Except.bind] at h
    | ok x =>
      have hp := (post_eulerCaptures ts).onBytes h2
      simp only [h2, bind, Except.bind] at h
      cases x with
      | error x => simp only [Except.ok.injEq, Prod.mk.injEq] at h; left; rw [← h.2]; rfl
      | ok caps =>
        simp only [Except.ok.injEq, Prod.mk.injEq] at h
        exact Or.inr ⟨_, h.1.symm, rfl, rfl, hp⟩
  | float t =>
    simp only [Builtin.encoder, floatEncoder] at h
    cases body with
    | nil => simp only [floatDecode, Except.ok.injEq, Prod.mk.injEq] at h; left; rw [← h.2]; rfl
    | cons x rest =>
      have hx := hfloat t rfl x rest rfl
      have hx' : x.toNat ≤ 2 := by
        have := UInt8.le_iff_toNat_le.1 hx
        simpa using this
      have hpost : (if x.toNat = 0 then floatDec64 ts 0 else if x.toNat = 1 then floatDec32 ts 0
          else if x.toNat = 2 then floatDecBst ts else pure []).Post (Carries ts) := by
        split
        · exact post_floatDec64 _ _
        · split
          · exact post_floatDec32 _ _
          · split
            · exact post_floatDecBst _
            · omega
      simp only [floatDecode, bind, Except.bind] at h
      split at h
      · simp at h
      · rename_i v hv
        obtain ⟨caps, err⟩ := v
        have := hpost.onErrReader hv
        simp only [Except.ok.injEq, Prod.mk.injEq] at h
        exact Or.inr ⟨_, h.1.symm, rfl, rfl, this⟩

/-- Truncated oct-tree data: decoded without an error (every capture repeats the last cells read). -/
example : ∃ c, positionDecode [1] [] (2 :: List.replicate 36 0) [0, 0, 0] = .ok (some c, none) := ⟨_, rfl⟩

/-- C39 is false in general: float data with an unknown technique byte is decoded without error to no captures at
all. -/
theorem C39_float_unknown_technique_drops_captures (x : UInt8) (hx : 2 < x) (name header rest : Bytes) (ts : List F64) :
    (floatEncoder 0).decode name header (x :: rest) ts = .ok (some (.float name []), none) := by
  have hx' : 2 < x.toNat := by
    have := UInt8.lt_iff_toNat_lt.1 hx
    simpa using this
  simp only [floatEncoder, floatDecode]
  rw [if_neg (by omega), if_neg (by omega), if_neg (by omega)]
  rfl

example : (2 : UInt8) < 3 := by decide

end Rap
