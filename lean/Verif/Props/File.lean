import Verif.Proof.FileProps
import Verif.Proof.Sample

/-!
# C17-C21, C26-C28, C47, C48: whole files
-/

namespace Rap

/-! ## C17 -/

/-- C17, for any encoders: if `Write` succeeds, `Read` of the result succeeds and yields the recording with each
collection as its encoder stores it (`view`); everything else is identical. `Understands` says how the reader's encoders
invert the writer's; for the encoders of the package see `C17_roundtrip`. -/
theorem C17_roundtrip_any_encoders (F : Flate) (hF : F.Lawful) (X : Ext) (unmarshal : Bytes → Except Err V1.Recording)
    (cfg : WriterCfg) (registered : List Encoder) (orders : List (List Bytes)) (rec : Rec)
    (view : Coll → List F64 → Coll) (hg : GoodRec rec) (hko : KeyOrders rec orders) (ht : cfg.tech ≤ 2)
    (hsd : SigDetermines cfg.encoders) (hu : Understands cfg.encoders registered view rec)
    (out' : Buf) (n : Nat) (h : write F cfg orders rec (⟨[]⟩ : Buf) = .ok (n, none, out')) (hn : n ≤ sizeLimit) :
    ∃ s, read F X unmarshal registered (⟨out'.bytes, .eof⟩ : Flat) =
      .ok ((rec.mapColls fun c => view c (storedTimes cfg.tech c.times), n, none), s) := by
  obtain ⟨file, h1, -, h3⟩ := read_written F hF X unmarshal cfg registered orders rec view hg hko ht hsd hu _ _ _ h hn
  obtain ⟨s, hs, -⟩ := h3 [] .eof
  simp only [List.append_nil, List.nil_append] at hs h1
  exact ⟨s, by rw [h1]; exact hs⟩

/-- C17 for the encoders of the package, in any selection `ws` and with any techniques: a well-formed recording each of
whose collections has an encoder is written without error, and any reader `rs` with these encoders, in any technique,
reads the same recording, each collection reconstructed as its technique says (`storedColl`, `storedTimes`). -/
theorem C17_roundtrip (F : Flate) (hF : F.Lawful) (X : Ext) (unmarshal : Bytes → Except Err V1.Recording)
    (ws rs : List Builtin) (tech : Nat) (ht : tech ≤ 2) (compress : Bool) (orders : List (List Bytes)) (rec : Rec)
    (hg : GoodRec rec) (hnative : ∀ c ∈ rec.flat, Native c) (hko : KeyOrders rec orders)
    (hws : ∀ c ∈ rec.flat, ∃ b ∈ ws, b.encoder.accepts c)
    (hrs : ∀ b ∈ ws, ∃ b' ∈ rs, b'.encoder.sig = b.encoder.sig) :
    ∃ n out', write F ⟨ws.map Builtin.encoder, tech, compress⟩ orders rec (⟨[]⟩ : Buf) = .ok (n, none, out') ∧
      (n ≤ sizeLimit → ∃ s, read F X unmarshal (rs.map Builtin.encoder) (⟨out'.bytes, .eof⟩ : Flat) =
        .ok ((rec.mapColls fun c => storedColl ws c (storedTimes tech c.times), n, none), s)) := by
  have hall : ∀ c ∈ rec.flat, (chosen (ws.map Builtin.encoder) c).isSome := by
    intro c hc
    obtain ⟨b, hb, hacc⟩ := hws c hc
    rw [chosen, List.find?_isSome]
    exact ⟨_, List.mem_map_of_mem hb, hacc⟩
  obtain ⟨n, out', h⟩ := write_ok F ⟨ws.map Builtin.encoder, tech, compress⟩ orders rec ⟨[]⟩ hg (builtin_sigDetermines ws)
    hall (builtin_encodable ws rec hg hnative)
  refine ⟨n, out', h, fun hn => ?_⟩
  exact C17_roundtrip_any_encoders F hF X unmarshal _ _ orders rec (storedColl ws) hg hko ht (builtin_sigDetermines ws)
    (builtin_understands ws rs rec fun c hc b hb => hrs b (Builtin.chosen_some hb).1) out' n h hn

/-- C17: with lossless techniques and 64-bit times the recording read is the recording written. -/
theorem C17_lossless_identity (F : Flate) (hF : F.Lawful) (X : Ext) (unmarshal : Bytes → Except Err V1.Recording)
    (ws rs : List Builtin) (hl : ∀ b ∈ ws, Lossless b) (compress : Bool) (orders : List (List Bytes)) (rec : Rec)
    (hg : GoodRec rec) (hnative : ∀ c ∈ rec.flat, Native c) (hko : KeyOrders rec orders)
    (hws : ∀ c ∈ rec.flat, ∃ b ∈ ws, b.encoder.accepts c)
    (hrs : ∀ b ∈ ws, ∃ b' ∈ rs, b'.encoder.sig = b.encoder.sig) :
    ∃ n out', write F ⟨ws.map Builtin.encoder, 0, compress⟩ orders rec (⟨[]⟩ : Buf) = .ok (n, none, out') ∧
      (n ≤ sizeLimit → ∃ s, read F X unmarshal (rs.map Builtin.encoder) (⟨out'.bytes, .eof⟩ : Flat) =
        .ok ((rec, n, none), s)) := by
  obtain ⟨n, out', h1, h2⟩ := C17_roundtrip F hF X unmarshal ws rs 0 (by omega) compress orders rec hg hnative hko hws hrs
  refine ⟨n, out', h1, fun hn => ?_⟩
  have hid : (rec.mapColls fun c => storedColl ws c (storedTimes 0 c.times)) = rec := by
    apply mapColls_id
    intro c hc
    unfold storedColl
    cases hb : Builtin.chosen ws c with
    | none => rfl
    | some b =>
      obtain ⟨hm, hs⟩ := Builtin.chosen_some hb
      exact lossless_stored (hl b hm) (hnative c hc) hs
  rw [hid] at h2
  exact h2 hn

/-- The hypotheses hold for a recording with all kinds of parts, and the file has 289 bytes. -/
example : GoodRec sample ∧ (∀ c ∈ sample.flat, Native c) ∧ KeyOrders sample sampleOrders ∧
    (∀ c ∈ sample.flat, ∃ b ∈ losslessEncoders, b.encoder.accepts c) ∧ (∀ b ∈ losslessEncoders, Lossless b) ∧
    storeFlate.Lawful ∧ ∃ out, write storeFlate sampleCfg sampleOrders sample (⟨[]⟩ : Buf) = .ok (289, none, out) := by
  refine ⟨sample_good, ?_, sample_orders, ?_, ?_, storeFlate_lawful, sample_write⟩
  · simp [sample, sampleChild, Rec.flat, Rec.flatList, Native]
  · simp only [sample, sampleChild, Rec.flat, Rec.flatList, losslessEncoders, accepts_iff]
    simp [Coll.sig, Builtin.encoder, eventEncoder, positionEncoder, eulerEncoder, enumEncoder, floatEncoder]
  · simp [losslessEncoders, Lossless]

/-! ## C18 -/

/-- C18: the count `Write` reports is the same with and without compression, is the length of the uncompressed file, and
is the count `Read` reports for the file. -/
theorem C18_counts_agree (F : Flate) (hF : F.Lawful) (X : Ext) (unmarshal : Bytes → Except Err V1.Recording)
    (cfg : WriterCfg) (registered : List Encoder) (orders : List (List Bytes)) (rec : Rec)
    (view : Coll → List F64 → Coll) (hg : GoodRec rec) (hko : KeyOrders rec orders) (ht : cfg.tech ≤ 2)
    (hsd : SigDetermines cfg.encoders) (hu : Understands cfg.encoders registered view rec)
    (out out' : Buf) (n : Nat) (h : write F cfg orders rec out = .ok (n, none, out')) :
    (∃ plain, write F { cfg with compress := false } orders rec (⟨[]⟩ : Buf) = .ok (n, none, ⟨plain⟩) ∧
        plain.length = n) ∧
      (∃ packed, write F { cfg with compress := true } orders rec (⟨[]⟩ : Buf) = .ok (n, none, packed)) ∧
      (n ≤ sizeLimit → ∃ file, out'.bytes = out.bytes ++ file ∧ ∃ r s,
        read F X unmarshal registered (⟨file, .eof⟩ : Flat) = .ok ((r, n, none), s)) := by
  refine ⟨?_, write_other h F true ⟨[]⟩, fun hn => ?_⟩
  · obtain ⟨⟨plain⟩, hp⟩ := write_other h F false ⟨[]⟩
    refine ⟨plain, hp, ?_⟩
    obtain ⟨ms, off, hs, blocks, idx, x, ws, -, -, -, h4, h5⟩ := write_shape F _ orders rec _ _ n hp
    simp only [Bool.false_eq_true, if_false, List.nil_append] at h5
    rw [h5, h4, List.length_append]
  · obtain ⟨file, h1, -, h3⟩ := read_written F hF X unmarshal cfg registered orders rec view hg hko ht hsd hu _ _ _ h hn
    obtain ⟨s, hs, -⟩ := h3 [] .eof
    rw [List.append_nil] at hs
    exact ⟨file, h1, _, s, hs⟩

example : ∃ out, write storeFlate sampleCfg sampleOrders sample (⟨[]⟩ : Buf) = .ok (289, none, out) ∧ 289 ≤ sizeLimit ∧
    Understands sampleCfg.encoders sampleCfg.encoders (storedColl losslessEncoders) sample := by
  obtain ⟨out, h⟩ := sample_write
  refine ⟨out, h, by decide, builtin_understands _ _ _ fun c _ b hb => ⟨b, (Builtin.chosen_some hb).1, rfl⟩⟩

/-! ## C19 -/

/-- C19: reading the compressed file gives what reading the uncompressed file gives. -/
theorem C19_compression_transparent (F : Flate) (hF : F.Lawful) (X : Ext)
    (unmarshal : Bytes → Except Err V1.Recording) (cfg : WriterCfg) (registered : List Encoder)
    (orders : List (List Bytes)) (rec : Rec) (view : Coll → List F64 → Coll) (hg : GoodRec rec)
    (hko : KeyOrders rec orders) (ht : cfg.tech ≤ 2) (hsd : SigDetermines cfg.encoders)
    (hu : Understands cfg.encoders registered view rec) (plain packed : Buf) (n n' : Nat)
    (h : write F { cfg with compress := false } orders rec (⟨[]⟩ : Buf) = .ok (n, none, plain))
    (h' : write F { cfg with compress := true } orders rec (⟨[]⟩ : Buf) = .ok (n', none, packed)) (hn : n ≤ sizeLimit) :
    ∃ r s s', read F X unmarshal registered (⟨plain.bytes, .eof⟩ : Flat) = .ok ((r, n, none), s) ∧
      read F X unmarshal registered (⟨packed.bytes, .eof⟩ : Flat) = .ok ((r, n, none), s') := by
  have hnn : n' = n := by
    obtain ⟨buf, hb⟩ := write_other h F true ⟨[]⟩
    have : (Except.ok (n', none, packed) : Go (Nat × Option Err × Buf)) = .ok (n, none, buf) := by rw [← h', ← hb]
    simp only [Except.ok.injEq, Prod.mk.injEq, true_and] at this
    exact this.1
  subst hnn
  obtain ⟨s, h1⟩ := C17_roundtrip_any_encoders F hF X unmarshal { cfg with compress := false } registered orders rec view hg hko ht hsd hu
    _ _ h hn
  obtain ⟨s', h2⟩ := C17_roundtrip_any_encoders F hF X unmarshal { cfg with compress := true } registered orders rec view hg hko ht hsd hu
    _ _ h' hn
  exact ⟨_, s, s', h1, h2⟩

example : ∃ plain packed, write storeFlate { sampleCfg with compress := false } sampleOrders sample (⟨[]⟩ : Buf) =
      .ok (289, none, plain) ∧
    write storeFlate { sampleCfg with compress := true } sampleOrders sample (⟨[]⟩ : Buf) = .ok (289, none, packed) := by
  obtain ⟨out, h⟩ := sample_write
  obtain ⟨a, ha⟩ := write_other h storeFlate false ⟨[]⟩
  obtain ⟨b, hb⟩ := write_other h storeFlate true ⟨[]⟩
  exact ⟨a, b, ha, hb⟩

/-! ## C20 -/

/-- C20: `rec` and `rec'` are the same recording, their maps being iterated in different orders (at every one of the
places the writer does so: `orders` and `orders'` when keys are collected, the order in `rec` and `rec'` when values are
written). Both files are read back as the same recording. -/
theorem C20_map_order_irrelevant (F : Flate) (hF : F.Lawful) (X : Ext) (unmarshal : Bytes → Except Err V1.Recording)
    (ws rs : List Builtin) (tech : Nat) (ht : tech ≤ 2) (compress : Bool) (orders orders' : List (List Bytes))
    (rec rec' : Rec) (hsame : SameRec rec rec') (hg : GoodRec rec) (hg' : GoodRec rec')
    (hko : KeyOrders rec orders) (hko' : KeyOrders rec' orders')
    (hrs : ∀ b ∈ ws, ∃ b' ∈ rs, b'.encoder.sig = b.encoder.sig) (n n' : Nat) (out out' : Buf)
    (h : write F ⟨ws.map Builtin.encoder, tech, compress⟩ orders rec (⟨[]⟩ : Buf) = .ok (n, none, out))
    (h' : write F ⟨ws.map Builtin.encoder, tech, compress⟩ orders' rec' (⟨[]⟩ : Buf) = .ok (n', none, out'))
    (hn : n ≤ sizeLimit) (hn' : n' ≤ sizeLimit) :
    ∃ r r' s s', read F X unmarshal (rs.map Builtin.encoder) (⟨out.bytes, .eof⟩ : Flat) = .ok ((r, n, none), s) ∧
      read F X unmarshal (rs.map Builtin.encoder) (⟨out'.bytes, .eof⟩ : Flat) = .ok ((r', n', none), s') ∧
      SameRec r r' := by
  have hu := fun rec => builtin_understands ws rs rec fun c hc b hb => hrs b (Builtin.chosen_some hb).1
  obtain ⟨s, h1⟩ := C17_roundtrip_any_encoders F hF X unmarshal _ _ orders rec (storedColl ws) hg hko ht
    (builtin_sigDetermines ws) (hu rec) out n h hn
  obtain ⟨s', h2⟩ := C17_roundtrip_any_encoders F hF X unmarshal _ _ orders' rec' (storedColl ws) hg' hko' ht
    (builtin_sigDetermines ws) (hu rec') out' n' h' hn'
  exact ⟨_, _, s, s', h1, h2, hsame.mapColls fun a b hab => hab.storedColl ws tech⟩

/-- Two orders of one map, also inside an event. -/
example : SameRec
    (.mk [1] [2] [some (.event [3] [(0, [4], [([5], .bool true), ([6], .byte 1)])])] [] [([7], .str []), ([8], .f32 0)] [] [])
    (.mk [1] [2] [some (.event [3] [(0, [4], [([6], .byte 1), ([5], .bool true)])])] [] [([8], .f32 0), ([7], .str [])] [] []) := by
  refine .mk _ _ (.cons (.event _ (.cons ⟨rfl, rfl, ?_⟩ .nil)) .nil) .nil ?_ .nil .nil
  · exact ⟨_, rfl, List.forall₂_same.2 fun p _ => .refl p, .swap _ _ _⟩
  · exact ⟨_, rfl, List.forall₂_same.2 fun p _ => .refl p, .swap _ _ _⟩

/-! ## C21 -/

/-- C21: if any recording of the tree is nil, has a nil part or a collection no encoder accepts, `Write` returns an error
and the output, whatever it is, has not been touched. -/
theorem C21_rejected_before_writing {σ : Type} [Snk σ] (F : Flate) (cfg : WriterCfg) (orders : List (List Bytes))
    (rec : Rec) (hrec : rec ≠ .nil) (r : Rec) (hr : Within r rec) (hf : Faulty cfg.encoders r) (out : σ) :
    ∃ e, write F cfg orders rec out = .ok (0, some e, out) := by
  cases rec with
  | nil => exact absurd rfl hrec
  | mk id name colls recs md bins refs =>
    simp only [write]
    cases hc : checkForNil (.mk id name colls recs md bins refs) with
    | some e => exact ⟨e, rfl⟩
    | none =>
      obtain ⟨res, h1, h2⟩ := evaluate_total cfg.encoders _ 0 hc
      simp only [h1, bind, Except.bind]
      cases res with
      | error e => exact ⟨e, rfl⟩
      | ok x => exact absurd hf (h2 x rfl r hr)

/-- A nil reference two levels down; a float collection with the default encoders, which have none for it. -/
example : ∃ r, Within r (.mk [] [] [] [.mk [] [] [] [] [] [] [none]] [] [] []) ∧ Faulty defaultEncoders r :=
  ⟨.mk [] [] [] [] [] [] [none], .child (by simp) (.self _), by simp [Faulty]⟩
example : ∃ r, Within r sample ∧ Faulty defaultEncoders r := by
  refine ⟨sampleChild, .child (by simp) (.self _), Or.inr (Or.inr (Or.inr ⟨.float [102] [(0, 0x8000000000000000)], by simp, ?_⟩))⟩
  simp [defaultEncoders, eventEncoder, positionEncoder, eulerEncoder, enumEncoder, Coll.sig]
  decide

/-! ## C26 -/

/-- C26: reading an uncompressed file followed by anything yields the recording and leaves exactly what follows. -/
theorem C26_reads_exactly_one_recording (F : Flate) (hF : F.Lawful) (X : Ext)
    (unmarshal : Bytes → Except Err V1.Recording) (cfg : WriterCfg) (hc : cfg.compress = false)
    (registered : List Encoder) (orders : List (List Bytes)) (rec : Rec) (view : Coll → List F64 → Coll)
    (hg : GoodRec rec) (hko : KeyOrders rec orders) (ht : cfg.tech ≤ 2) (hsd : SigDetermines cfg.encoders)
    (hu : Understands cfg.encoders registered view rec) (out' : Buf) (n : Nat)
    (h : write F cfg orders rec (⟨[]⟩ : Buf) = .ok (n, none, out')) (hn : n ≤ sizeLimit) (rest : Bytes) (fin : Err) :
    read F X unmarshal registered (⟨out'.bytes ++ rest, fin⟩ : Flat) =
      .ok ((rec.mapColls fun c => view c (storedTimes cfg.tech c.times), n, none), ⟨rest, fin⟩) := by
  obtain ⟨file, h1, -, h3⟩ := read_written F hF X unmarshal cfg registered orders rec view hg hko ht hsd hu _ _ _ h hn
  obtain ⟨s, hs, hs'⟩ := h3 rest fin
  rw [List.nil_append] at h1
  rw [h1, hs, hs' hc]

/-- C26: recordings written one after another without compression are read back in order, and nothing of what follows
them is touched. -/
theorem C26_recordings_in_a_row (F : Flate) (hF : F.Lawful) (X : Ext) (unmarshal : Bytes → Except Err V1.Recording)
    (cfg : WriterCfg) (hc : cfg.compress = false) (registered : List Encoder) (jobs : List (List (List Bytes) × Rec))
    (view : Coll → List F64 → Coll) (ht : cfg.tech ≤ 2) (hsd : SigDetermines cfg.encoders)
    (hj : ∀ j ∈ jobs, GoodRec j.2 ∧ KeyOrders j.2 j.1 ∧ Understands cfg.encoders registered view j.2)
    (out out' : Buf) (ns : List Nat) (h : writeMany F cfg jobs out = some (ns, out')) (hn : ∀ n ∈ ns, n ≤ sizeLimit) :
    ∃ files, out'.bytes = out.bytes ++ files ∧ ∀ rest fin,
      readMany F X unmarshal registered jobs.length (⟨files ++ rest, fin⟩ : Flat) =
        some ((jobs.map fun j => j.2.mapColls fun c => view c (storedTimes cfg.tech c.times)).zip ns, ⟨rest, fin⟩) := by
  induction jobs generalizing out ns with
  | nil =>
    simp only [writeMany, Option.some.injEq, Prod.mk.injEq] at h
    obtain ⟨rfl, rfl⟩ := h
    exact ⟨[], by simp, fun rest fin => rfl⟩
  | cons j jobs ih =>
    obtain ⟨orders, rec⟩ := j
    simp only [writeMany] at h
    split at h
    · rename_i n out1 hw
      split at h
      · rename_i ns' out2 hm
        simp only [Option.some.injEq, Prod.mk.injEq] at h
        obtain ⟨rfl, rfl⟩ := h
        obtain ⟨hg, hko, hu⟩ := hj (orders, rec) (by simp)
        obtain ⟨file, h1, -, h3⟩ := read_written F hF X unmarshal cfg registered orders rec view hg hko ht hsd hu _ _ _
          hw (hn n (by simp))
        obtain ⟨files, h4, h5⟩ := ih (fun j hj' => hj j (by simp [hj'])) out1 ns' hm (fun n hn' => hn n (by simp [hn']))
        refine ⟨file ++ files, by rw [h4, h1, List.append_assoc], fun rest fin => ?_⟩
        obtain ⟨s, hs, hs'⟩ := h3 (files ++ rest) fin
        simp only [List.length_cons, readMany, List.append_assoc, hs, hs' hc, h5, List.map_cons, List.zip_cons_cons]
      · simp at h
    · simp at h

/-- Twice the sample recording. -/
example : ∃ out, writeMany storeFlate sampleCfg [(sampleOrders, sample), (sampleOrders, sample)] ⟨[]⟩ =
    some ([289, 289], out) := by
  have : ∀ buf : Buf, ∃ out, write storeFlate sampleCfg sampleOrders sample buf = .ok (289, none, out) := by
    intro buf
    obtain ⟨out, h⟩ := sample_write
    exact write_other h storeFlate false buf
  obtain ⟨o1, h1⟩ := this ⟨[]⟩
  obtain ⟨o2, h2⟩ := this o1
  exact ⟨o2, by simp only [writeMany, h1, h2]⟩

/-! ## C27 -/

/-- The encoder table of a file: signatures, then versions. -/
def encoderTable (table : List (Bytes × Nat)) : Bytes :=
  stringArrayToBytes (table.map (·.1)) ++ (table.map fun t => putUvarint (u64 t.2)).flatten

theorem clean_versions (vs : List Nat) (total : Nat) (rest : Bytes) (hv : ∀ v ∈ vs, v < 2 ^ 64) :
    (readVersions vs.length total).clean ((vs.map fun v => putUvarint (u64 v)).flatten ++ rest) =
      some ((vs, total + (vs.map fun v => putUvarint (u64 v)).flatten.length, none), rest) := by
  induction vs generalizing total with
  | nil => rfl
  | cons v vs ih =>
    simp only [List.length_cons, readVersions, Prog.bind_eq, List.map_cons, List.flatten_cons, List.append_assoc]
    rw [u64_of_lt (hv v (by simp)), Prog.clean_bind_of (clean_readUvarint v _ (hv v (by simp)))]
    simp only [Prog.bind_eq]
    rw [Prog.clean_bind_of (ih _ fun v hv' => hv v (by simp [hv']))]
    simp [Nat.add_assoc]

theorem findEncoder_fails {registered : List Encoder} {sig : Bytes} {v : Nat} {found : Option Encoder}
    (h : (found = none ∧ ∀ e ∈ registered, e.sig ≠ sig) ∨ ∃ e ∈ registered, e.sig = sig ∧ e.version < v) :
    ∃ x, findEncoder sig v registered found = .error x := by
  induction registered generalizing found with
  | nil =>
    rcases h with ⟨rfl, -⟩ | ⟨e, he, -⟩
    · exact ⟨_, rfl⟩
    · simp at he
  | cons e es ih =>
    simp only [findEncoder]
    split
    · rename_i hs
      split
      · rename_i hv
        apply ih
        rcases h with ⟨-, h⟩ | ⟨e', he', hs', hv'⟩
        · exact absurd hs (h e (by simp))
        · rcases List.mem_cons.1 he' with rfl | he'
          · omega
          · exact Or.inr ⟨e', he', hs', hv'⟩
      · exact ⟨_, rfl⟩
    · rename_i hs
      apply ih
      rcases h with ⟨h0, h⟩ | ⟨e', he', hs', hv'⟩
      · exact Or.inl ⟨h0, fun e' he' => h e' (by simp [he'])⟩
      · rcases List.mem_cons.1 he' with rfl | he'
        · exact absurd hs' hs
        · exact Or.inr ⟨e', he', hs', hv'⟩

theorem findEncoders_fails {registered : List Encoder} {table : List (Bytes × Nat)}
    (h : ∃ t ∈ table, (∀ e ∈ registered, e.sig ≠ t.1) ∨ ∃ e ∈ registered, e.sig = t.1 ∧ e.version < t.2) :
    ∃ x, findEncoders registered (table.map (·.1)) (table.map (·.2)) = .error x := by
  induction table with
  | nil => simp at h
  | cons t table ih =>
    simp only [List.map_cons, findEncoders]
    cases hf : findEncoder t.1 t.2 registered none with
    | error x => exact ⟨x, rfl⟩
    | ok e =>
      simp only
      obtain ⟨t', ht', h⟩ := h
      rcases List.mem_cons.1 ht' with rfl | ht'
      · obtain ⟨x, hx⟩ := findEncoder_fails (found := none) (h.elim (fun h => Or.inl ⟨rfl, h⟩) Or.inr)
        rw [hf] at hx; simp at hx
      · obtain ⟨x, hx⟩ := ih ⟨t', ht', h⟩
        rw [hx]; exact ⟨x, rfl⟩

/-- C27: a file whose encoder table lists a signature that is not registered, or a version newer than a registered
encoder of that signature, is refused with an error, whatever follows. -/
theorem C27_unknown_or_newer_encoder_refused (F : Flate) (X : Ext) (unmarshal : Bytes → Except Err V1.Recording)
    (registered : List Encoder) (table : List (Bytes × Nat)) (rest : Bytes) (fin : Err)
    (hv : ∀ t ∈ table, t.2 < 2 ^ 64) (hl : (encoderTable table).length ≤ sizeLimit)
    (h : ∃ t ∈ table, (∀ e ∈ registered, e.sig ≠ t.1) ∨ ∃ e ∈ registered, e.sig = t.1 ∧ e.version < t.2) :
    ∃ n e, read F X unmarshal registered (⟨2 :: (encoderTable table ++ rest), fin⟩ : Flat) =
      .ok ((.nil, n, some e), ⟨rest, fin⟩) := by
  obtain ⟨x, hx⟩ := findEncoders_fails h
  simp only [encoderTable, List.length_append] at hl
  have hre : (readEncoders registered).clean (encoderTable table ++ rest) =
      some ((.error x, (encoderTable table).length), rest) := by
    simp only [readEncoders, Prog.bind_eq, encoderTable, List.append_assoc]
    rw [Prog.clean_bind_of (clean_stringArray_limit _ _ (by omega))]
    have := clean_versions (table.map (·.2)) (stringArrayToBytes (table.map (·.1))).length rest (by
      intro v hv'
      obtain ⟨t, ht, rfl⟩ := List.mem_map.1 hv'
      exact hv t ht)
    rw [List.length_map, List.map_map] at this
    simp only [List.length_map, Prog.bind_eq]
    erw [Prog.clean_bind_of this]
    simp only [hx, Prog.pure_eq, Prog.clean_pure, List.length_append]
    rfl
  have hp : (readPrelude X unmarshal registered).clean (2 :: (encoderTable table ++ rest)) =
      some (.inl (.nil, 1 + (encoderTable table).length, some x), rest) := by
    rw [readPrelude, Prog.clean_read1]
    show ((readEncoders registered).bind _).clean _ = _
    rw [Prog.clean_bind_of hre]
    rfl
  refine ⟨1 + (encoderTable table).length, x, ?_⟩
  simp only [read, Prog.clean_flat fin hp, bind, Except.bind]

/-- Version 1 of the position encoder is unknown to the encoders of the package (all have version 0), and so is the
signature `[9]`. -/
example : (∃ t ∈ [(sigEnum, 0), (sigPosition, 1)], (∀ e ∈ defaultEncoders, e.sig ≠ t.1) ∨
      ∃ e ∈ defaultEncoders, e.sig = t.1 ∧ e.version < t.2) ∧
    (∃ t ∈ [(([9] : Bytes), 0)], (∀ e ∈ defaultEncoders, e.sig ≠ t.1) ∨
      ∃ e ∈ defaultEncoders, e.sig = t.1 ∧ e.version < t.2) := by
  refine ⟨⟨(sigPosition, 1), by simp, Or.inr ⟨positionEncoder 2, by simp [defaultEncoders], rfl, by decide⟩⟩,
    ⟨([9], 0), by simp, Or.inl ?_⟩⟩
  simp [defaultEncoders, eventEncoder, positionEncoder, eulerEncoder, enumEncoder]
  decide

/-! ## C28 -/

/-- C28: empty input and input that does not begin with byte 1 or 2 is refused with an error. -/
theorem C28_other_versions_refused (F : Flate) (X : Ext) (unmarshal : Bytes → Except Err V1.Recording)
    (registered : List Encoder) (b : UInt8) (hb : b ≠ 1 ∧ b ≠ 2) (rest : Bytes) (fin : Err) :
    read F X unmarshal registered (⟨[], fin⟩ : Flat) = .ok ((.nil, 0, some fin), ⟨[], fin⟩) ∧
      ∃ e, read F X unmarshal registered (⟨b :: rest, fin⟩ : Flat) = .ok ((.nil, 1, some e), ⟨rest, fin⟩) := by
  refine ⟨rfl, .badVersion b.toNat, ?_⟩
  have h1 : b.toNat ≠ 1 := fun h => hb.1 (UInt8.toNat_inj.1 (by simpa using h))
  have h2 : b.toNat ≠ 2 := fun h => hb.2 (UInt8.toNat_inj.1 (by simpa using h))
  have hp : (readPrelude X unmarshal registered).clean (b :: rest) =
      some (.inl (.nil, 1, some (.badVersion b.toNat)), rest) := by
    rw [readPrelude, Prog.clean_read1]
    show Prog.clean (if b.toNat = 1 then _ else if b.toNat ≠ 2 then _ else _) rest = _
    rw [if_neg h1, if_pos h2]
    rfl
  simp only [read, Prog.clean_flat fin hp, bind, Except.bind]

example : (3 : UInt8) ≠ 1 ∧ (3 : UInt8) ≠ 2 := by decide

/-! ## C47, C48 -/

/-- The fixed part of an uncompressed file: version, encoder table, compression flag, one header per encoder,
metadata keys. -/
def fileStart (table : List (Bytes × Nat)) (headers keys : List Bytes) : Bytes :=
  2 :: (encoderTable table ++ 0 :: ((headers.map bytesArrayToBytes).flatten ++ stringArrayToBytes keys))

theorem layout (F : Flate) (cfg : WriterCfg) (hc : cfg.compress = false) (orders : List (List Bytes)) (rec : Rec)
    (hsd : SigDetermines cfg.encoders) (out' : Buf) (n : Nat)
    (h : write F cfg orders rec (⟨[]⟩ : Buf) = .ok (n, none, out')) :
    ∃ (used : List Encoder) (headers tree : List Bytes), out'.bytes =
        fileStart (used.map fun e => (e.sig, e.version)) headers (accumulateKeys orders) ++ tree.flatten ∧
      (used.map fun e => e.sig).Nodup ∧ headers.length = used.length ∧
      (∀ e, e ∈ used ↔ ∃ c ∈ rec.flat, chosen cfg.encoders c = some e) ∧
      ∀ (k : Nat) (e : Encoder), used[k]? = some e → ∃ hd cs bs, headers[k]? = some hd ∧
        e.encode cs = .ok (.ok (hd, bs)) ∧ ∀ c, c ∈ cs ↔ c ∈ rec.flat ∧ chosen cfg.encoders c = some e := by
  obtain ⟨ms, off, hs, blocks, idx, x, ws, h1, h2, h3, h4, h5⟩ := write_shape F cfg orders rec _ _ n h
  obtain ⟨u1, u2, u3⟩ := used_spec hsd h1
  have hnodup : (ms.flatMap Mapping.order).Nodup := by
    obtain ⟨-, i1, i2, i3⟩ := evaluate_inv hsd rec 0 ms off h1
    have hmap : (ms.flatMap Mapping.pairs).map (·.2) = ms.flatMap Mapping.order := by
      clear i1 i3 u1 u2 u3 h1 h2 h4 h5
      induction ms with
      | nil => rfl
      | cons m ms ih =>
        rw [List.flatMap_cons, List.map_append, List.flatMap_cons, ih (fun m hm => i2 m (by simp [hm]))]
        congr 1
        rw [Mapping.pairs, List.map_snd_zip]
        exact Nat.le_of_eq (i2 m (by simp)).1.symm
    rw [← hmap]
    refine (i3.map (·.2)).nodup_iff.2 ?_
    show (List.map Prod.snd _).Nodup
    rw [List.zipIdx_map_snd]
    exact List.nodup_range'
  obtain ⟨a1, -, a3⟩ := encodeAll_spec ms 0 _ _ hs h2 hnodup
  refine ⟨ms.map Mapping.encoder, hs, ws, ?_, by simpa [Function.comp_def] using u1, by simpa using a1, ?_, ?_⟩
  · rw [h5]
    simp [hc, prelude, fileStart, encoderTable, bodyWrites, Function.comp_def]
  · intro e
    rw [← u2, List.mem_map]
  · intro k e hk
    rw [List.getElem?_map, Option.map_eq_some_iff] at hk
    obtain ⟨m, hm, rfl⟩ := hk
    obtain ⟨hd, bs, g1, g2, -⟩ := a3 k m hm
    exact ⟨hd, m.colls, bs, g1, g2, u3 m (List.mem_of_getElem? hm)⟩

/-- C47: the encoders listed in the file are exactly the first accepting ones of its collections, each listed once, and
each has one header: the one it produces for exactly the collections it is chosen for. -/
theorem C47_first_accepting_encoder (F : Flate) (cfg : WriterCfg) (hc : cfg.compress = false)
    (orders : List (List Bytes)) (rec : Rec) (hsd : SigDetermines cfg.encoders) (out' : Buf) (n : Nat)
    (h : write F cfg orders rec (⟨[]⟩ : Buf) = .ok (n, none, out')) :
    ∃ (used : List Encoder) (headers keys : List Bytes) (tree : Bytes),
      out'.bytes = fileStart (used.map fun e => (e.sig, e.version)) headers keys ++ tree ∧
      (used.map fun e => e.sig).Nodup ∧ headers.length = used.length ∧
      (∀ e, e ∈ used ↔ ∃ c ∈ rec.flat, cfg.encoders.find? (fun e => e.accepts c) = some e) ∧
      ∀ (k : Nat) (e : Encoder), used[k]? = some e → ∃ hd cs bs, headers[k]? = some hd ∧
        e.encode cs = .ok (.ok (hd, bs)) ∧
        ∀ c, c ∈ cs ↔ c ∈ rec.flat ∧ cfg.encoders.find? (fun e => e.accepts c) = some e := by
  obtain ⟨used, headers, tree, h1, h2⟩ := layout F cfg hc orders rec hsd out' n h
  exact ⟨used, headers, _, _, h1, h2⟩

/-- C48: the key table of the file holds each key used by a recording, reference or binary of the tree, and no other,
exactly once. -/
theorem C48_each_key_once (F : Flate) (cfg : WriterCfg) (hc : cfg.compress = false) (orders : List (List Bytes))
    (rec : Rec) (hko : KeyOrders rec orders) (hsd : SigDetermines cfg.encoders) (out' : Buf) (n : Nat)
    (h : write F cfg orders rec (⟨[]⟩ : Buf) = .ok (n, none, out')) :
    ∃ (used : List Encoder) (headers keys : List Bytes) (tree : Bytes),
      out'.bytes = fileStart (used.map fun e => (e.sig, e.version)) headers keys ++ tree ∧
      headers.length = used.length ∧ keys.Nodup ∧ ∀ k, k ∈ keys ↔ ∃ r, Within r rec ∧ UsesKey k r := by
  obtain ⟨used, headers, tree, h1, -, h3, -⟩ := layout F cfg hc orders rec hsd out' n h
  obtain ⟨k1, k2⟩ := accumulateKeys_spec hko
  exact ⟨used, headers, _, _, h1, h3, k1, k2⟩

example : sampleCfg.compress = false ∧ KeyOrders sample sampleOrders ∧ SigDetermines sampleCfg.encoders ∧
    ∃ out, write storeFlate sampleCfg sampleOrders sample (⟨[]⟩ : Buf) = .ok (289, none, out) :=
  ⟨rfl, sample_orders, builtin_sigDetermines _, sample_write⟩

end Rap
