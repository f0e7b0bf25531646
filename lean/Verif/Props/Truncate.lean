import Verif.Proof.Trunc
import Verif.Props.Delivery
import Verif.Props.Robust

/-! # C22: truncated files -/

namespace Rap

open Prog

theorem rr_prelude2 (registered : List Encoder) : (prelude2 registered).RawReads (· = 1) := by
  refine RawReads.bind (rr_encoders registered) fun ⟨r, _⟩ => ?_
  cases r with
  | error e => trivial
  | ok encs =>
    refine ⟨rfl, fun got err => ?_⟩
    cases err <;> trivial

/-- A cut in an input that is read successfully to its end cannot go unnoticed. -/
theorem cut_rest {α : Type} {p : Prog α} {d x R R' : Bytes} {c : α} (h : p.clean (d ++ x) = some (c, R))
    (h' : p.clean d = some (c, R')) : R' ++ x = R := by
  have := clean_append h' x
  rw [h] at this
  simp only [Option.some.injEq, Prod.mk.injEq, true_and] at this
  exact this.symm

/-- Cutting the part after the compression flag. -/
theorem readBody_cut {es : List Encoder} {hs keys : List Bytes} {tot tot' : Nat} {B W : Bytes} {rec : Rec}
    (hsafe : ∀ e ∈ es, DecodesSafely e)
    (hempty : ∀ x ∈ es.zip hs, ∀ name times, ∃ r, x.1.decode name x.2 [] times = .ok r)
    (htab : (readTables es tot).clean B = some ((.ok (hs, keys), tot'), W))
    (htree : ∀ f, W.length + 2 ≤ f → (buildRec ⟨keys, es.zip hs, f⟩ f).clean W = some (.ok rec, []))
    (pre x : Bytes) (hx : x ≠ []) (hd : pre ++ x = B) (fin : Err) :
    ∃ n e s, readBody es tot (⟨pre, fin⟩ : Flat) = .ok ((.nil, n, some e), s) := by
  subst hd
  simp only [readBody]
  rcases Trunc.run_flat (rr_tables es tot) htab (ts_readTables es tot _ _ _ htab) fin with ⟨W', hW⟩ | ⟨⟨r, m⟩, hr, hq⟩
  · rw [clean_flat fin hW]
    simp only [Bind.bind, Except.bind, Drain.rest]
    have hWx := cut_rest htab hW
    have hlen : W'.length ≤ W.length := by rw [← hWx]; simp
    have hnf : ∀ y, (buildRec ⟨keys, es.zip hs, W'.length + 2⟩ (W'.length + 2)).run (ER.new (⟨W', fin⟩ : Flat)) =
        .error y → Expected y := by
      intro y hy
      rcases Safe.run (measured_er (σ := Flat)) (s := ER.new ⟨W', fin⟩)
        (safe_buildRec ⟨keys, es.zip hs, W'.length + 2⟩ (fun z hz => hsafe z.1 (List.of_mem_zip hz).1)
          (W'.length + 2) (erMeasure (ER.new (⟨W', fin⟩ : Flat))) (by simp [erMeasure, ER.new, Drain.rest])
          (by simp [erMeasure, ER.new, Drain.rest])) with ⟨a, s', h1, -⟩ | ⟨p, h1, h2⟩
      · rw [h1] at hy; simp at hy
      · rw [h1] at hy; simp only [Except.error.injEq] at hy; rw [← hy]; exact h2
    have heq : (buildRec ⟨keys, es.zip hs, W.length + 2⟩ (W.length + 2)).run (ER.new (⟨W', fin⟩ : Flat)) =
        (buildRec ⟨keys, es.zip hs, W'.length + 2⟩ (W'.length + 2)).run (ER.new (⟨W', fin⟩ : Flat)) := by
      rcases Refines.run (ref_buildRec (keys := keys) (encs := es.zip hs) (f1 := W'.length + 2) (f2 := W.length + 2)
        (g1 := W'.length + 2) (g2 := W.length + 2) (by omega) (by omega)) (ER.new (⟨W', fin⟩ : Flat)) with h | h
      · rcases hnf _ h with h | h <;> simp at h
      · exact h
    rw [← heq]
    have hc := htree (W.length + 2) (by omega)
    have hts := ts_buildRec (T := ⟨keys, es.zip hs, W.length + 2⟩) hempty (W.length + 2) _ _ _ hc
    generalize W.length + 2 = f at hc hts ⊢
    rw [← hWx] at hc hts
    rcases Trunc.run_er hc hts fin 0 with ⟨R', hR⟩ | ⟨a, s', e, h1, -, h3⟩
    · have := cut_rest hc hR
      simp at this; exact absurd this.2 hx
    · rw [ER.new, h1]
      cases a with
      | ok v => exact h3.elim
      | error e => exact ⟨_, _, _, rfl⟩
  · rw [hr]
    cases r with
    | ok v => exact hq.elim
    | error e => exact ⟨_, _, _, rfl⟩

/-- The decoder does not panic on an empty block, for headers the encoder produces. -/
def EmptyBlockOk (e e' : Encoder) : Prop :=
  ∀ cs h bs, e.encode cs = .ok (.ok (h, bs)) → h.length ≤ sizeLimit → ∀ name ts, ∃ r, e'.decode name h [] ts = .ok r

/-- C22: any strict prefix of an uncompressed file gives an error and no recording, without a panic, for any encoders
that take empty blocks without panicking. -/
theorem C22_truncated_any_encoders (F : Flate) (X : Ext) (unmarshal : Bytes → Except Err V1.Recording)
    (cfg : WriterCfg) (hc : cfg.compress = false) (registered : List Encoder) (orders : List (List Bytes)) (rec : Rec)
    (view : Coll → List F64 → Coll) (hg : GoodRec rec) (hko : KeyOrders rec orders) (ht : cfg.tech ≤ 2)
    (hsd : SigDetermines cfg.encoders) (hu : Understands cfg.encoders registered view rec)
    (hsafe : ∀ e ∈ registered, DecodesSafely e)
    (hempty : ∀ e ∈ cfg.encoders, ∀ e' ∈ registered, e'.sig = e.sig → EmptyBlockOk e e')
    (out : Buf) (n : Nat) (h : write F cfg orders rec (⟨[]⟩ : Buf) = .ok (n, none, out)) (hn : n ≤ sizeLimit)
    (pre rest : Bytes) (hrest : rest ≠ []) (hp : pre ++ rest = out.bytes) (fin : Err) :
    ∃ m e s, read F X unmarshal registered (⟨pre, fin⟩ : Flat) = .ok ((.nil, m, some e), s) := by
  obtain ⟨ms, off, hs, blocks, idx, x, ws, h1, h2, h3, h4, h5⟩ := write_shape F cfg orders rec ⟨[]⟩ out n h
  obtain ⟨es, e1, e2, e3, e4, e5⟩ := clean_written cfg registered orders rec view ms off hs blocks idx x ws hg hko ht hsd
    hu h1 h2 h3 (by omega)
  simp only [hc, Bool.false_eq_true, if_false, List.nil_append] at h5
  rw [h5] at hp
  have hpre := clean_prelude X unmarshal registered ms 0 es (bodyWrites orders hs ws).flatten (by omega) e2 e1
  obtain ⟨k, k1, k2, k3⟩ := readPrelude_v2 X unmarshal registered
  have hv2 : ∃ t, prelude ms 0 ++ (bodyWrites orders hs ws).flatten = 2 :: t := ⟨_, rfl⟩
  obtain ⟨t, ht2⟩ := hv2
  rw [ht2] at hp hpre
  rw [k1, clean_read1, k2] at hpre
  simp only [read]
  cases pre with
  | nil =>
    refine ⟨0, fin, ⟨[], fin⟩, ?_⟩
    rw [k1]
    simp [Prog.run, Src.read, k3, Bind.bind, Except.bind]
  | cons b pre =>
    simp only [List.cons_append, List.cons.injEq] at hp
    obtain ⟨rfl, hp⟩ := hp
    have hrun : (readPrelude X unmarshal registered).run (⟨2 :: pre, fin⟩ : Flat) =
        (prelude2 registered).run (⟨pre, fin⟩ : Flat) := by
      rw [k1, ← k2]; rfl
    rw [hrun]
    rw [← hp] at hpre
    rcases Trunc.run_flat (rr_prelude2 registered) hpre (ts_prelude2 registered _ _ _ hpre) fin with ⟨B', hB⟩ | ⟨r, hr, hq⟩
    · rw [clean_flat fin hB]
      simp only [Bind.bind, Except.bind]
      rw [if_neg (by decide)]
      have e4' := e4 (prelude ms 0).length []
      rw [List.append_nil, List.append_nil] at e4'
      refine readBody_cut (rec := rec.mapColls fun c => view c (storedTimes cfg.tech c.times)) (fun e he => hsafe e (findEncoders_mem e1 e he)) ?_ e4' (fun f hf => ?_) B' rest hrest
        (cut_rest hpre hB) fin
      · intro y hy name times
        obtain ⟨e, cs, bs, ⟨c, hcm, hch⟩, g1, g2, g3, g4⟩ := e3 y hy
        exact hempty e (List.mem_of_find?_eq_some hch) y.1 g3 g4 cs y.2 bs g1 g2 name times
      · have := e5 [] f hf
        rwa [List.append_nil] at this
    · rw [hr]
      cases r with
      | inr v => exact hq.elim
      | inl v =>
        obtain ⟨r, m, e⟩ := v
        obtain ⟨q1, q2⟩ := hq
        cases e with
        | none => simp at q2
        | some e => exact ⟨m, e, _, by rw [q1]; rfl⟩

theorem dead_enumCaptures (ts : List F64) : (enumCaptures ts).Dead true fun _ => True := by
  induction ts with
  | nil => trivial
  | cons t ts ih => exact Dead.bind dead_readUvarint fun _ _ => Dead.bind ih fun _ _ => trivial

theorem event_emptyBlock : EmptyBlockOk eventEncoder eventEncoder := by
  intro cs hd bs he hl name ts
  simp only [eventEncoder, eventEncode] at he
  cases hx : eventStreams [] [] cs with
  | error x => simp [hx, Bind.bind, Except.bind] at he
  | ok r =>
    cases r with
    | error e => simp [hx, Bind.bind, Except.bind] at he
    | ok v =>
      obtain ⟨names, keys, blocks⟩ := v
      simp only [hx, Bind.bind, Except.bind, Except.ok.injEq, Prod.mk.injEq] at he
      obtain ⟨rfl, rfl⟩ := he
      rw [List.length_append] at hl
      have h1 := clean_stringArray_limit names (stringArrayToBytes keys ++ []) (by omega)
      have h2 := clean_stringArray_limit keys [] (by omega)
      have h3 : eventHeader.clean (stringArrayToBytes names ++ stringArrayToBytes keys) =
          some ((names, keys, none), []) := by
        rw [List.append_nil] at h1 h2
        simp only [eventHeader, bind_eq]
        rw [clean_bind_of h1]
        simp only
        rw [clean_bind_of h2]
        rfl
      simp only [eventEncoder, eventDecode, onBytes_of_clean h3, Bind.bind, Except.bind]
      cases ts with
      | nil => exact ⟨_, rfl⟩
      | cons t ts => exact ⟨_, rfl⟩

theorem enum_emptyBlock : EmptyBlockOk enumEncoder enumEncoder := by
  intro cs hd bs he hl name ts
  simp only [enumEncoder, enumEncode] at he
  cases hx : enumStreams [] cs with
  | error x => simp [hx, Bind.bind, Except.bind] at he
  | ok r =>
    obtain ⟨d, blocks⟩ := r
    simp only [hx, Bind.bind, Except.bind, Except.ok.injEq, Prod.mk.injEq] at he
    obtain ⟨rfl, rfl⟩ := he
    have h1 := clean_stringArray_limit d [] hl
    rw [List.append_nil] at h1
    simp only [enumEncoder, enumDecode, onBytes_of_clean h1, Bind.bind, Except.bind, Prog.onErrReader]
    obtain ⟨a, h2, -⟩ := Dead.run_er (Q := fun _ => True)
      (p := (enumCaptures ts).bind fun caps => (Prog.pure (([] : List Bytes), caps)))
      (Dead.bind (dead_enumCaptures ts) fun _ _ => trivial) (⟨⟨[], .eof⟩, some .eof, 0⟩ : ER Flat) rfl
    have h3 : (readUvarIntArray.bind fun (x : List Nat × Nat × Option Err) =>
        (Prog.ofGo (lookupAll d x.1)).bind fun ms => (enumCaptures ts).bind fun caps =>
          (Prog.pure (ms, caps) : Prog _)).run (ER.new (⟨[], .eof⟩ : Flat)) = .ok (a, ⟨⟨[], .eof⟩, some .eof, 0⟩) := by
      rw [run_bind]
      exact h2
    exact ⟨_, by simp only [Prog.pure_eq]; rw [h3]⟩

/-- The package's decoders do not panic on empty blocks. -/
theorem builtin_emptyBlock (b b' : Builtin) (h : b'.encoder.sig = b.encoder.sig) :
    EmptyBlockOk b.encoder b'.encoder := by
  cases b' with
  | position t => exact fun _ _ _ _ _ _ _ => ⟨_, rfl⟩
  | euler t => exact fun _ _ _ _ _ _ _ => ⟨_, rfl⟩
  | float t => exact fun _ _ _ _ _ _ _ => ⟨_, rfl⟩
  | event =>
    cases b with
    | event => exact event_emptyBlock
    | enum => exact absurd h (by decide)
    | position t => exact absurd h (by show ¬ sigEvent = sigPosition; decide)
    | euler t => exact absurd h (by show ¬ sigEvent = sigEuler; decide)
    | float t => exact absurd h (by show ¬ sigEvent = sigFloat; decide)
  | enum =>
    cases b with
    | enum => exact enum_emptyBlock
    | event => exact absurd h (by decide)
    | position t => exact absurd h (by show ¬ sigEnum = sigPosition; decide)
    | euler t => exact absurd h (by show ¬ sigEnum = sigEuler; decide)
    | float t => exact absurd h (by show ¬ sigEnum = sigFloat; decide)

/-- C22: with the encoders of the package, any strict prefix of an uncompressed file, in whatever pieces it is
delivered and with whatever error the input ends, gives an error and no recording, without a panic. -/
theorem C22_truncated (F : Flate) (X : Ext) (unmarshal : Bytes → Except Err V1.Recording) (ws rs : List Builtin)
    (tech : Nat) (ht : tech ≤ 2) (orders : List (List Bytes)) (rec : Rec) (hg : GoodRec rec)
    (hko : KeyOrders rec orders) (hrs : ∀ b ∈ ws, ∃ b' ∈ rs, b'.encoder.sig = b.encoder.sig)
    (out : Buf) (n : Nat)
    (h : write F ⟨ws.map Builtin.encoder, tech, false⟩ orders rec (⟨[]⟩ : Buf) = .ok (n, none, out))
    (hn : n ≤ sizeLimit) (pieces : List Bytes) (hne : ∀ p ∈ pieces, p ≠ []) (rest : Bytes) (hrest : rest ≠ [])
    (hp : pieces.flatten ++ rest = out.bytes) (fin : Err) :
    ∃ m e s, read F X unmarshal (rs.map Builtin.encoder) (⟨pieces, fin⟩ : Chunked) = .ok ((.nil, m, some e), s) := by
  obtain ⟨m, e, s, hr⟩ := C22_truncated_any_encoders F X unmarshal ⟨ws.map Builtin.encoder, tech, false⟩ rfl
    (rs.map Builtin.encoder) orders rec (storedColl ws) hg hko ht (builtin_sigDetermines ws)
    (builtin_understands ws rs rec fun c _ b hb => hrs b (Builtin.chosen_some hb).1)
    (fun e he => by
      obtain ⟨b, -, rfl⟩ := List.mem_map.1 he
      exact builtin_safe b)
    (fun e he e' he' hs => by
      obtain ⟨b, -, rfl⟩ := List.mem_map.1 he
      obtain ⟨b', -, rfl⟩ := List.mem_map.1 he'
      exact builtin_emptyBlock b b' hs)
    out n h hn pieces.flatten rest hrest hp fin
  have hv : pieces.flatten.head? ≠ some 1 := by
    obtain ⟨_, _, _, _, _, _, _, -, -, -, -, hb⟩ := write_shape F _ orders rec _ _ n h
    cases hf : pieces.flatten with
    | nil => simp
    | cons b t =>
      rw [hf, hb] at hp
      simp only [prelude, List.nil_append, List.cons_append, List.cons.injEq] at hp
      simp [hp.1]
  have := C25_delivery_is_irrelevant_partial F X unmarshal (rs.map Builtin.encoder) pieces fin hne hv
  rw [hr] at this
  revert this
  cases read F X unmarshal (rs.map Builtin.encoder) (⟨pieces, fin⟩ : Chunked) with
  | error p => intro h; cases h
  | ok r =>
    intro h
    simp only [Except.map, Except.ok.injEq, Prod.mk.injEq] at h
    exact ⟨m, e, r.2, by rw [← h.1]⟩

/-- The hypotheses hold for the sample recording, whose file has 289 bytes, cut after 100 bytes. -/
example : GoodRec sample ∧ KeyOrders sample sampleOrders ∧
    ∃ out, write storeFlate ⟨losslessEncoders.map Builtin.encoder, 0, false⟩ sampleOrders sample (⟨[]⟩ : Buf) =
        .ok (289, none, out) ∧
      out.bytes.drop 100 ≠ [] ∧ [out.bytes.take 100].flatten ++ out.bytes.drop 100 = out.bytes := by
  obtain ⟨out, h⟩ := sample_write
  refine ⟨sample_good, sample_orders, out, h, ?_, by simp⟩
  obtain ⟨_, _, _, _, _, _, _, -, -, -, h4, hb⟩ := write_shape storeFlate sampleCfg _ _ _ _ _ h
  intro hc
  have := congrArg List.length hc
  rw [hb] at this
  simp only [List.length_drop, List.nil_append, sampleCfg, Bool.false_eq_true, if_false, List.length_append,
    List.length_nil] at this
  omega

end Rap
