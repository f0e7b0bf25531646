import Verif.Proof.File

/-! # Reading a written file -/

namespace Rap

/-! ## Tables -/

theorem goSet_ok {α : Type} {l l' : List α} {i : Nat} {v : α} (h : goSet l i v = .ok l') :
    i < l.length ∧ l' = l.set i v := by
  unfold goSet at h
  split at h
  · rename_i hi; simp only [Except.ok.injEq] at h; exact ⟨hi, h.symm⟩
  · simp at h

theorem assignBlocks_spec (k : Nat) (os : List Nat) (bs : List Bytes) (acc acc' : List Bytes × List Nat)
    (h : assignBlocks k os bs acc = .ok acc') (hn : os.Nodup) :
    (∀ i, i ∉ os → acc'.1[i]? = acc.1[i]? ∧ acc'.2[i]? = acc.2[i]?) ∧
    (∀ (t i : Nat), os[t]? = some i → ∃ b, bs[t]? = some b ∧ acc'.1[i]? = some b ∧ acc'.2[i]? = some k) := by
  induction os generalizing bs acc with
  | nil =>
    simp only [assignBlocks, Except.ok.injEq] at h
    subst h; simp
  | cons o os ih =>
    cases bs with
    | nil => simp [assignBlocks] at h
    | cons b bs =>
      obtain ⟨blocks, idx⟩ := acc
      simp only [assignBlocks] at h
      cases h1 : goSet blocks o b with
      | error x => simp [h1, bind, Except.bind] at h
      | ok blocks1 =>
        cases h2 : goSet idx o k with
        | error x => simp [h1, h2, bind, Except.bind] at h
        | ok idx1 =>
          simp only [h1, h2, bind, Except.bind] at h
          rw [List.nodup_cons] at hn
          obtain ⟨g1, g2⟩ := ih _ _ h hn.2
          obtain ⟨l1, rfl⟩ := goSet_ok h1
          obtain ⟨l2, rfl⟩ := goSet_ok h2
          refine ⟨fun i hi => ?_, fun t i hti => ?_⟩
          · simp only [List.mem_cons, not_or] at hi
            obtain ⟨e1, e2⟩ := g1 i hi.2
            rw [e1, e2, List.getElem?_set_ne (Ne.symm hi.1), List.getElem?_set_ne (Ne.symm hi.1)]
            exact ⟨rfl, rfl⟩
          · cases t with
            | zero =>
              simp only [List.getElem?_cons_zero, Option.some.injEq] at hti
              subst hti
              obtain ⟨e1, e2⟩ := g1 o hn.1
              exact ⟨b, rfl, by rw [e1, List.getElem?_set_self l1], by rw [e2, List.getElem?_set_self l2]⟩
            | succ t =>
              simp only [List.getElem?_cons_succ] at hti ⊢
              exact g2 t i hti

theorem encodeAll_spec (ms : List Mapping) (k : Nat) (acc r : List Bytes × List Nat) (hs : List Bytes)
    (h : encodeAll ms k acc = .ok (.ok (hs, r))) (hn : (ms.flatMap Mapping.order).Nodup) :
    hs.length = ms.length ∧
    (∀ i, i ∉ ms.flatMap Mapping.order → r.1[i]? = acc.1[i]? ∧ r.2[i]? = acc.2[i]?) ∧
    ∀ j m, ms[j]? = some m → ∃ hd bs, hs[j]? = some hd ∧ m.encoder.encode m.colls = .ok (.ok (hd, bs)) ∧
      ∀ (t i : Nat), m.order[t]? = some i → ∃ b, bs[t]? = some b ∧ r.1[i]? = some b ∧ r.2[i]? = some (k + j) := by
  induction ms generalizing k acc hs with
  | nil =>
    simp only [encodeAll, Except.ok.injEq, Prod.mk.injEq] at h
    obtain ⟨rfl, rfl⟩ := h
    simp
  | cons m ms ih =>
    obtain ⟨header, streams, acc1, hs1, h1, h2, h3, rfl⟩ := encodeAll_cons h
    rw [List.flatMap_cons, List.nodup_append] at hn
    obtain ⟨n1, n2, n3⟩ := hn
    obtain ⟨i1, i2, i3⟩ := ih _ _ _ h3 n2
    obtain ⟨a1, a2⟩ := assignBlocks_spec _ _ _ _ _ h2 n1
    refine ⟨by simp [i1], fun i hi => ?_, fun j m' hj => ?_⟩
    · rw [List.flatMap_cons, List.mem_append, not_or] at hi
      obtain ⟨e1, e2⟩ := i2 i hi.2
      obtain ⟨f1, f2⟩ := a1 i hi.1
      exact ⟨e1.trans f1, e2.trans f2⟩
    · cases j with
      | zero =>
        simp only [List.getElem?_cons_zero, Option.some.injEq] at hj
        subst hj
        refine ⟨header, streams, rfl, h1, fun t i hti => ?_⟩
        obtain ⟨b, b1, b2, b3⟩ := a2 t i hti
        have hi : i ∉ ms.flatMap Mapping.order := fun hmem =>
          n3 i (List.mem_of_getElem? hti) i hmem rfl
        obtain ⟨e1, e2⟩ := i2 i hi
        exact ⟨b, b1, e1.trans b2, e2.trans b3⟩
      | succ j =>
        simp only [List.getElem?_cons_succ] at hj ⊢
        obtain ⟨hd, bs, g1, g2, g3⟩ := i3 j m' hj
        refine ⟨hd, bs, g1, g2, fun t i hti => ?_⟩
        obtain ⟨b, b1, b2, b3⟩ := g3 t i hti
        exact ⟨b, b1, b2, by rw [b3]; congr 1; omega⟩

theorem finds_mem {d : List Bytes} {is : List Nat} {ks : List Bytes} (h : Finds d is ks) : ∀ k ∈ ks, k ∈ d := by
  induction h with
  | nil => simp
  | cons h _ ih =>
    intro k hk
    rcases List.mem_cons.1 hk with rfl | hk
    · exact List.mem_of_getElem? h
    · exact ih k hk

theorem mem_accumulateKeys {orders : List (List Bytes)} {o : List Bytes} {k : Bytes} (ho : o ∈ orders) (hk : k ∈ o) :
    k ∈ accumulateKeys orders :=
  finds_mem (dictAddAll_spec [] orders.flatten).2 k (List.mem_flatten.2 ⟨o, ho, hk⟩)

theorem keys_cover {rec : Rec} {orders : List (List Bytes)} (h : KeyOrders rec orders) :
    ∀ b ∈ visitedBlocks rec, ∀ kv ∈ b, kv.1 ∈ accumulateKeys orders := by
  intro b hb kv hkv
  unfold KeyOrders at h
  have : ∃ o ∈ orders, o.Perm (b.map (·.1)) := by
    revert h hb
    generalize visitedBlocks rec = bs
    intro h hb
    clear hkv
    induction h with
    | nil => simp at hb
    | cons h1 _ ih =>
      rcases List.mem_cons.1 hb with rfl | hb
      · exact ⟨_, by simp, h1⟩
      · obtain ⟨o, ho, hp⟩ := ih hb
        exact ⟨o, by simp [ho], hp⟩
  obtain ⟨o, ho, hp⟩ := this
  exact mem_accumulateKeys ho (hp.mem_iff.2 (List.mem_map.2 ⟨kv, hkv, rfl⟩))

mutual
theorem flat_good {rec : Rec} (hg : GoodRec rec) : ∀ c ∈ rec.flat, GoodColl c := by
  cases hg with
  | mk id name colls recs md bins refs hc hr hm hb href =>
    intro c hmem
    rw [Rec.flat, flat_some, List.mem_append] at hmem
    rcases hmem with h | h
    · exact hc c h
    · exact flatList_good recs hr c h
theorem flatList_good (recs : List Rec) (hg : ∀ r ∈ recs, GoodRec r) : ∀ c ∈ Rec.flatList recs, GoodColl c := by
  cases recs with
  | nil => simp [Rec.flatList]
  | cons r rs =>
    intro c hmem
    rw [Rec.flatList, List.mem_append] at hmem
    rcases hmem with h | h
    · exact flat_good (hg r (by simp)) c h
    · exact flatList_good rs (fun r hr => hg r (by simp [hr])) c h
end

/-! ## Encoders of the reader -/

theorem findEncoder_ok (sig : Bytes) (v : Nat) (es : List Encoder) (found : Option Encoder)
    (hv : ∀ e ∈ es, e.sig = sig → v ≤ e.version) (hex : found.isSome ∨ ∃ e ∈ es, e.sig = sig) :
    ∃ e', findEncoder sig v es found = .ok e' ∧ (found = some e' ∨ e' ∈ es ∧ e'.sig = sig) := by
  induction es generalizing found with
  | nil =>
    cases found with
    | none => simp at hex
    | some e => exact ⟨e, rfl, Or.inl rfl⟩
  | cons e es ih =>
    simp only [findEncoder]
    by_cases hs : e.sig = sig
    · rw [if_pos hs, if_pos (hv e (by simp) hs)]
      obtain ⟨e', h1, h2⟩ := ih (some e) (fun e he => hv e (by simp [he])) (Or.inl rfl)
      refine ⟨e', h1, Or.inr ?_⟩
      rcases h2 with h2 | h2
      · simp only [Option.some.injEq] at h2; subst h2; exact ⟨by simp, hs⟩
      · exact ⟨by simp [h2.1], h2.2⟩
    · rw [if_neg hs]
      obtain ⟨e', h1, h2⟩ := ih found (fun e he => hv e (by simp [he])) (by
        rcases hex with h | ⟨x, hx, hxs⟩
        · exact Or.inl h
        · rcases List.mem_cons.1 hx with rfl | hx
          · exact absurd hxs hs
          · exact Or.inr ⟨x, hx, hxs⟩)
      exact ⟨e', h1, h2.imp_right fun h => ⟨by simp [h.1], h.2⟩⟩

theorem findEncoders_ok (registered : List Encoder) (ms : List Mapping)
    (h : ∀ m ∈ ms, (∃ e' ∈ registered, e'.sig = m.encoder.sig) ∧
      ∀ e' ∈ registered, e'.sig = m.encoder.sig → m.encoder.version ≤ e'.version) :
    ∃ es, findEncoders registered (ms.map fun m => m.encoder.sig) (ms.map fun m => m.encoder.version) = .ok es ∧
      es.length = ms.length ∧
      ∀ (j : Nat) (m : Mapping) (e' : Encoder), ms[j]? = some m → es[j]? = some e' →
        e' ∈ registered ∧ e'.sig = m.encoder.sig := by
  induction ms with
  | nil => exact ⟨[], rfl, rfl, by simp⟩
  | cons m ms ih =>
    obtain ⟨es, h1, h2, h3⟩ := ih (fun m hm => h m (by simp [hm]))
    obtain ⟨g1, g2⟩ := h m (by simp)
    obtain ⟨e', k1, k2⟩ := findEncoder_ok m.encoder.sig m.encoder.version registered none g2 (Or.inr g1)
    refine ⟨e' :: es, ?_, by simp [h2], fun j m' e'' hm he => ?_⟩
    · simp only [List.map_cons, findEncoders, k1, h1]
    · cases j with
      | zero =>
        simp only [List.getElem?_cons_zero, Option.some.injEq] at hm he
        subst hm he
        simpa using k2
      | succ j =>
        simp only [List.getElem?_cons_succ] at hm he
        exact h3 j m' e'' hm he

theorem clean_readVersions (ms : List Mapping) (total : Nat) (rest : Bytes)
    (h : ∀ m ∈ ms, m.encoder.version < 2 ^ 64) :
    (readVersions ms.length total).clean ((ms.map fun m => putUvarint (u64 m.encoder.version)).flatten ++ rest) =
      some ((ms.map fun m => m.encoder.version,
        total + (ms.map fun m => putUvarint (u64 m.encoder.version)).flatten.length, none), rest) := by
  induction ms generalizing total with
  | nil => rfl
  | cons m ms ih =>
    have h1 := h m (by simp)
    simp only [List.length_cons, readVersions, Prog.bind_eq, List.map_cons, List.flatten_cons, List.append_assoc,
      u64_of_lt h1]
    rw [Prog.clean_bind_of (clean_readUvarint _ _ h1)]
    simp only [Prog.bind_eq]
    rw [Prog.clean_bind_of (ih _ (fun m hm => h m (by simp [hm])))]
    simp [Nat.add_assoc]

theorem clean_prelude (X : Ext) (unmarshal : Bytes → Except Err V1.Recording) (registered : List Encoder)
    (ms : List Mapping) (flag : UInt8) (es : List Encoder) (rest : Bytes)
    (hl : (prelude ms flag).length ≤ sizeLimit) (hv : ∀ m ∈ ms, m.encoder.version < 2 ^ 64)
    (hes : findEncoders registered (ms.map fun m => m.encoder.sig) (ms.map fun m => m.encoder.version) = .ok es) :
    (readPrelude X unmarshal registered).clean (prelude ms flag ++ rest) =
      some (.inr (es, flag, (prelude ms flag).length), rest) := by
  simp only [prelude, List.length_cons, List.length_append, List.length_nil] at hl
  simp only [prelude, List.cons_append, List.append_assoc]
  rw [readPrelude, Prog.clean_read1]
  show ((readEncoders registered).bind _).clean _ = _
  have hre : (readEncoders registered).clean (stringArrayToBytes (ms.map fun m => m.encoder.sig) ++
      ((ms.map fun m => putUvarint (u64 m.encoder.version)).flatten ++ ([flag] ++ rest))) =
      some ((.ok es, (stringArrayToBytes (ms.map fun m => m.encoder.sig)).length +
        (ms.map fun m => putUvarint (u64 m.encoder.version)).flatten.length), [flag] ++ rest) := by
    simp only [readEncoders, Prog.bind_eq]
    rw [Prog.clean_bind_of (clean_stringArray_limit _ _ (by omega))]
    have := clean_readVersions ms (stringArrayToBytes (ms.map fun m => m.encoder.sig)).length ([flag] ++ rest) hv
    simp only [List.length_map, Prog.bind_eq]
    rw [Prog.clean_bind_of this]
    simp only [hes, Prog.pure_eq, Prog.clean_pure]
  simp only [List.cons_append, List.nil_append] at hre ⊢
  rw [Prog.clean_bind_of hre]
  rw [Prog.clean_read1]
  simp only [List.length_cons, List.length_append, List.length_nil, Prog.clean_pure, List.headD_cons]
  congr 5
  omega

theorem clean_readHeaders (hs : List Bytes) (total : Nat) (rest : Bytes)
    (hl : ((hs.map bytesArrayToBytes).flatten).length ≤ sizeLimit) :
    (readHeaders hs.length total).clean ((hs.map bytesArrayToBytes).flatten ++ rest) =
      some ((.ok hs, total + (hs.map bytesArrayToBytes).flatten.length), rest) := by
  induction hs generalizing total with
  | nil => rfl
  | cons h hs ih =>
    simp only [List.map_cons, List.flatten_cons, List.length_append] at hl
    simp only [List.length_cons, readHeaders, Prog.bind_eq, List.map_cons, List.flatten_cons, List.append_assoc]
    rw [Prog.clean_bind_of (clean_bytes_limit _ _ (by omega))]
    simp only [Prog.bind_eq]
    rw [Prog.clean_bind_of (ih _ (by omega))]
    simp [Nat.add_assoc]

theorem clean_readTables (encs : List Encoder) (hs keys : List Bytes) (total : Nat) (rest : Bytes)
    (he : encs.length = hs.length)
    (hl : ((hs.map bytesArrayToBytes).flatten).length + (stringArrayToBytes keys).length ≤ sizeLimit) :
    (readTables encs total).clean ((hs.map bytesArrayToBytes).flatten ++ (stringArrayToBytes keys ++ rest)) =
      some ((.ok (hs, keys), total + (hs.map bytesArrayToBytes).flatten.length + (stringArrayToBytes keys).length),
        rest) := by
  simp only [readTables, Prog.bind_eq, he]
  rw [Prog.clean_bind_of (clean_readHeaders hs total _ (by omega))]
  simp only [Prog.bind_eq]
  rw [Prog.clean_bind_of (clean_stringArray_limit _ _ (by omega))]
  rfl

/-! ## Reading back -/

/-- What the programs reading the part after the compression flag do on a written file, and where its table of
encoders comes from. -/
theorem clean_written (cfg : WriterCfg) (registered : List Encoder) (orders : List (List Bytes)) (rec : Rec)
    (view : Coll → List F64 → Coll) (ms : List Mapping) (off : Nat) (hs blocks : List Bytes) (idx : List Nat) (x : Nat)
    (ws : List Bytes) (hg : GoodRec rec) (hko : KeyOrders rec orders) (ht : cfg.tech ≤ 2)
    (hsd : SigDetermines cfg.encoders) (hu : Understands cfg.encoders registered view rec)
    (h1 : evaluateCollections cfg.encoders rec 0 = .ok (.ok (ms, off)))
    (h2 : encodeAll ms 0 (List.replicate (calcNumStreams rec) [], List.replicate (calcNumStreams rec) 0) =
        .ok (.ok (hs, blocks, idx)))
    (h3 : (recurseWrite ⟨accumulateKeys orders, blocks, idx, cfg.tech⟩ rec 0).emit = .ok (.ok x, ws))
    (hl : (prelude ms 0).length + (bodyWrites orders hs ws).flatten.length ≤ sizeLimit) :
    ∃ es, findEncoders registered (ms.map fun m => m.encoder.sig) (ms.map fun m => m.encoder.version) = .ok es ∧
      (∀ m ∈ ms, m.encoder.version < 2 ^ 64) ∧
      (∀ x ∈ es.zip hs, ∃ e cs bs, (∃ c ∈ rec.flat, chosen cfg.encoders c = some e) ∧
        e.encode cs = .ok (.ok (x.2, bs)) ∧ x.2.length ≤ sizeLimit ∧ x.1 ∈ registered ∧ x.1.sig = e.sig) ∧
      (∀ total rest, (readTables es total).clean ((bodyWrites orders hs ws).flatten ++ rest) =
        some ((.ok (hs, accumulateKeys orders), total + (hs.map bytesArrayToBytes).flatten.length +
          (stringArrayToBytes (accumulateKeys orders)).length), ws.flatten ++ rest)) ∧
      ∀ rest f, ws.flatten.length + 2 ≤ f →
        (buildRec ⟨accumulateKeys orders, es.zip hs, f⟩ f).clean (ws.flatten ++ rest) =
          some (.ok (rec.mapColls fun c => view c (storedTimes cfg.tech c.times)), rest) := by
  obtain ⟨-, i1, i2, i3⟩ := evaluate_inv hsd rec 0 ms off h1
  -- every encoder in the file is used for some collection
  have hused : ∀ m ∈ ms, ∃ c ∈ rec.flat, chosen cfg.encoders c = some m.encoder := by
    intro m hm
    obtain ⟨l1, l2, l3⟩ := i2 m hm
    obtain ⟨c, hc⟩ := List.exists_mem_of_ne_nil _ l2
    refine ⟨c, ?_, l3 c hc⟩
    obtain ⟨t, htt, rfl⟩ := List.getElem_of_mem hc
    have hp : (m.colls[t], m.order[t]'(l1 ▸ htt)) ∈ ms.flatMap Mapping.pairs :=
      List.mem_flatMap.2 ⟨m, hm, by
        rw [Mapping.pairs, List.mem_iff_getElem]; exact ⟨t, by simp [← l1, htt], by simp⟩⟩
    rw [i3.mem_iff] at hp
    have := List.mem_zipIdx hp
    rw [this.2.2]; exact List.getElem_mem _
  obtain ⟨es, e1, e2, e3⟩ := findEncoders_ok registered ms (fun m hm => by
    obtain ⟨v, hcan, -⟩ := hu m.encoder (hused m hm)
    exact ⟨hcan.2.1, fun e' he' hs => (hcan.2.2 e' he' hs).1⟩)
  have hnodup : (ms.flatMap Mapping.order).Nodup := by
    have hmap : (ms.flatMap Mapping.pairs).map (·.2) = ms.flatMap Mapping.order := by
      clear i1 i3 e1 e2 e3 hused hu h1 h2 hl
      induction ms with
      | nil => rfl
      | cons m ms ih =>
        rw [List.flatMap_cons, List.map_append, List.flatMap_cons, ih (fun m hm => i2 m (by simp [hm]))]
        congr 1
        rw [Mapping.pairs, List.map_snd_zip]
        exact Nat.le_of_eq (i2 m (by simp)).1.symm
    rw [← hmap]
    refine (i3.map (·.2)).nodup_iff.2 ?_
    show (List.map Prod.snd _).Nodup
    rw [List.zipIdx_map_snd]
    exact List.nodup_range'
  obtain ⟨a1, -, a3⟩ := encodeAll_spec ms 0 _ _ hs h2 hnodup
  have hl' := hl
  simp only [bodyWrites, List.flatten_append, List.flatten_cons, List.length_append] at hl'
  have hmslen : ms.length ≤ (prelude ms 0).length := by
    have := length_le_stringArray (ms.map fun m => m.encoder.sig)
    simp only [prelude, List.length_cons, List.length_append]
    rw [List.length_map] at this; omega
  have hsize : ∀ hd ∈ hs, hd.length ≤ sizeLimit := by
    intro hd hmem
    have h5 := mem_length_le_flatten bytesArrayToBytes hs hmem
    have h6 : hd.length ≤ (bytesArrayToBytes hd).length := by simp [bytesArrayToBytes]
    omega
  refine ⟨es, e1, fun m hm => (hu m.encoder (hused m hm)).elim fun v hv => hv.1.1, ?_, fun total rest => ?_,
    fun rest f hf => ?_⟩
  · intro x hx
    obtain ⟨j, hj, rfl⟩ := List.getElem_of_mem hx
    rw [List.length_zip] at hj
    have hjm : j < ms.length := by omega
    obtain ⟨hd, bs, g1, g2, -⟩ := a3 j ms[j] (List.getElem?_eq_getElem hjm)
    have hhd : hs[j]'(by omega) = hd := by
      rw [List.getElem?_eq_getElem (by omega), Option.some.injEq] at g1; exact g1
    obtain ⟨r1, r2⟩ := e3 j ms[j] (es[j]'(by omega)) (List.getElem?_eq_getElem hjm) (List.getElem?_eq_getElem (by omega))
    simp only [List.getElem_zip, hhd]
    exact ⟨ms[j].encoder, ms[j].colls, bs, hused ms[j] (List.getElem_mem _), g2,
      hsize hd (List.mem_of_getElem? g1), r1, r2⟩
  · have htab := clean_readTables es hs (accumulateKeys orders) total (ws.flatten ++ rest) (by omega) (by omega)
    have hbody : (bodyWrites orders hs ws).flatten ++ rest = (hs.map bytesArrayToBytes).flatten ++
        (stringArrayToBytes (accumulateKeys orders) ++ (ws.flatten ++ rest)) := by
      simp [bodyWrites]
    rw [hbody, htab]
  have hkl := length_le_stringArray (accumulateKeys orders)
  have htree := tree_spec ⟨accumulateKeys orders, blocks, idx, cfg.tech⟩
    ⟨accumulateKeys orders, es.zip hs, f⟩
    (fun c => view c (storedTimes cfg.tech c.times)) ht rfl (by show (accumulateKeys orders).length ≤ _; omega) rec hg 0
    (keys_cover hko) (by
      intro i c hic
      rw [Nat.zero_add]
      -- find the mapping of stream `i`
      have hp : (c, i) ∈ rec.flat.zipIdx 0 := by
        rw [List.mem_zipIdx_iff_getElem?]; exact hic
      rw [← i3.mem_iff, List.mem_flatMap] at hp
      obtain ⟨m, hm, hmp⟩ := hp
      obtain ⟨j, hj, rfl⟩ := List.getElem_of_mem hm
      have hj' : ms[j]? = some ms[j] := List.getElem?_eq_getElem hj
      obtain ⟨t, htt, hte⟩ := List.getElem_of_mem hmp
      have ht1 : ms[j].colls[t]? = some c := by
        simp only [Mapping.pairs, List.getElem_zip, Prod.mk.injEq] at hte
        simp only [Mapping.pairs, List.length_zip] at htt
        rw [← hte.1]; exact List.getElem?_eq_getElem (by omega)
      have ht2 : ms[j].order[t]? = some i := by
        simp only [Mapping.pairs, List.getElem_zip, Prod.mk.injEq] at hte
        simp only [Mapping.pairs, List.length_zip] at htt
        rw [← hte.2]; exact List.getElem?_eq_getElem (by omega)
      obtain ⟨hd, bs, g1, g2, g3⟩ := a3 j ms[j] hj'
      obtain ⟨b, b1, b2, b3⟩ := g3 t i ht2
      rw [Nat.zero_add] at b3
      have hje : j < es.length := by omega
      have hes : es[j]? = some es[j] := List.getElem?_eq_getElem hje
      obtain ⟨r1, r2⟩ := e3 j ms[j] es[j] hj' hes
      obtain ⟨v, hcan, hview⟩ := hu ms[j].encoder (hused ms[j] hm)
      have hdec := (hcan.2.2 es[j] r1 r2).2
      have hch := (i2 ms[j] hm).2.2 c (List.mem_of_getElem? ht1)
      refine ⟨j, b, es[j], hd, b3, ?_, b2, ?_, fun hbl => ?_⟩
      · simp only [sizeLimit] at hl; omega
      · show (es.zip hs)[j]? = _
        rw [List.getElem?_zip_eq_some]; exact ⟨hes, g1⟩
      · have hhd : hd.length ≤ sizeLimit := by
          exact hsize hd (List.mem_of_getElem? g1)
        have hgc : ∀ c ∈ ms[j].colls, GoodColl c := by
          intro c' hc'
          obtain ⟨t', htt', rfl⟩ := List.getElem_of_mem hc'
          have l1 := (i2 ms[j] hm).1
          have hp : (ms[j].colls[t'], ms[j].order[t']'(l1 ▸ htt')) ∈ ms.flatMap Mapping.pairs :=
            List.mem_flatMap.2 ⟨ms[j], hm, by
              rw [Mapping.pairs, List.mem_iff_getElem]; exact ⟨t', by simp [← l1, htt'], by simp⟩⟩
          rw [i3.mem_iff] at hp
          have := List.mem_zipIdx hp
          rw [this.2.2]; exact flat_good hg _ (List.getElem_mem _)
        obtain ⟨-, d2⟩ := hdec ms[j].colls hd bs hgc g2 hhd
        rw [d2 t c b ht1 b1 hbl _ (storedTimes_length _ _)]
        simp only [hview c _ hch])
  obtain ⟨d, d1, -, d3⟩ := htree
  have hd : d = ws.flatten := by
    obtain ⟨_, hdd⟩ := WProg.Emits.det d1 ⟨ws, h3, rfl⟩
    exact hdd
  subst hd
  exact d3 (by omega) (by dsimp only; omega) f (by omega) rest

theorem readBody_written (cfg : WriterCfg) (registered : List Encoder) (orders : List (List Bytes)) (rec : Rec)
    (view : Coll → List F64 → Coll) (ms : List Mapping) (off : Nat) (hs blocks : List Bytes) (idx : List Nat) (x : Nat)
    (ws : List Bytes) (hg : GoodRec rec) (hko : KeyOrders rec orders) (ht : cfg.tech ≤ 2)
    (hsd : SigDetermines cfg.encoders) (hu : Understands cfg.encoders registered view rec)
    (h1 : evaluateCollections cfg.encoders rec 0 = .ok (.ok (ms, off)))
    (h2 : encodeAll ms 0 (List.replicate (calcNumStreams rec) [], List.replicate (calcNumStreams rec) 0) =
        .ok (.ok (hs, blocks, idx)))
    (h3 : (recurseWrite ⟨accumulateKeys orders, blocks, idx, cfg.tech⟩ rec 0).emit = .ok (.ok x, ws))
    (hl : (prelude ms 0).length + (bodyWrites orders hs ws).flatten.length ≤ sizeLimit) :
    ∃ es, findEncoders registered (ms.map fun m => m.encoder.sig) (ms.map fun m => m.encoder.version) = .ok es ∧
      (∀ m ∈ ms, m.encoder.version < 2 ^ 64) ∧
      ∀ total rest fin, readBody es total (⟨(bodyWrites orders hs ws).flatten ++ rest, fin⟩ : Flat) =
        .ok ((rec.mapColls fun c => view c (storedTimes cfg.tech c.times),
          total + (bodyWrites orders hs ws).flatten.length, none), ⟨rest, fin⟩) := by
  obtain ⟨es, e1, e2, -, e4, e5⟩ := clean_written cfg registered orders rec view ms off hs blocks idx x ws hg hko ht hsd hu
    h1 h2 h3 hl
  refine ⟨es, e1, e2, fun total rest fin => ?_⟩
  simp only [readBody]
  rw [Prog.clean_flat fin (e4 total rest)]
  simp only [bind, Except.bind, Drain.rest]
  rw [ER.new, Prog.clean_er fin 0 (e5 rest ((ws.flatten ++ rest).length + 2) (by simp))]
  simp only [List.length_append, Except.ok.injEq, Prod.mk.injEq, and_true, true_and]
  simp only [bodyWrites, List.flatten_append, List.flatten_cons, List.length_append]
  omega

/-- Reading what was written to memory. -/
theorem read_written (F : Flate) (hF : F.Lawful) (X : Ext) (unmarshal : Bytes → Except Err V1.Recording)
    (cfg : WriterCfg) (registered : List Encoder) (orders : List (List Bytes)) (rec : Rec)
    (view : Coll → List F64 → Coll) (hg : GoodRec rec) (hko : KeyOrders rec orders) (ht : cfg.tech ≤ 2)
    (hsd : SigDetermines cfg.encoders) (hu : Understands cfg.encoders registered view rec)
    (out out' : Buf) (n : Nat) (h : write F cfg orders rec out = .ok (n, none, out')) (hn : n ≤ sizeLimit) :
    ∃ file, out'.bytes = out.bytes ++ file ∧ (cfg.compress = false → n = file.length) ∧
      ∀ rest fin, ∃ s, read F X unmarshal registered (⟨file ++ rest, fin⟩ : Flat) =
        .ok ((rec.mapColls fun c => view c (storedTimes cfg.tech c.times), n, none), s) ∧
        (cfg.compress = false → s = ⟨rest, fin⟩) := by
  obtain ⟨ms, off, hs, blocks, idx, x, ws, h1, h2, h3, h4, h5⟩ := write_shape F cfg orders rec out out' n h
  obtain ⟨es, e1, e2, e3⟩ := readBody_written cfg registered orders rec view ms off hs blocks idx x ws hg hko ht hsd hu
    h1 h2 h3 (by omega)
  refine ⟨_, h5, ?_, ?_⟩
  · intro hc
    rw [hc, h4]; simp only [prelude, List.length_append, List.length_cons, List.length_nil, Bool.false_eq_true, if_false]
  · intro rest fin
    have hpl : ∀ f, (prelude ms f).length = (prelude ms 0).length := by intro f; simp [prelude]
    cases hc : cfg.compress with
    | false =>
      refine ⟨⟨rest, fin⟩, ?_, fun _ => rfl⟩
      simp only [Bool.false_eq_true, if_false, List.append_assoc]
      have hp := clean_prelude X unmarshal registered ms 0 es ((bodyWrites orders hs ws).flatten ++ rest) (by omega) e2 e1
      simp only [read, Prog.clean_flat fin hp, bind, Except.bind]
      rw [if_neg (by decide), e3, h4]
    | true =>
      refine ⟨⟨F.output F.init (bodyWrites orders hs ws) ++ rest, fin⟩, ?_, by simp⟩
      simp only [if_true, List.append_assoc]
      have hp := clean_prelude X unmarshal registered ms 1 es (F.output F.init (bodyWrites orders hs ws) ++ rest)
        (by rw [hpl]; omega) e2 e1
      simp only [read, Prog.clean_flat fin hp, bind, Except.bind]
      have := e3 (prelude ms 1).length [] .eof
      rw [List.append_nil] at this
      simp only [if_true, Drain.rest, hF _ rest fin, this]
      rw [hpl, h4]

end Rap
