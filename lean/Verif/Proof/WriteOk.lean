import Verif.Proof.ReadFile

/-! # Writes that succeed -/

namespace Rap

open WProg (Emits)

/-! ## The tree -/

theorem metadataValues_ok (kvs : Block) (h : ∀ kv ∈ kvs, RT kv.2) : ∃ D, metadataValues kvs = .ok D := by
  induction kvs with
  | nil => exact ⟨[], rfl⟩
  | cons kv kvs ih =>
    obtain ⟨D, hD⟩ := ih (fun kv hkv => h kv (by simp [hkv]))
    obtain ⟨c, d, -, -, hb⟩ := (h kv (by simp)).bytes
    exact ⟨_, by simp [metadataValues, hb, hD, bind, Except.bind]; rfl⟩

theorem md_emits (keys : List Bytes) (block : Block) (hg : GoodBlock block) :
    ∃ d, Emits (writeMetadata keys block) () d := by
  obtain ⟨D, hD⟩ := metadataValues_ok block (fun kv hkv => constructible_RT (hg.2 kv hkv))
  exact ⟨_, Emits.ofGo_bind hD ((Emits.put _).bind ((Emits.put _).bind (Emits.pure _)))⟩

theorem streams_emits (T : Tables) (cs : List Coll) (off : Nat) (h1 : off + cs.length ≤ T.encIdx.length)
    (h2 : off + cs.length ≤ T.blocks.length) : ∃ d, Emits (writeStreams T off (cs.map some)) () d := by
  induction cs generalizing off with
  | nil => exact ⟨_, Emits.pure _⟩
  | cons c cs ih =>
    simp only [List.length_cons] at h1 h2
    obtain ⟨d, hd⟩ := ih (off + 1) (by omega) (by omega)
    have g1 : goGet T.encIdx off = .ok T.encIdx[off] := by
      simp [goGet, List.getElem?_eq_getElem (show off < T.encIdx.length by omega)]
    have g2 : goGet T.blocks off = .ok T.blocks[off] := by
      simp [goGet, List.getElem?_eq_getElem (show off < T.blocks.length by omega)]
    exact ⟨_, Emits.ofGo_bind g1 ((Emits.put _).bind ((Emits.put _).bind ((Emits.put _).bind
      (Emits.ofGo_bind g2 ((Emits.put _).bind hd)))))⟩

theorem refs_emits (T : Tables) (refs : List BinRef) (hg : ∀ r ∈ refs, GoodRef r) :
    ∃ d, Emits (writeRefs T (refs.map some)) () d := by
  induction refs with
  | nil => exact ⟨_, Emits.pure _⟩
  | cons r refs ih =>
    obtain ⟨d, hd⟩ := ih (fun r hr => hg r (by simp [hr]))
    obtain ⟨d', hd'⟩ := md_emits T.keys r.md (hg r (by simp)).1
    exact ⟨_, (Emits.put _).bind ((Emits.put _).bind ((Emits.put _).bind (hd'.bind hd)))⟩

theorem ioCopy_emits (data : Bytes) : Emits (ioCopy data) data.length data := by
  unfold ioCopy
  cases data with
  | nil => exact Emits.pure _
  | cons b data =>
    simp only [List.isEmpty_cons, Bool.false_eq_true, if_false]
    exact (Emits.put _).bind_silent (Emits.pure _)

theorem bins_emits (T : Tables) (bins : List Bin) (hg : ∀ b ∈ bins, GoodBin b) :
    ∃ d, Emits (writeBins T (bins.map some)) () d := by
  induction bins with
  | nil => exact ⟨_, Emits.pure _⟩
  | cons b bins ih =>
    obtain ⟨d, hd⟩ := ih (fun b hb => hg b (by simp [hb]))
    obtain ⟨d', hd'⟩ := md_emits T.keys b.md (hg b (by simp)).1
    refine ⟨_, (Emits.put _).bind ((Emits.put _).bind (hd'.bind ((ioCopy_emits b.data).bind (d' := d) ?_)))⟩
    have := (hg b (by simp)).2
    simp only [this, ne_eq, not_true_eq_false, if_false]
    exact hd

theorem tree_emits (T : Tables) (rec : Rec) (hg : GoodRec rec) :
    ∀ off, off + rec.flat.length ≤ T.encIdx.length → off + rec.flat.length ≤ T.blocks.length →
      ∃ d, Emits (recurseWrite T rec off) (.ok (off + rec.flat.length)) d := by
  induction hg with
  | mk id name colls recs md bins refs hc hr hm hb href ih =>
    intro off h1 h2
    rw [Rec.flat, flat_some, List.length_append] at *
    obtain ⟨d1, e1⟩ := md_emits T.keys md hm
    obtain ⟨d2, e2⟩ := streams_emits T colls off (by omega) (by omega)
    obtain ⟨d3, e3⟩ := refs_emits T refs href
    obtain ⟨d4, e4⟩ := bins_emits T bins hb
    have hlist : ∀ (rs : List Rec), (∀ r ∈ rs, ∀ off, off + r.flat.length ≤ T.encIdx.length →
        off + r.flat.length ≤ T.blocks.length → ∃ d, Emits (recurseWrite T r off) (.ok (off + r.flat.length)) d) →
        ∀ off, off + (Rec.flatList rs).length ≤ T.encIdx.length → off + (Rec.flatList rs).length ≤ T.blocks.length →
        ∃ d, Emits (recurseWriteList T rs off) (.ok (off + (Rec.flatList rs).length)) d := by
      intro rs
      induction rs with
      | nil => intro _ off _ _; exact ⟨_, by rw [recurseWriteList]; exact Emits.pure _⟩
      | cons r rs ih2 =>
        intro hall off g1 g2
        rw [Rec.flatList, List.length_append] at *
        obtain ⟨d, hd⟩ := hall r (by simp) off (by omega) (by omega)
        obtain ⟨d', hd'⟩ := ih2 (fun r hr => hall r (by simp [hr])) (off + r.flat.length) (by omega) (by omega)
        refine ⟨d ++ d', ?_⟩
        rw [recurseWriteList]
        refine hd.bind (d' := d') ?_
        simp only
        rw [← Nat.add_assoc]; exact hd'
    obtain ⟨d5, e5⟩ := hlist recs ih (off + colls.length) (by omega) (by omega)
    rw [recurseWrite]
    refine ⟨_, (Emits.put _).bind ((Emits.put _).bind (e1.bind ((Emits.put _).bind (e2.bind ((Emits.put _).bind (e3.bind
      ((Emits.put _).bind (e4.bind ((Emits.put _).bind (Emits.bind (d' := []) (a := .ok (off + colls.length +
        (Rec.flatList recs).length)) (d := d5) ?_ ?_))))))))))⟩
    · rw [List.length_map]; exact e5
    · refine Emits.err ?_
      rw [Nat.add_assoc]
      exact Emits.pure _

/-! ## Encoders -/

theorem assignBlocks_ok (k : Nat) (os : List Nat) (bs : List Bytes) (acc : List Bytes × List Nat)
    (hl : bs.length = os.length) (h1 : ∀ o ∈ os, o < acc.1.length) (h2 : ∀ o ∈ os, o < acc.2.length) :
    ∃ acc', assignBlocks k os bs acc = .ok acc' ∧ acc'.1.length = acc.1.length ∧ acc'.2.length = acc.2.length := by
  induction os generalizing bs acc with
  | nil => exact ⟨acc, by simp [assignBlocks], rfl, rfl⟩
  | cons o os ih =>
    cases bs with
    | nil => simp at hl
    | cons b bs =>
      obtain ⟨blocks, idx⟩ := acc
      simp only [List.mem_cons, forall_eq_or_imp] at h1 h2
      obtain ⟨acc', e1, e2, e3⟩ := ih bs (blocks.set o b, idx.set o k) (by simpa using hl)
        (by simpa using h1.2) (by simpa using h2.2)
      refine ⟨acc', ?_, by simpa using e2, by simpa using e3⟩
      simp [assignBlocks, goSet, h1.1, h2.1, bind, Except.bind, e1]

theorem encodeAll_ok (ms : List Mapping) (k : Nat) (acc : List Bytes × List Nat)
    (h : ∀ m ∈ ms, (∃ h bs, m.encoder.encode m.colls = .ok (.ok (h, bs)) ∧ bs.length = m.order.length) ∧
      (∀ o ∈ m.order, o < acc.1.length) ∧ ∀ o ∈ m.order, o < acc.2.length) :
    ∃ hs r, encodeAll ms k acc = .ok (.ok (hs, r)) ∧ r.1.length = acc.1.length ∧ r.2.length = acc.2.length := by
  induction ms generalizing k acc with
  | nil => exact ⟨[], acc, rfl, rfl, rfl⟩
  | cons m ms ih =>
    obtain ⟨⟨hd, bs, h1, h2⟩, h3, h4⟩ := h m (by simp)
    obtain ⟨acc1, a1, a2, a3⟩ := assignBlocks_ok k m.order bs acc h2 h3 h4
    obtain ⟨hs, r, r1, r2, r3⟩ := ih (k + 1) acc1 (fun m hm => by
      rw [a2, a3]; exact h m (by simp [hm]))
    exact ⟨hd :: hs, r, by simp [encodeAll, h1, a1, r1, bind, Except.bind], by omega, by omega⟩

/-! ## Acceptance -/

theorem checkForNil_good {rec : Rec} (hg : GoodRec rec) : checkForNil rec = none := by
  induction hg with
  | mk id name colls recs md bins refs hc hr hm hb href ih =>
    have h1 : ∀ {α : Type} (l : List α), (l.map some).any Option.isNone = false := by
      intro α l; induction l <;> simp_all
    simp only [checkForNil, h1, Bool.false_eq_true, if_false]
    clear hr
    induction recs with
    | nil => rfl
    | cons r rs ih2 =>
      simp only [checkForNilList, ih r (by simp)]
      exact ih2 (fun r hr => ih r (by simp [hr]))

theorem calcNumStreams_good {rec : Rec} (hg : GoodRec rec) : calcNumStreams rec = rec.flat.length := by
  induction hg with
  | mk id name colls recs md bins refs hc hr hm hb href ih =>
    rw [calcNumStreams, Rec.flat, flat_some, List.length_append, List.length_map]
    congr 1
    clear hr
    induction recs with
    | nil => rfl
    | cons r rs ih2 =>
      rw [calcNumStreamsList, Rec.flatList, List.length_append, ih r (by simp), ih2 (fun r hr => ih r (by simp [hr]))]

theorem evaluate_ok (encs : List Encoder) {rec : Rec} (hg : GoodRec rec) :
    (∀ c ∈ rec.flat, (chosen encs c).isSome) → ∀ offset,
      ∃ ms off', evaluateCollections encs rec offset = .ok (.ok (ms, off')) := by
  induction hg with
  | mk id name colls recs md bins refs hc hr hm hb href ih =>
    intro hall offset
    rw [Rec.flat, flat_some] at hall
    have hall1 : ∀ c ∈ colls, (chosen encs c).isSome := fun c hc => hall c (by simp [hc])
    have hall2 : ∀ c ∈ Rec.flatList recs, (chosen encs c).isSome := fun c hc => hall c (by simp [hc])
    have hlist : ∀ (rs : List Rec), (∀ r ∈ rs, (∀ c ∈ r.flat, (chosen encs c).isSome) → ∀ offset,
        ∃ ms off', evaluateCollections encs r offset = .ok (.ok (ms, off'))) →
        (∀ c ∈ Rec.flatList rs, (chosen encs c).isSome) → ∀ ms offset,
        ∃ ms' off', evaluateChildren encs rs ms offset = .ok (.ok (ms', off')) := by
      intro rs
      induction rs with
      | nil => intro _ _ ms offset; exact ⟨_, _, rfl⟩
      | cons r rs ih2 =>
        intro h1 h2 ms offset
        simp only [Rec.flatList, List.mem_append] at h2
        obtain ⟨ms1, off1, e1⟩ := h1 r (by simp) (fun c hc => h2 c (Or.inl hc)) offset
        obtain ⟨ms2, off2, e2⟩ := ih2 (fun r hr => h1 r (by simp [hr])) (fun c hc => h2 c (Or.inr hc))
          (ms1.foldl mergeMapping ms) off1
        exact ⟨ms2, off2, by simp [evaluateChildren, e1, e2, bind, Except.bind]⟩
    simp only [evaluateCollections, allSome_map]
    have hf := (own_flags encs offset colls).2 hall1
    rcases ho : ownMappings encs offset (colls.map fun c => (c, false)) with ⟨ms, flags⟩
    rw [ho] at hf
    simp only [hf, Bool.false_eq_true, if_false]
    exact hlist recs ih hall2 ms _

/-- Writing succeeds once the parts of the file are known. -/
theorem write_of_parts (F : Flate) (cfg : WriterCfg) (orders : List (List Bytes)) (rec : Rec) (out : Buf)
    (hnil : checkForNil rec = none) {ms : List Mapping} {off : Nat} {hs blocks : List Bytes} {idx : List Nat} {x : Nat}
    {ws : List Bytes} (h1 : evaluateCollections cfg.encoders rec 0 = .ok (.ok (ms, off)))
    (h2 : encodeAll ms 0 (List.replicate (calcNumStreams rec) [], List.replicate (calcNumStreams rec) 0) =
        .ok (.ok (hs, blocks, idx)))
    (h3 : (recurseWrite ⟨accumulateKeys orders, blocks, idx, cfg.tech⟩ rec 0).emit = .ok (.ok x, ws)) :
    ∃ n out', write F cfg orders rec out = .ok (n, none, out') := by
  have hbody : ∀ {ω : Type} [WC ω Buf] (w : ω) (total : Nat), TakesAll w →
      (∀ w' ws, Takes w ws w' → ((WC.close w').1 : Option Err) = none) →
      ∃ n out', writeBody cfg.tech orders rec ms total w = .ok (n, none, out') := by
    intro ω _ w total ht hclose
    obtain ⟨w1, hw1⟩ := ht (hs.map bytesArrayToBytes)
    obtain ⟨w3, hw3⟩ := ht (bodyWrites orders hs ws)
    have hsplit : ∀ (l l' : List Bytes) (s s1 s2 : ω), Takes s l s1 → Takes s (l ++ l') s2 → Takes s1 l' s2 := by
      intro l l' s s1 s2 h h'
      induction h with
      | nil s => exact h'
      | cons s b ws s' g1 g2 g3 ih =>
        cases h' with
        | cons _ _ _ _ k1 k2 k3 => exact ih k3
    have hw13 := hsplit _ _ _ _ _ hw1 hw3
    simp only [writeBody, writeHeaders_takes ms 0 _ total w w1 hs _ h2 hw1, bind, Except.bind]
    cases hw13 with
    | cons _ _ _ _ k1 k2 k3 =>
      rcases hwk : Snk.write (stringArrayToBytes (accumulateKeys orders)) w1 with ⟨n2, e2, w2⟩
      rw [hwk] at k1 k2 k3
      simp only at k1 k2 k3
      subst k1 k2
      simp only [EW.new, WProg.run_takes _ _ _ _ _ 0 h3 k3]
      have hcl := hclose w3 _ hw3
      rcases hc : (WC.close w3 : Option Err × Buf) with ⟨err, s⟩
      rw [hc] at hcl
      simp only at hcl
      subst hcl
      exact ⟨_, _, rfl⟩
  cases rec with
  | nil => simp [checkForNil] at hnil
  | mk id name colls recs md bins refs =>
    simp only [write, hnil, h1, bind, Except.bind]
    have hw2 : (Snk.write [2] out : Nat × Option Err × Buf) = (1, none, ⟨out.bytes ++ [2]⟩) := rfl
    simp only [hw2, writeEncoders_buf]
    split
    · have hw1 : ∀ s : Buf, (Snk.write [1] s : Nat × Option Err × Buf) = (1, none, ⟨s.bytes ++ [1]⟩) := fun _ => rfl
      simp only [hw1]
      refine hbody _ _ (TakesAll.fw F _ _) ?_
      intro w' ws ht
      have := Takes.det ht (Takes.fw F _ _ _)
      subst this
      simp only [WC.close, writeAll_buf]
    · have hw1 : ∀ s : Buf, (Snk.write [0] s : Nat × Option Err × Buf) = (1, none, ⟨s.bytes ++ [0]⟩) := fun _ => rfl
      simp only [hw1]
      refine hbody _ _ (TakesAll.ew (TakesAll.buf _) 0) ?_
      intro w' ws ht
      have := Takes.det ht ((Takes.buf _ _).ew 0)
      subst this
      simp only [WC.close]

/-! ## The encoders of the package -/

theorem write_ok (F : Flate) (cfg : WriterCfg) (orders : List (List Bytes)) (rec : Rec) (out : Buf) (hg : GoodRec rec)
    (hsd : SigDetermines cfg.encoders) (hall : ∀ c ∈ rec.flat, (chosen cfg.encoders c).isSome)
    (henc : Encodable cfg.encoders rec) : ∃ n out', write F cfg orders rec out = .ok (n, none, out') := by
  obtain ⟨ms, off, h1⟩ := evaluate_ok cfg.encoders hg hall 0
  obtain ⟨-, i1, i2, i3⟩ := evaluate_inv hsd rec 0 ms off h1
  have hnum := calcNumStreams_good hg
  have hpair : ∀ m ∈ ms, ∀ p ∈ m.pairs, p.1 ∈ rec.flat ∧ p.2 < rec.flat.length := by
    intro m hm p hp
    have : p ∈ ms.flatMap Mapping.pairs := List.mem_flatMap.2 ⟨m, hm, hp⟩
    rw [i3.mem_iff] at this
    obtain ⟨c, i⟩ := p
    have := List.mem_zipIdx this
    refine ⟨?_, by simpa using this.2.1⟩
    show c ∈ _
    rw [this.2.2]; exact List.getElem_mem _
  obtain ⟨hs, ⟨blocks, idx⟩, h2, h2a, h2b⟩ := encodeAll_ok ms 0
    (List.replicate (calcNumStreams rec) [], List.replicate (calcNumStreams rec) 0) (by
      intro m hm
      obtain ⟨l1, l2, l3⟩ := i2 m hm
      refine ⟨?_, ?_⟩
      · obtain ⟨hd, bs, e1, e2⟩ := henc m.encoder m.colls l2 (fun c hc => by
          refine ⟨?_, l3 c hc⟩
          obtain ⟨t, htt, rfl⟩ := List.getElem_of_mem hc
          exact (hpair m hm (m.colls[t], m.order[t]'(l1 ▸ htt)) (by
            rw [Mapping.pairs, List.mem_iff_getElem]; exact ⟨t, by simp [← l1, htt], by simp⟩)).1)
        exact ⟨hd, bs, e1, by omega⟩
      · have : ∀ o ∈ m.order, o < rec.flat.length := by
          intro o ho
          obtain ⟨t, htt, rfl⟩ := List.getElem_of_mem ho
          exact (hpair m hm (m.colls[t]'(l1 ▸ htt), m.order[t]) (by
            rw [Mapping.pairs, List.mem_iff_getElem]; exact ⟨t, by simp [l1, htt], by simp⟩)).2
        simp only [List.length_replicate, hnum]
        exact ⟨this, this⟩)
  simp only [List.length_replicate] at h2a h2b
  obtain ⟨d, ws, h3, -⟩ := tree_emits ⟨accumulateKeys orders, blocks, idx, cfg.tech⟩ rec hg 0
    (by simp only; omega) (by simp only; omega)
  exact write_of_parts F cfg orders rec out (checkForNil_good hg) h1 h2 h3

theorem mapGo_ok {α β : Type} {f : α → Go β} {as : List α} (h : ∀ a ∈ as, ∃ b, f a = .ok b) :
    ∃ bs, mapGo f as = .ok bs ∧ bs.length = as.length := by
  induction as with
  | nil => exact ⟨[], rfl, rfl⟩
  | cons a as ih =>
    obtain ⟨b, hb⟩ := h a (by simp)
    obtain ⟨bs, hbs, hl⟩ := ih (fun a ha => h a (by simp [ha]))
    exact ⟨b :: bs, by simp [mapGo, hb, hbs, bind, Except.bind], by simp [hl]⟩

theorem eventKeys_ok (keys : List Bytes) (kvs : Block) (h : ∀ kv ∈ kvs, RT kv.2) :
    ∃ r, eventKeys keys kvs = .ok r := by
  induction kvs generalizing keys with
  | nil => exact ⟨_, rfl⟩
  | cons kv kvs ih =>
    obtain ⟨c, d, hc, hd, -⟩ := (h kv (by simp)).bytes
    obtain ⟨r, hr⟩ := ih (dictAdd keys kv.1).1 (fun kv hkv => h kv (by simp [hkv]))
    exact ⟨_, by simp [eventKeys, hc, hd, hr, bind, Except.bind]; rfl⟩

theorem eventCaps_ok (names keys : List Bytes) (caps : List (F64 × Bytes × Block))
    (h : ∀ cap ∈ caps, GoodBlock cap.2.2) : ∃ r, eventCaps names keys caps = .ok r := by
  induction caps generalizing names keys with
  | nil => exact ⟨_, rfl⟩
  | cons cap caps ih =>
    obtain ⟨r, hr⟩ := eventKeys_ok keys cap.2.2 (fun kv hkv => constructible_RT ((h cap (by simp)).2 kv hkv))
    obtain ⟨r', hr'⟩ := ih (dictAdd names cap.2.1).1 r.1 (fun cap hcap => h cap (by simp [hcap]))
    exact ⟨_, by simp [eventCaps, hr, hr', bind, Except.bind]; rfl⟩

theorem builtin_encodes (b : Builtin) (cs : List Coll)
    (h : ∀ c ∈ cs, GoodColl c ∧ Native c ∧ b.encoder.accepts c = true) :
    ∃ hd bs, b.encoder.encode cs = .ok (.ok (hd, bs)) ∧ bs.length = cs.length := by
  cases b with
  | event =>
    have key : ∀ (cs : List Coll) (names keys : List Bytes),
        (∀ c ∈ cs, GoodColl c ∧ Native c ∧ Builtin.event.encoder.accepts c = true) →
        ∃ n k bs, eventStreams names keys cs = .ok (.ok (n, k, bs)) ∧ bs.length = cs.length := by
      intro cs
      induction cs with
      | nil => intro names keys _; exact ⟨_, _, _, rfl, rfl⟩
      | cons c cs ih =>
        intro names keys h
        obtain ⟨hg, hn, ha⟩ := h c (by simp)
        cases c with
        | event n caps =>
          obtain ⟨⟨n1, k1, b⟩, hr⟩ := eventCaps_ok names keys caps hg
          obtain ⟨n2, k2, bs, e1, e2⟩ := ih n1 k1 (fun c hc => h c (by simp [hc]))
          exact ⟨n2, k2, b :: bs, by simp [eventStreams, hr, e1, bind, Except.bind], by simp [e2]⟩
        | other => exact hn.elim
        | _ => exact absurd ha (by simp only [Builtin.encoder, eventEncoder, Coll.sig]; decide)
    obtain ⟨n, k, bs, e1, e2⟩ := key cs [] [] h
    exact ⟨_, bs, by simp [Builtin.encoder, eventEncoder, eventEncode, e1, bind, Except.bind]; rfl, e2⟩
  | enum =>
    have key : ∀ (cs : List Coll) (d : List Bytes),
        (∀ c ∈ cs, GoodColl c ∧ Native c ∧ Builtin.enum.encoder.accepts c = true) →
        ∃ d' bs, enumStreams d cs = .ok (d', bs) ∧ bs.length = cs.length := by
      intro cs
      induction cs with
      | nil => intro d _; exact ⟨_, _, rfl, rfl⟩
      | cons c cs ih =>
        intro d h
        obtain ⟨hg, hn, ha⟩ := h c (by simp)
        cases c with
        | enum n ms caps =>
          obtain ⟨d2, bs, e1, e2⟩ := ih (dictAddAll d ms).1 (fun c hc => h c (by simp [hc]))
          exact ⟨d2, _, by simp [enumStreams, e1, bind, Except.bind]; rfl, by simp [e2]⟩
        | other => exact hn.elim
        | _ => exact absurd ha (by simp only [Builtin.encoder, enumEncoder, Coll.sig]; decide)
    obtain ⟨d, bs, e1, e2⟩ := key cs [] h
    exact ⟨_, bs, by simp [Builtin.encoder, enumEncoder, enumEncode, e1, bind, Except.bind]; rfl, e2⟩
  | position t =>
    obtain ⟨bs, e1, e2⟩ := mapGo_ok (f := positionEncode1 t.val) (as := cs) (fun c hc => by
      obtain ⟨hg, hn, ha⟩ := h c hc
      cases c with
      | position n caps => exact ⟨_, rfl⟩
      | other => exact hn.elim
      | _ => exact absurd ha (by simp only [Builtin.encoder, positionEncoder, Coll.sig]; decide))
    exact ⟨[], bs, by simp [Builtin.encoder, positionEncoder, positionEncode, e1, bind, Except.bind], e2⟩
  | euler t =>
    obtain ⟨bs, e1, e2⟩ := mapGo_ok (f := eulerEncode1 t.val) (as := cs) (fun c hc => by
      obtain ⟨hg, hn, ha⟩ := h c hc
      cases c with
      | euler n caps => exact ⟨_, rfl⟩
      | other => exact hn.elim
      | _ => exact absurd ha (by simp only [Builtin.encoder, eulerEncoder, Coll.sig]; decide))
    exact ⟨[], bs, by simp [Builtin.encoder, eulerEncoder, eulerEncode, e1, bind, Except.bind], e2⟩
  | float t =>
    have key : ∀ (cs : List Coll),
        (∀ c ∈ cs, GoodColl c ∧ Native c ∧ (Builtin.float t).encoder.accepts c = true) →
        ∃ bs, floatStreams t.val cs = .ok bs ∧ bs.length = cs.length := by
      intro cs
      induction cs with
      | nil => intro _; exact ⟨_, rfl, rfl⟩
      | cons c cs ih =>
        intro h
        obtain ⟨hg, hn, ha⟩ := h c (by simp)
        cases c with
        | float n caps =>
          obtain ⟨bs, e1, e2⟩ := ih (fun c hc => h c (by simp [hc]))
          have h1 : ∃ b, floatEncode1 t.val (.float n caps) = .ok b := by
            simp only [floatEncode1, castFloat, if_pos (show t.val ≤ 2 by omega)]
            exact ⟨_, rfl⟩
          obtain ⟨b, hb⟩ := h1
          exact ⟨b :: bs, by simp only [floatStreams, hb, e1], by simp [e2]⟩
        | other => exact hn.elim
        | _ => exact absurd ha (by simp only [Builtin.encoder, floatEncoder, Coll.sig]; decide)
    obtain ⟨bs, e1, e2⟩ := key cs h
    exact ⟨[], bs, by simp [Builtin.encoder, floatEncoder, floatEncode, e1], e2⟩

theorem accepts_iff (b : Builtin) (c : Coll) : b.encoder.accepts c = true ↔ c.sig = b.encoder.sig := by
  cases b <;> simp [Builtin.encoder, eventEncoder, enumEncoder, positionEncoder, eulerEncoder, floatEncoder]

theorem chosen_map (bs : List Builtin) (c : Coll) :
    Rap.chosen (bs.map Builtin.encoder) c = (Builtin.chosen bs c).map Builtin.encoder := by
  unfold Rap.chosen Builtin.chosen
  rw [List.find?_map]; rfl

theorem chosen_sig (bs : List Builtin) (c c' : Coll) (h : c.sig = c'.sig) :
    Builtin.chosen bs c = Builtin.chosen bs c' := by
  unfold Builtin.chosen
  congr 1
  funext b
  rw [Bool.eq_iff_iff, accepts_iff, accepts_iff, h]

theorem sig_of_chosen {bs : List Builtin} {c : Coll} {b : Builtin} (h : Builtin.chosen bs c = some b) :
    c.sig = b.encoder.sig := by
  have := List.find?_some h
  exact (accepts_iff b c).1 this

theorem builtin_sigDetermines (bs : List Builtin) : SigDetermines (bs.map Builtin.encoder) := by
  intro c c' e e' h h' hs
  rw [chosen_map] at h h'
  cases hb : Builtin.chosen bs c with
  | none => simp [hb] at h
  | some b =>
    cases hb' : Builtin.chosen bs c' with
    | none => simp [hb'] at h'
    | some b' =>
      simp only [hb, hb', Option.map_some, Option.some.injEq] at h h'
      subst h h'
      have : c.sig = c'.sig := by rw [sig_of_chosen hb, sig_of_chosen hb', hs]
      rw [chosen_sig bs c c' this, hb'] at hb
      simp only [Option.some.injEq] at hb
      rw [hb]

theorem builtin_encodable (bs : List Builtin) (rec : Rec) (hg : GoodRec rec) (hn : ∀ c ∈ rec.flat, Native c) :
    Encodable (bs.map Builtin.encoder) rec := by
  intro e cs hne h
  obtain ⟨c0, hc0⟩ := List.exists_mem_of_ne_nil _ hne
  have h0 := (h c0 hc0).2
  rw [chosen_map] at h0
  cases hb : Builtin.chosen bs c0 with
  | none => simp [hb] at h0
  | some b =>
    simp only [hb, Option.map_some, Option.some.injEq] at h0
    subst h0
    refine builtin_encodes b cs (fun c hc => ⟨flat_good hg c (h c hc).1, hn c (h c hc).1, ?_⟩)
    exact List.find?_some (p := fun e : Encoder => e.accepts c) (h c hc).2

theorem builtin_version (b : Builtin) : b.encoder.version = 0 := by cases b <;> rfl

theorem builtin_understands (ws rs : List Builtin) (rec : Rec)
    (h : ∀ c ∈ rec.flat, ∀ b, Builtin.chosen ws c = some b → ∃ b' ∈ rs, b'.encoder.sig = b.encoder.sig) :
    Understands (ws.map Builtin.encoder) (rs.map Builtin.encoder) (storedColl ws) rec := by
  rintro e ⟨c, hc, hch⟩
  rw [chosen_map] at hch
  cases hb : Builtin.chosen ws c with
  | none => simp [hb] at hch
  | some b =>
    simp only [hb, Option.map_some, Option.some.injEq] at hch
    subst hch
    refine ⟨b.stored, ⟨by rw [builtin_version]; decide, ?_, ?_⟩, ?_⟩
    · obtain ⟨b', hb', hs⟩ := h c hc b hb
      exact ⟨b'.encoder, List.mem_map.2 ⟨b', hb', rfl⟩, hs⟩
    · intro e' he' hs
      obtain ⟨b', hb', rfl⟩ := List.mem_map.1 he'
      exact ⟨by rw [builtin_version, builtin_version]; exact Nat.le_refl 0, builtin_decodes b b' hs.symm⟩
    · intro c' ts hc'
      have hs : c'.sig = c.sig := by
        have := List.find?_some (p := fun e : Encoder => e.accepts c') hc'
        rw [accepts_iff] at this
        rw [this, sig_of_chosen hb]
      unfold storedColl
      rw [chosen_sig ws c' c hs, hb]

end Rap
