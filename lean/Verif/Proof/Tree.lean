import Verif.Proof.Time
import Verif.Proof.Sink

/-! # The recording tree: what the writer emits, the reader builds -/

namespace Rap

open WProg (Emits)

/-! ## Metadata of recordings -/

theorem RT.bytes {p : Property} (h : RT p) : ∃ c d, p.code = .ok c ∧ p.data = .ok d ∧ p.bytes = .ok (c :: d) := by
  obtain ⟨c, d, hc, hd, -⟩ := h
  exact ⟨c, d, hc, hd, by simp [Property.bytes, hc, hd, bind, Except.bind]⟩

theorem metadataValues_spec (keys : List Bytes) (kvs : Block) (h : ∀ kv ∈ kvs, RT kv.2) (hn : (kvs.map (·.1)).Nodup)
    (hk : ∀ kv ∈ kvs, kv.1 ∈ keys) :
    ∃ D, metadataValues kvs = .ok D ∧
      ∀ fuel, D.length ≤ fuel → D.length ≤ sizeLimit → ∀ rest acc, (∀ k ∈ kvs.map (·.1), k ∉ acc.map (·.1)) →
        (readMdLoop fuel keys (kvs.map fun kv => keyIndex keys kv.1) acc).clean (D ++ rest) =
          some (.ok (acc ++ kvs), rest) := by
  induction kvs with
  | nil => exact ⟨[], rfl, fun fuel _ _ rest acc _ => by simp [readMdLoop]⟩
  | cons kv kvs ih =>
    obtain ⟨k, p⟩ := kv
    obtain ⟨c, d, hc, hd, hr⟩ := h (k, p) (by simp)
    have hc' : p.code = .ok c := hc
    have hd' : p.data = .ok d := hd
    simp only [List.map_cons, List.nodup_cons] at hn
    obtain ⟨D, hD, hloop⟩ := ih (fun kv hkv => h kv (by simp [hkv])) hn.2 (fun kv hkv => hk kv (by simp [hkv]))
    refine ⟨c :: d ++ D, ?_, ?_⟩
    · simp only [metadataValues, Property.bytes, hc', hd', hD, bind, Except.bind]
    · intro fuel hf hl rest acc hacc
      simp only [List.cons_append, List.length_cons, List.length_append] at hf hl
      have hmem : k ∈ keys := hk (k, p) (by simp)
      have hidx : keys[keyIndex keys k]? = some k := by
        rw [keyIndex, if_pos hmem, List.getElem?_eq_some_iff]
        exact ⟨List.idxOf_lt_length_of_mem hmem, List.getElem_idxOf _⟩
      simp only [List.map_cons, readMdLoop, hidx, Prog.bind_eq, List.cons_append, List.append_assoc]
      have h1 : (readProperty fuel).clean (c :: (d ++ (D ++ rest))) = some (.ok p, D ++ rest) := by
        rw [readProperty, clean_readPropertyWith]
        exact hr fuel (by omega) (by omega) _
      rw [Prog.clean_bind_of h1]
      simp only
      rw [mapSet_append _ _ _ (hacc k (by simp)), hloop fuel (by omega) (by omega)]
      · simp
      · intro k' hk'
        simp only [List.map_append, List.map_cons, List.map_nil, List.mem_append, List.mem_singleton, not_or]
        exact ⟨hacc k' (by simp [hk']), fun he => hn.1 (he ▸ hk')⟩

theorem keyIndex_lt (keys : List Bytes) (k : Bytes) (h : keys.length ≤ sizeLimit) : keyIndex keys k < 2 ^ 64 := by
  unfold keyIndex
  split
  · rename_i hk
    have := List.idxOf_lt_length_of_mem hk
    simp only [sizeLimit] at h; omega
  · decide

theorem md_spec (keys : List Bytes) (hkeys : keys.length ≤ sizeLimit) (block : Block) (hg : GoodBlock block)
    (hk : ∀ kv ∈ block, kv.1 ∈ keys) :
    ∃ d, Emits (writeMetadata keys block) () d ∧ ∀ fuel, d.length ≤ fuel → d.length ≤ sizeLimit → ∀ rest,
      (readMetadata fuel keys).clean (d ++ rest) = some (.ok block, rest) := by
  obtain ⟨D, hD, hloop⟩ := metadataValues_spec keys block (fun kv hkv => constructible_RT (hg.2 kv hkv)) hg.1 hk
  refine ⟨uvarintArrayToBytes (block.map fun kv => keyIndex keys kv.1) ++ D, ?_, ?_⟩
  · have h1 : Emits (WProg.put D |>.bind fun _ => (WProg.pure () : WProg Unit)) () D := by
      have := Emits.bind (Emits.put D) (f := fun _ => (WProg.pure () : WProg Unit)) (Emits.pure ())
      simpa using this
    exact Emits.ofGo_bind hD (Emits.bind (Emits.put _) h1)
  · intro fuel hf hl rest
    simp only [List.length_append] at hf hl
    simp only [readMetadata, Prog.bind_eq, List.append_assoc]
    rw [Prog.clean_bind_of (clean_uvarintArray_limit _ _ (by omega) ?_)]
    · simp only
      rw [hloop fuel (by omega) (by omega) rest [] (by simp)]
      simp
    · intro i hi
      obtain ⟨kv, _, rfl⟩ := List.mem_map.1 hi
      exact keyIndex_lt keys _ hkeys

/-! ## Streams -/

/-- The tables of writer and reader agree about stream `i` holding collection `c`. -/
def StreamOK (T : Tables) (R : RTables) (view : Coll → Coll) (i : Nat) (c : Coll) : Prop :=
  ∃ k b e' h, T.encIdx[i]? = some k ∧ k < 2 ^ 64 ∧ T.blocks[i]? = some b ∧ R.encs[k]? = some (e', h) ∧
    (b.length ≤ sizeLimit → e'.decode c.name h b (storedTimes T.tech c.times) = .ok (some (view c), none))

theorem alloc_of_limit {n : Nat} (h : n ≤ sizeLimit) : n ≤ maxAlloc := by
  simp only [sizeLimit, maxAlloc] at *; omega

theorem clean_string_limit (s rest : Bytes) (h : (stringToBytes s).length ≤ sizeLimit) :
    readString.clean (stringToBytes s ++ rest) = some ((s, (stringToBytes s).length, none), rest) :=
  clean_readString s rest (alloc_of_limit (by have := length_le_stringToBytes s; omega))

theorem clean_bytes_limit (s rest : Bytes) (h : (bytesArrayToBytes s).length ≤ sizeLimit) :
    readBytesArray.clean (bytesArrayToBytes s ++ rest) = some ((s, (bytesArrayToBytes s).length, none), rest) :=
  clean_readBytesArray s rest (alloc_of_limit (by simp only [bytesArrayToBytes, List.length_append] at h; omega))

theorem streams_spec (T : Tables) (R : RTables) (view : Coll → Coll) (ht : T.tech ≤ 2) (cs : List Coll) (off : Nat)
    (h : ∀ i c, cs[i]? = some c → StreamOK T R view (off + i) c) :
    ∃ d, Emits (writeStreams T off (cs.map some)) () d ∧ cs.length ≤ d.length ∧ (d.length ≤ sizeLimit → ∀ rest,
      (readStreams R cs.length).clean (d ++ rest) = some (cs.map fun c => some (view c), rest)) := by
  induction cs generalizing off with
  | nil => exact ⟨[], Emits.pure (), by simp, fun _ rest => rfl⟩
  | cons c cs ih =>
    obtain ⟨k, b, e', hd, h1, h2, h3, h4, h5⟩ := h 0 c rfl
    rw [Nat.add_zero] at h1 h3
    obtain ⟨d, hd1, hd2, hd3⟩ := ih (off + 1) (fun i c' hc' => by
      have := h (i + 1) c' (by simpa using hc')
      rwa [show off + 1 + i = off + (i + 1) by omega])
    refine ⟨putUvarint (u64 k) ++ (stringToBytes c.name ++ (encTime T.tech c.times ++ (bytesArrayToBytes b ++ d))),
      ?_, ?_, ?_⟩
    · have hg1 : goGet T.encIdx off = .ok k := by rw [goGet, h1]
      have hg2 : goGet T.blocks off = .ok b := by rw [goGet, h3]
      have e1 : Emits (do let _ ← WProg.put (bytesArrayToBytes b); writeStreams T (off + 1) (cs.map some)) ()
          (bytesArrayToBytes b ++ d) := Emits.bind (Emits.put _) hd1
      exact Emits.ofGo_bind hg1 (Emits.bind (Emits.put _) (Emits.bind (Emits.put _)
        (Emits.bind (Emits.put _) (Emits.ofGo_bind hg2 e1))))
    · have := putUvarint_length_pos (u64 k)
      simp only [List.length_append, List.length_cons]; omega
    · intro hl rest
      simp only [List.length_append] at hl
      simp only [List.length_cons, readStreams, Prog.bind_eq, List.append_assoc, List.map_cons, u64_of_lt h2]
      rw [Prog.clean_bind_of (clean_readUvarint _ _ h2)]
      try simp only [Prog.bind_eq]
      rw [Prog.clean_bind_of (clean_string_limit _ _ (by omega))]
      try simp only [Prog.bind_eq]
      rw [Prog.clean_bind_of (clean_decTime _ ht _ _ (by omega))]
      try simp only [Prog.bind_eq]
      rw [Prog.clean_bind_of (clean_bytes_limit _ _ (by omega))]
      have hb : b.length ≤ sizeLimit := by
        simp only [bytesArrayToBytes, List.length_append] at hl; omega
      simp only [h4, h5 hb, Prog.bind_eq, Prog.ofGo, Prog.pure_bind']
      rw [Prog.clean_bind_of (hd3 (by omega) rest)]
      rfl

/-! ## References and binaries -/

theorem refs_spec (T : Tables) (R : RTables) (hkeys : R.keys = T.keys) (hkl : T.keys.length ≤ sizeLimit)
    (refs : List BinRef) (hg : ∀ r ∈ refs, GoodRef r) (hk : ∀ r ∈ refs, ∀ kv ∈ r.md, kv.1 ∈ T.keys) :
    ∃ d, Emits (writeRefs T (refs.map some)) () d ∧ refs.length ≤ d.length ∧
      (d.length ≤ sizeLimit → d.length ≤ R.fuel → ∀ rest,
        (readRefs R refs.length).clean (d ++ rest) = some (refs.map some, rest)) := by
  induction refs with
  | nil => exact ⟨[], Emits.pure (), by simp, fun _ _ rest => rfl⟩
  | cons r refs ih =>
    obtain ⟨d, hd1, hd2, hd3⟩ := ih (fun r hr => hg r (by simp [hr])) (fun r hr => hk r (by simp [hr]))
    obtain ⟨m, hm1, hm2⟩ := md_spec T.keys hkl r.md (hg r (by simp)).1 (hk r (by simp))
    have h2 := (hg r (by simp)).2
    refine ⟨stringToBytes r.name ++ (stringToBytes r.uri ++ (putUvarint (u64 r.size) ++ (m ++ d))), ?_, ?_, ?_⟩
    · exact Emits.bind (Emits.put _) (Emits.bind (Emits.put _) (Emits.bind (Emits.put _) (Emits.bind hm1 hd1)))
    · have := putUvarint_length_pos (u64 r.size)
      simp only [List.length_append, List.length_cons]; omega
    · intro hl hf rest
      simp only [List.length_append] at hl hf
      simp only [List.length_cons, readRefs, Prog.bind_eq, List.append_assoc, List.map_cons, u64_of_lt h2]
      rw [Prog.clean_bind_of (clean_string_limit _ _ (by omega))]
      try simp only [Prog.bind_eq]
      rw [Prog.clean_bind_of (clean_string_limit _ _ (by omega))]
      try simp only [Prog.bind_eq]
      rw [Prog.clean_bind_of (clean_readUvarint _ _ h2)]
      simp only [Prog.bind_eq, hkeys]
      rw [Prog.clean_bind_of (hm2 R.fuel (by omega) (by omega) _)]
      try simp only [Prog.bind_eq]
      rw [Prog.clean_bind_of (hd3 (by omega) (by omega) rest)]
      rfl

theorem bins_spec (T : Tables) (R : RTables) (hkeys : R.keys = T.keys) (hkl : T.keys.length ≤ sizeLimit)
    (bins : List Bin) (hg : ∀ b ∈ bins, GoodBin b) (hk : ∀ b ∈ bins, ∀ kv ∈ b.md, kv.1 ∈ T.keys) :
    ∃ d, Emits (writeBins T (bins.map some)) () d ∧ bins.length ≤ d.length ∧
      (d.length ≤ sizeLimit → d.length ≤ R.fuel → ∀ rest,
        (readBins R bins.length).clean (d ++ rest) = some (bins.map some, rest)) := by
  induction bins with
  | nil => exact ⟨[], Emits.pure (), by simp, fun _ _ rest => rfl⟩
  | cons r bins ih =>
    obtain ⟨d, hd1, hd2, hd3⟩ := ih (fun r hr => hg r (by simp [hr])) (fun r hr => hk r (by simp [hr]))
    obtain ⟨m, hm1, hm2⟩ := md_spec T.keys hkl r.md (hg r (by simp)).1 (hk r (by simp))
    have h2 : r.size = r.data.length := (hg r (by simp)).2
    refine ⟨stringToBytes r.name ++ (putUvarint (u64 r.size) ++ (m ++ (r.data ++ d))), ?_, ?_, ?_⟩
    · have hc : Emits (ioCopy r.data) r.size r.data := by
        unfold ioCopy
        split
        · rename_i he
          rw [List.isEmpty_iff] at he
          rw [h2, he]; exact Emits.pure 0
        · have := Emits.bind (Emits.put r.data) (f := fun x => (WProg.pure x.1 : WProg Nat)) (Emits.pure _)
          rw [List.append_nil] at this
          rw [h2]; exact this
      have hrest : Emits (if r.size ≠ r.size then WProg.panic .message else writeBins T (bins.map some)) () d := by
        rw [if_neg (by simp)]; exact hd1
      exact Emits.bind (Emits.put _) (Emits.bind (Emits.put _) (Emits.bind hm1 (Emits.bind hc hrest)))
    · have := putUvarint_length_pos (u64 r.size)
      simp only [List.length_append, List.length_cons]; omega
    · intro hl hf rest
      simp only [List.length_append] at hl hf
      have h64 : r.size < 2 ^ 64 := by simp only [sizeLimit] at hl; omega
      have h64' : r.data.length < 2 ^ 64 := by simp only [sizeLimit] at hl; omega
      simp only [List.length_cons, readBins, Prog.bind_eq, List.append_assoc, List.map_cons, u64_of_lt h64]
      rw [Prog.clean_bind_of (clean_string_limit _ _ (by omega))]
      try simp only [Prog.bind_eq]
      rw [Prog.clean_bind_of (clean_readUvarint _ _ h64)]
      simp only [Prog.bind_eq, hkeys]
      rw [Prog.clean_bind_of (hm2 R.fuel (by omega) (by omega) _)]
      try simp only [Prog.bind_eq]
      rw [Prog.clean_make _ _ _ _ (by rw [Nat.mul_one]; exact alloc_of_limit (by omega)),
        Prog.clean_readFull _ _ _ _ h2.symm]
      rw [Prog.clean_bind_of (hd3 (by omega) (by omega) rest)]
      simp only [h2, Nat.sub_self, List.replicate_zero, List.append_nil, blockOrEmpty, newBinary, u64_of_lt h64',
        Prog.pure_eq, Prog.clean_pure]
      rw [← h2]

/-! ## Recordings -/

theorem optBlocks_some {α : Type} (f : α → Block) (l : List α) : optBlocks f (l.map some) = l.map f := by
  induction l with
  | nil => rfl
  | cons a l ih => simp [optBlocks, ih]

theorem flat_some (l : List Coll) : (l.map some).filterMap id = l := by
  induction l with
  | nil => rfl
  | cons a l ih => simp [ih]

/-- What is to be shown of one recording. -/
def RecOK (T : Tables) (R : RTables) (view : Coll → Coll) (rec : Rec) : Prop :=
  ∀ off, (∀ b ∈ visitedBlocks rec, ∀ kv ∈ b, kv.1 ∈ T.keys) →
    (∀ i c, rec.flat[i]? = some c → StreamOK T R view (off + i) c) →
    ∃ d, Emits (recurseWrite T rec off) (.ok (off + rec.flat.length)) d ∧ 1 ≤ d.length ∧
      (d.length ≤ sizeLimit → d.length ≤ R.fuel → ∀ fuel, d.length ≤ fuel → ∀ rest,
        (buildRec R fuel).clean (d ++ rest) = some (.ok (rec.mapColls view), rest))

theorem children_spec (T : Tables) (R : RTables) (view : Coll → Coll) (recs : List Rec)
    (ih : ∀ r ∈ recs, RecOK T R view r) (off : Nat)
    (hk : ∀ b ∈ visitedBlocksList recs, ∀ kv ∈ b, kv.1 ∈ T.keys)
    (hs : ∀ i c, (Rec.flatList recs)[i]? = some c → StreamOK T R view (off + i) c) :
    ∃ d, Emits (recurseWriteList T recs off) (.ok (off + (Rec.flatList recs).length)) d ∧ recs.length ≤ d.length ∧
      (d.length ≤ sizeLimit → d.length ≤ R.fuel → ∀ fuel, d.length ≤ fuel → ∀ rest,
        (readChildren (buildRec R fuel) recs.length).clean (d ++ rest) =
          some (.ok (Rec.mapCollsList view recs), rest)) := by
  induction recs generalizing off with
  | nil => exact ⟨[], Emits.pure _, by simp, fun _ _ fuel _ rest => rfl⟩
  | cons r rs ihl =>
    obtain ⟨d1, h1, h2, h3⟩ := ih r (by simp) off (fun b hb => hk b (by simp [visitedBlocksList, hb])) (fun i c hc => by
      refine hs i c ?_
      have := lt_of_get hc
      rw [Rec.flatList, List.getElem?_append_left this, hc])
    obtain ⟨d2, g1, g2, g3⟩ := ihl (fun r hr => ih r (by simp [hr])) (off + r.flat.length)
      (fun b hb => hk b (by simp [visitedBlocksList, hb])) (fun i c hc => by
      have := hs (r.flat.length + i) c (by
        rw [Rec.flatList, List.getElem?_append_right (by omega)]; simpa using hc)
      rwa [← Nat.add_assoc] at this)
    refine ⟨d1 ++ d2, ?_, ?_, ?_⟩
    · have : off + (Rec.flatList (r :: rs)).length = off + r.flat.length + (Rec.flatList rs).length := by
        rw [Rec.flatList, List.length_append]; omega
      rw [this, recurseWriteList]
      exact Emits.bind h1 g1
    · simp only [List.length_append, List.length_cons]; omega
    · intro hl hf fuel hfu rest
      simp only [List.length_append] at hl hf hfu
      simp only [List.length_cons, readChildren, Prog.bind_eq, List.append_assoc, Rec.mapCollsList]
      rw [Prog.clean_bind_of (h3 (by omega) (by omega) fuel (by omega) _)]
      try simp only [Prog.bind_eq]
      rw [Prog.clean_bind_of (g3 (by omega) (by omega) fuel (by omega) rest)]
      rfl

theorem tree_spec (T : Tables) (R : RTables) (view : Coll → Coll) (ht : T.tech ≤ 2) (hkeys : R.keys = T.keys)
    (hkl : T.keys.length ≤ sizeLimit) (rec : Rec) (hg : GoodRec rec) : RecOK T R view rec := by
  induction hg with
  | mk id name colls recs md bins refs hc hr hm hb href ih =>
    intro off hk hs
    obtain ⟨dm, m1, m2⟩ := md_spec T.keys hkl md hm (hk md (by simp [visitedBlocks]))
    obtain ⟨dc, c1, c2, c3⟩ := streams_spec T R view ht colls off (fun i c hic => hs i c (by
      have := lt_of_get hic
      rw [Rec.flat, flat_some, List.getElem?_append_left this, hic]))
    obtain ⟨dr, r1, r2, r3⟩ := refs_spec T R hkeys hkl refs href (fun r hr => hk r.md (by
      simp only [visitedBlocks, optBlocks_some, List.mem_cons, List.mem_append, List.mem_map]
      exact Or.inr (Or.inl (Or.inl ⟨r, hr, rfl⟩))))
    obtain ⟨db, b1, b2, b3⟩ := bins_spec T R hkeys hkl bins hb (fun b hb => hk b.md (by
      simp only [visitedBlocks, optBlocks_some, List.mem_cons, List.mem_append, List.mem_map]
      exact Or.inr (Or.inl (Or.inr ⟨b, hb, rfl⟩))))
    obtain ⟨dk, k1, k2, k3⟩ := children_spec T R view recs ih (off + colls.length)
      (fun b hb => hk b (by simp [visitedBlocks, hb])) (fun i c hic => by
      have := hs (colls.length + i) c (by
        rw [Rec.flat, flat_some, List.getElem?_append_right (by omega)]; simpa using hic)
      rwa [← Nat.add_assoc] at this)
    have hfl : off + (Rec.flat (.mk id name (colls.map some) recs md (bins.map some) (refs.map some))).length =
        off + colls.length + (Rec.flatList recs).length := by
      rw [Rec.flat, flat_some, List.length_append]; omega
    rw [hfl]
    refine ⟨stringToBytes id ++ (stringToBytes name ++ (dm ++ (putUvarint (u64 colls.length) ++ (dc ++
      (putUvarint (u64 refs.length) ++ (dr ++ (putUvarint (u64 bins.length) ++ (db ++
      (putUvarint (u64 recs.length) ++ dk))))))))), ?_, ?_, ?_⟩
    · have hlast : Emits ((recurseWriteList T recs (off + colls.length)).bind fun x => match x with
          | .error e => (WProg.pure (.error e) : WProg (Except Err Nat))
          | .ok newOffset => .err fun e => match e with
            | some e => .pure (.error e)
            | none => .pure (.ok newOffset)) (.ok (off + colls.length + (Rec.flatList recs).length)) dk := by
        exact Emits.bind_silent k1 (Emits.err (Emits.pure _))
      simp only [recurseWrite, List.length_map]
      exact Emits.bind (Emits.put _) (Emits.bind (Emits.put _) (Emits.bind m1 (Emits.bind (Emits.put _)
        (Emits.bind c1 (Emits.bind (Emits.put _) (Emits.bind r1 (Emits.bind (Emits.put _) (Emits.bind b1
        (Emits.bind (Emits.put _) hlast)))))))))
    · have := stringToBytes_pos id
      simp only [List.length_append]; omega
    · intro hl hf fuel hfu rest
      have hpos := stringToBytes_pos id
      simp only [List.length_append] at hl hf hfu
      cases fuel with
      | zero => omega
      | succ fuel =>
        have hsl := hl
        simp only [sizeLimit] at hsl
        have n1 : colls.length < 2 ^ 64 := by omega
        have n2 : refs.length < 2 ^ 64 := by omega
        have n3 : bins.length < 2 ^ 64 := by omega
        have n4 : recs.length < 2 ^ 64 := by omega
        simp only [buildRec, Prog.bind_eq, List.append_assoc, u64_of_lt n1, u64_of_lt n2, u64_of_lt n3, u64_of_lt n4]
        rw [Prog.clean_bind_of (clean_string_limit _ _ (by omega))]
        try simp only [Prog.bind_eq]
        rw [Prog.clean_bind_of (clean_string_limit _ _ (by omega))]
        simp only [Prog.bind_eq, hkeys]
        rw [Prog.clean_bind_of (m2 R.fuel (by omega) (by omega) _)]
        try simp only [Prog.bind_eq]
        rw [Prog.clean_bind_of (clean_readUvarint _ _ n1)]
        try simp only [Prog.bind_eq]
        rw [Prog.clean_make _ _ _ _ (limit_alloc (by omega)), Prog.clean_bind_of (c3 (by omega) _)]
        try simp only [Prog.bind_eq]
        rw [Prog.clean_bind_of (clean_readUvarint _ _ n2)]
        try simp only [Prog.bind_eq]
        rw [Prog.clean_make _ _ _ _ (limit_alloc (by omega)), Prog.clean_bind_of (r3 (by omega) (by omega) _)]
        try simp only [Prog.bind_eq]
        rw [Prog.clean_bind_of (clean_readUvarint _ _ n3)]
        try simp only [Prog.bind_eq]
        rw [Prog.clean_make _ _ _ _ (limit_alloc (by omega)), Prog.clean_bind_of (b3 (by omega) (by omega) _)]
        try simp only [Prog.bind_eq]
        rw [Prog.clean_bind_of (clean_readUvarint _ _ n4)]
        try simp only [Prog.bind_eq]
        rw [Prog.clean_make _ _ _ _ (limit_alloc (by omega)),
          Prog.clean_bind_of (k3 (by omega) (by omega) fuel (by omega) rest)]
        simp [Rec.mapColls, Function.comp_def]

end Rap
