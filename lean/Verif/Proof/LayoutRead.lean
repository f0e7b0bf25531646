import Verif.Proof.LayoutWrite

/-! # Files that follow the grammar are read as what they stand for -/

namespace Rap
namespace Layout

/-! ## Metadata -/

/-- What is shown of a value. -/
def Gets (p : Property) (d : Bytes) : Prop := d.length ≤ sizeLimit → p.data = .ok d ∧ RT p

theorem value_get {p : Property} {d : Bytes} (h : Value p d) : Gets p d := by
  refine Value.rec (motive_1 := fun p d _ => Gets p d)
    (motive_2 := fun kvs b _ => b.length ≤ sizeLimit → Property.dataBlock kvs = .ok b ∧ ∀ kv ∈ kvs, RT kv.2)
    (motive_3 := fun ps b _ => b.length ≤ sizeLimit → Property.dataList ps = .ok b ∧
      ∀ p ∈ ps, RT p ∧ ∃ d, p.data = .ok d ∧ Value p d)
    ?_ ?_ ?_ ?_ ?_ ?_ ?_ ?_ ?_ ?_ ?_ ?_ ?_ ?_ ?_ h
  · intro s b h hl
    exact ⟨by rw [text_eq h hl]; simp only [Property.data], RT_str s⟩
  · intro i b h hl
    refine ⟨by rw [(fixed_eq h).1]; simp only [Property.data], ?_⟩
    have := RT_int i.toInt
    rwa [Property.newInt, BitVec.ofInt_toInt] at this
  · intro f b h hl
    exact ⟨by rw [single_eq h]; simp only [Property.data], RT_f32 f⟩
  · intro x hl
    exact ⟨by simp only [Property.data], RT_bool x⟩
  · intro c hl
    exact ⟨by simp only [Property.data], RT_byte c⟩
  · intro x y a b h1 h2 hl
    exact ⟨by rw [double_eq h1, double_eq h2]; simp only [Property.data], RT_vec2 x y⟩
  · intro x y z a b c h1 h2 h3 hl
    exact ⟨by rw [double_eq h1, double_eq h2, double_eq h3]; simp only [Property.data, List.append_assoc], RT_vec3 x y z⟩
  · intro t b h hl
    exact ⟨by rw [(fixed_eq h).1]; simp only [Property.data], RT_time t⟩
  · intro kvs a b hn h1 _ ih hl
    rw [List.length_append] at hl
    obtain ⟨i1, i2⟩ := ih (by omega)
    exact ⟨by rw [texts_eq h1 (by omega)]; simp only [Property.data, i1, bind, Except.bind], RT_block kvs hn i2⟩
  · intro c ps a b hc ht h1 _ ih hl
    rw [List.length_append] at hl
    obtain ⟨i1, i2⟩ := ih (by omega)
    have hpos : ∀ p ∈ ps, ∀ d, p.data = .ok d → 1 ≤ d.length := by
      intro p hp d hd
      obtain ⟨-, d', hd', hv⟩ := i2 p hp
      rw [hd, Except.ok.injEq] at hd'
      subst hd'
      exact value_pos hv (by rw [ht p hp]; exact hc)
    have hcount := dataList_length_le ps b i1 hpos
    refine ⟨?_, array_RT c (13 + c) ps rfl ?_ ?_ hpos fun p hp => ?_⟩
    · rw [varint_eq h1]
      simp only [Property.data, i1, bind, Except.bind, u64_of_lt (show ps.length < 2 ^ 64 by
        simp only [sizeLimit] at hl; omega)]
    · clear ht h1 i1 i2 hpos hcount ih
      revert hc; revert c; apply byte_ind; decide +kernel
    · clear ht h1 i1 i2 hpos hcount ih
      revert hc; revert c; apply byte_ind; decide +kernel
    · obtain ⟨hrt, d, hd, -⟩ := i2 p hp
      exact hrt.elem c (by rw [code_of_data hd, ht p hp])
  · intro c s b hc h1 hl
    refine ⟨by simp only [Property.data], ?_⟩
    rw [text_eq' h1 hl]
    simp only [List.mem_cons, List.not_mem_nil, or_false] at hc
    rcases hc with rfl | rfl
    · exact RT_raw3 s
    · exact RT_raw5 s
  · intro _
    exact ⟨rfl, by simp⟩
  · intro k p kvs b bs _ _ ih1 ih2 hl
    simp only [List.length_cons, List.length_append] at hl
    obtain ⟨i1, i2⟩ := ih1 (by omega)
    obtain ⟨j1, j2⟩ := ih2 (by omega)
    refine ⟨?_, ?_⟩
    · simp only [Property.dataBlock, code_of_data i1, i1, j1, bind, Except.bind, List.cons_append]
    · intro kv hkv
      rcases List.mem_cons.1 hkv with rfl | hkv
      · exact i2
      · exact j2 kv hkv
  · intro _
    exact ⟨rfl, by simp⟩
  · intro p ps b bs hv _ ih1 ih2 hl
    simp only [List.length_append] at hl
    obtain ⟨i1, i2⟩ := ih1 (by omega)
    obtain ⟨j1, j2⟩ := ih2 (by omega)
    refine ⟨?_, ?_⟩
    · simp only [Property.dataList, i1, j1, bind, Except.bind]
    · intro q hq
      rcases List.mem_cons.1 hq with rfl | hq
      · exact ⟨i2, b, i1, hv⟩
      · exact j2 q hq

theorem clean_value {p : Property} {d : Bytes} (h : Value p d) (fuel : Nat) (hf : d.length < fuel)
    (hl : d.length ≤ sizeLimit) (rest : Bytes) :
    (readProperty fuel).clean (typeCode p :: (d ++ rest)) = some (.ok p, rest) := by
  obtain ⟨h1, c, d', hc, hd, hr⟩ := value_get h hl
  rw [h1, Except.ok.injEq] at hd
  subst hd
  rw [code_of_data h1, Except.ok.injEq] at hc
  subst hc
  rw [readProperty, clean_readPropertyWith]
  exact hr fuel hf hl rest

theorem clean_mdLoop (keys : List Bytes) {places : List Nat} {md : Block} {b : Bytes}
    (hp : List.Forall₂ (fun i (kv : Bytes × Property) => keys[i]? = some kv.1) places md) (h : Values md b)
    (hn : (md.map (·.1)).Nodup) (fuel : Nat) (hf : b.length ≤ fuel) (hl : b.length ≤ sizeLimit) (rest : Bytes)
    (acc : Block) (hacc : ∀ k ∈ md.map (·.1), k ∉ acc.map (·.1)) :
    (readMdLoop fuel keys places acc).clean (b ++ rest) = some (.ok (acc ++ md), rest) ∧
    (eventBlock fuel keys places acc).clean (b ++ rest) = some (.ok (acc ++ md), rest) := by
  induction hp generalizing b acc with
  | nil =>
    cases h
    simp [readMdLoop, eventBlock]
  | @cons i kv is md hi _ ih =>
    cases h with
    | cons h1 h2 =>
      rename_i k p d D
      simp only [List.map_cons, List.nodup_cons] at hn
      simp only [List.length_cons, List.length_append] at hf hl
      have hacc' : ∀ k' ∈ md.map (·.1), k' ∉ (acc ++ [(k, p)]).map (·.1) := by
        intro k' hk'
        simp only [List.map_append, List.map_cons, List.map_nil, List.mem_append, List.mem_singleton, not_or]
        exact ⟨hacc k' (by simp [hk']), fun he => hn.1 (he ▸ hk')⟩
      obtain ⟨i1, i2⟩ := ih h2 hn.2 (by omega) (by omega) (acc ++ [(k, p)]) hacc'
      have hv := clean_value h1 fuel (by omega) (by omega) (D ++ rest)
      simp only [readMdLoop, eventBlock, hi, Prog.bind_eq, List.cons_append, List.append_assoc]
      constructor
      · rw [Prog.clean_bind_of hv]
        simp only
        rw [mapSet_append _ _ _ (hacc k (by simp)), i1]
        simp
      · rw [Prog.clean_bind_of hv]
        simp only
        rw [mapSet_append _ _ _ (hacc k (by simp)), i2]
        simp

theorem places_lt {keys : List Bytes} {places : List Nat} {md : Block} (hk : keys.length ≤ sizeLimit)
    (hp : List.Forall₂ (fun i (kv : Bytes × Property) => keys[i]? = some kv.1) places md) : ∀ i ∈ places, i < 2 ^ 64 := by
  induction hp with
  | nil => simp
  | cons h _ ih =>
    intro i hi
    rcases List.mem_cons.1 hi with rfl | hi
    · have := lt_of_get h
      simp only [sizeLimit] at hk; omega
    · exact ih i hi

theorem clean_meta {keys : List Bytes} {md : Block} {d : Bytes} (h : Meta keys md d) (hk : keys.length ≤ sizeLimit)
    (fuel : Nat) (hf : d.length ≤ fuel) (hl : d.length ≤ sizeLimit) (rest : Bytes) :
    (readMetadata fuel keys).clean (d ++ rest) = some (.ok md, rest) := by
  cases h with
  | mk hn hp h1 h2 =>
    rename_i places a b
    simp only [List.length_append] at hf hl
    have hlt := places_lt hk hp
    have ha := varints_eq h1 (by omega) hlt
    subst ha
    simp only [readMetadata, Prog.bind_eq, List.append_assoc]
    rw [Prog.clean_bind_of (clean_uvarintArray_limit _ _ (by omega) hlt)]
    simp only
    rw [(clean_mdLoop keys hp h2 hn fuel (by omega) (by omega) rest [] (by simp)).1]
    simp

/-! ## Numbers -/

theorem clean_varint {n : Nat} {b : Bytes} (h : Varint n b) (hn : n < 2 ^ 64) (rest : Bytes) :
    readUvarint.clean (b ++ rest) = some ((n, b.length, none), rest) := by
  rw [varint_eq h]; exact clean_readUvarint n rest hn

theorem clean_text {s b : Bytes} (h : Text s b) (hl : b.length ≤ sizeLimit) (rest : Bytes) :
    readString.clean (b ++ rest) = some ((s, b.length, none), rest) := by
  have := text_eq h hl
  subst this
  exact clean_string_limit s rest hl

theorem clean_text' {s b : Bytes} (h : Text s b) (hl : b.length ≤ sizeLimit) (rest : Bytes) :
    readBytesArray.clean (b ++ rest) = some ((s, b.length, none), rest) := by
  have := text_eq' h hl
  subst this
  exact clean_bytes_limit s rest hl

theorem clean_single {x : F32} {b : Bytes} (h : Single x b) (old : F32) (rest : Bytes) :
    (readF32 old).clean (b ++ rest) = some ((x, none), rest) := by
  rw [single_eq h, readF32, Prog.clean_readFull _ _ _ _ (leBytes_length 4 _)]
  simp only [ofNat_leNat_leBytes 32 4 rfl, Prog.clean_pure]

theorem clean_vec32 {v : V3} {b : Bytes} (h : Vec32 v b) (rest : Bytes) :
    readV32.clean (b ++ rest) = some ((v, none), rest) := by
  cases h with
  | mk h1 h2 h3 =>
    simp only [readV32, Prog.bind_eq, List.append_assoc]
    rw [Prog.clean_bind_of (clean_single h1 _ _)]
    simp only
    rw [Prog.clean_bind_of (clean_single h2 _ _)]
    simp only
    rw [Prog.clean_bind_of (clean_single h3 _ _)]
    rfl

/-! ## Times -/

theorem clean_singles {fs : List F32} {b : Bytes} (h : Many Single fs b) (rest : Bytes) :
    (decTime32Loop fs.length).clean (b ++ rest) = some (fs.map widen, rest) := by
  induction h with
  | nil => rfl
  | cons h1 _ ih =>
    simp only [List.append_assoc, List.length_cons, decTime32Loop, Prog.bind_eq]
    rw [Prog.clean_bind_of (clean_single h1 _ _)]
    simp only
    rw [Prog.clean_bind_of ih]
    rfl

theorem clean_bstTimes (gap cur : F64) (codes : List Bytes) (buf rest : Bytes) (hc : ∀ c ∈ codes, c.length = 2)
    (hb : buf.length = 2) :
    (decTimeBstLoop gap codes.length cur buf).clean (codes.flatten ++ rest) = some (timeSums gap cur codes, rest) := by
  induction codes generalizing cur buf with
  | nil => rfl
  | cons c codes ih =>
    have h2 := hc c (by simp)
    simp only [List.flatten_cons, List.append_assoc, List.length_cons, decTimeBstLoop, Prog.bind_eq, timeSums]
    rw [Prog.clean_bind_of (clean_readInto buf _ _ (by omega) (by omega))]
    simp only
    rw [Prog.clean_bind_of (ih _ _ (fun c hc' => hc c (by simp [hc'])) h2)]
    rfl

theorem flatten_length_le (l : List Bytes) (h : ∀ x ∈ l, 1 ≤ x.length) : l.length ≤ l.flatten.length := by
  induction l with
  | nil => simp
  | cons a l ih =>
    have := h a (by simp)
    have := ih fun x hx => h x (by simp [hx])
    simp only [List.length_cons, List.flatten_cons, List.length_append]; omega

theorem fixed_length {k n : Nat} {b : Bytes} (h : Fixed k n b) : b.length = k := by
  rw [(fixed_eq h).1, leBytes_length]

theorem clean_times {ts : List F64} {b : Bytes} (h : Times ts b) (hl : b.length ≤ sizeLimit) (rest : Bytes) :
    decTime.clean (b ++ rest) = some ((ts, none), rest) := by
  have make_ok : ∀ {n : Nat}, n ≤ sizeLimit → n * 8 ≤ maxAlloc := by
    intro n hn; simp only [sizeLimit, maxAlloc] at *; omega
  cases h with
  | raw64 h1 h2 =>
    rename_i n b
    have hc := many_count h2 fun x b hx => by rw [fixed_length hx]; omega
    simp only [List.length_cons, List.length_append] at hl
    simp only [List.cons_append, List.append_assoc, decTime]
    rw [Prog.clean_read1]
    simp only [Prog.bind_eq]
    rw [Prog.clean_bind_of (clean_varint h1 (by simp only [sizeLimit] at hl; omega) _)]
    show ((Prog.make ts.length 8).bind _).clean _ = _
    rw [Prog.clean_make _ _ _ _ (make_ok (by omega)), many_eq h2 fun x b _ hx => double_eq hx]
    show ((decTime64Loop ts.length).bind _).clean (encTime64 ts ++ rest) = _
    rw [Prog.clean_bind_of (clean_decTime64Loop ts rest)]
    rfl
  | raw32 h1 h2 =>
    rename_i fs n b
    have hc := many_count h2 fun x b hx => by rw [fixed_length hx]; omega
    simp only [List.length_cons, List.length_append] at hl
    simp only [List.cons_append, List.append_assoc, decTime]
    rw [Prog.clean_read1]
    simp only [Prog.bind_eq]
    rw [Prog.clean_bind_of (clean_varint h1 (by simp only [sizeLimit] at hl; omega) _)]
    show ((Prog.make fs.length 8).bind _).clean _ = _
    rw [Prog.clean_make _ _ _ _ (make_ok (by omega))]
    show (Prog.bind _ _).clean _ = _
    rw [Prog.clean_bind_of (clean_singles h2 rest)]
    rfl
  | none h1 =>
    simp only [List.cons_append, decTime]
    rw [Prog.clean_read1]
    simp only [Prog.bind_eq]
    rw [Prog.clean_bind_of (clean_varint h1 (by decide) _)]
    rfl
  | one h1 h2 =>
    simp only [List.cons_append, List.append_assoc, decTime]
    rw [Prog.clean_read1]
    simp only [Prog.bind_eq]
    rw [Prog.clean_bind_of (clean_varint h1 (by decide) _)]
    show (decTimeBst 1).clean _ = _
    simp only [decTimeBst, Prog.bind_eq]
    rw [Prog.clean_bind_of (clean_single h2 _ _)]
    rfl
  | bst hne hc h1 h2 h3 =>
    rename_i start gap codes n s g
    have hlen := flatten_length_le codes fun x hx => by rw [hc x hx]; omega
    have hs := fixed_length h2
    simp only [List.length_cons, List.length_append] at hl
    simp only [List.cons_append, List.append_assoc, decTime]
    rw [Prog.clean_read1]
    simp only [Prog.bind_eq]
    rw [Prog.clean_bind_of (clean_varint h1 (by simp only [sizeLimit] at hl; omega) _)]
    show (decTimeBst (codes.length + 1)).clean _ = _
    simp only [decTimeBst, Prog.bind_eq]
    rw [Prog.clean_bind_of (clean_single h2 _ _)]
    have hz : codes.length ≠ 0 := fun h => hne (List.length_eq_zero_iff.1 h)
    simp only [if_neg hz]
    rw [Prog.clean_bind_of (clean_single h3 _ _)]
    simp only
    rw [Prog.clean_make _ _ _ _ (make_ok (by omega)), Prog.clean_bind_of (clean_bstTimes _ _ codes _ rest hc rfl),
      scanl_timeSums]
    rfl

/-! ## Captures -/

theorem clean_vecs64 {vs : List V3} {b : Bytes} (h : Many Vec64 vs b) : b = encRaw64 8 vs := by
  refine many_eq h fun v b _ hv => ?_
  cases hv with
  | mk h1 h2 h3 =>
    rw [double_eq h1, double_eq h2, double_eq h3]
    simp [putRaw64]

theorem bufF64_padded {x : F64} {a a' : Bytes} (h : Double x a) : bufF64 (a ++ a') = x := by
  have hl := fixed_length h
  rw [bufF64, List.take_append_of_le_length (by omega), List.take_of_length_le (by omega), double_eq h]
  exact ofNat_leNat_leBytes 64 8 rfl x

theorem clean_vecs80 {vs : List V3} {b : Bytes} (h : Many Vec80 vs b) (ts : List F64) (hl : ts.length = vs.length)
    (buf rest : Bytes) (hb : buf.length = 10) :
    (decRaw64 ts buf).clean (b ++ rest) = some (.ok (ts.zip vs), rest) := by
  induction h generalizing ts buf with
  | nil =>
    cases ts with
    | nil => rfl
    | cons t ts => simp at hl
  | cons h1 _ ih =>
    cases ts with
    | nil => simp at hl
    | cons t ts =>
      cases h1 with
      | mk h1 h2 h3 l1 l2 l3 =>
        rename_i x y z a b c a' b' c'
        have k1 := fixed_length h1
        have k2 := fixed_length h2
        have k3 := fixed_length h3
        have ea : ∀ r, a ++ (a' ++ r) = (a ++ a') ++ r := fun r => (List.append_assoc _ _ _).symm
        have eb : ∀ r, b ++ (b' ++ r) = (b ++ b') ++ r := fun r => (List.append_assoc _ _ _).symm
        have ec : ∀ r, c ++ (c' ++ r) = (c ++ c') ++ r := fun r => (List.append_assoc _ _ _).symm
        simp only [decRaw64, Prog.bind_eq, List.append_assoc]
        rw [ea, Prog.clean_bind_of (clean_readInto buf _ _ (by simp; omega) (by omega))]
        simp only
        rw [eb, Prog.clean_bind_of (clean_readInto (a ++ a') _ _ (by simp; omega) (by simp; omega))]
        simp only
        rw [ec, Prog.clean_bind_of (clean_readInto (b ++ b') _ _ (by simp; omega) (by simp; omega))]
        simp only
        rw [Prog.clean_bind_of (ih ts (by simpa using hl) (c ++ c') (by simp; omega))]
        simp only [bufF64_padded h1, bufF64_padded h2, bufF64_padded h3]
        rfl

theorem clean_vecs32 (stale : Bool) {vs : List V3} {b : Bytes} (h : Many Vec32 vs b) (ts : List F64)
    (hl : ts.length = vs.length) (x y z : F32) (rest : Bytes) :
    (decRaw32 stale ts x y z).clean (b ++ rest) = some (ts.zip vs, rest) := by
  induction h generalizing ts x y z with
  | nil =>
    cases ts with
    | nil => rfl
    | cons t ts => simp at hl
  | cons h1 _ ih =>
    cases ts with
    | nil => simp at hl
    | cons t ts =>
      cases h1 with
      | mk h1 h2 h3 =>
        simp only [decRaw32, Prog.bind_eq, List.append_assoc]
        rw [Prog.clean_bind_of (clean_single h1 _ _)]
        simp only
        rw [Prog.clean_bind_of (clean_single h2 _ _)]
        simp only
        rw [Prog.clean_bind_of (clean_single h3 _ _)]
        simp only
        rw [Prog.clean_bind_of (ih ts (by simpa using hl) _ _ _)]
        rfl

theorem clean_vecs16 {vs : List V3} {b : Bytes} (h : Many Vec16 vs b) (ts : List F64) (hl : ts.length = vs.length)
    (buf rest : Bytes) (hb : buf.length = 2) :
    (decRaw16Loop ts buf).clean (b ++ rest) = some (ts.zip vs, rest) := by
  induction h generalizing ts buf with
  | nil =>
    cases ts with
    | nil => rfl
    | cons t ts => simp at hl
  | cons h1 _ ih =>
    cases ts with
    | nil => simp at hl
    | cons t ts =>
      cases h1 with
      | mk l1 l2 l3 =>
        rename_i a b c
        simp only [decRaw16Loop, Prog.bind_eq, List.append_assoc]
        rw [Prog.clean_bind_of (clean_readInto buf _ _ (by omega) (by omega))]
        simp only
        rw [Prog.clean_bind_of (clean_readInto a _ _ (by omega) (by omega))]
        simp only
        rw [Prog.clean_bind_of (clean_readInto b _ _ (by omega) (by omega))]
        simp only
        rw [Prog.clean_bind_of (ih ts (by simpa using hl) c l3)]
        simp only [point_eq]
        rfl

theorem clean_octs (n : Nat) (hn : 0 < n) (lo hi cur : V3) (codes : List Bytes) (hc : ∀ c ∈ codes, c.length = 3 * n)
    (ts : List F64) (hl : ts.length = codes.length) (buf rest : Bytes) (hb : buf.length = 3 * n) :
    (octDecodeLoop lo hi ts cur buf).clean (codes.flatten ++ rest) =
      some (ts.zip (codes.scanl (move lo hi) cur).tail, rest) := by
  induction codes generalizing ts cur buf with
  | nil =>
    cases ts with
    | nil => rfl
    | cons t ts => simp at hl
  | cons c codes ih =>
    cases ts with
    | nil => simp at hl
    | cons t ts =>
      have hcl := hc c (by simp)
      simp only [List.flatten_cons, octDecodeLoop, Prog.bind_eq, List.append_assoc]
      rw [Prog.clean_bind_of (clean_readInto buf _ _ (by rw [hcl, hb]) (by omega))]
      simp only
      rw [Prog.clean_bind_of (ih _ (fun c hc' => hc c (by simp [hc'])) ts (by simpa using hl) c hcl),
        ← move_eq lo hi cur n c hcl]
      rw [List.scanl_cons, List.tail_cons]
      cases codes <;> simp [List.scanl_cons]

theorem scanl_cons_tail {α β : Type} (f : β → α → β) (b : β) (l : List α) : l.scanl f b = b :: (l.scanl f b).tail := by
  cases l <;> simp [List.scanl_cons]

theorem clean_positions {vs : List V3} {b : Bytes} (h : Positions vs b) (ts : List F64) (hl : ts.length = vs.length) :
    (positionCaptures ts).clean b = some (.ok (ts.zip vs), []) := by
  have nil_eq : ∀ b : Bytes, b = b ++ [] := fun b => (List.append_nil b).symm
  cases h with
  | raw64 h =>
    rename_i b
    rw [positionCaptures, Prog.clean_read1, clean_vecs64 h]
    show (decRaw64 ts (List.replicate 8 0)).clean _ = _
    rw [nil_eq (encRaw64 8 vs)]
    exact clean_decRaw64 8 (by omega) ts vs _ _ hl rfl
  | raw32 h =>
    rename_i b
    rw [positionCaptures, Prog.clean_read1]
    show ((decRaw32 false ts 0 0 0).bind _).clean _ = _
    rw [nil_eq b, Prog.clean_bind_of (clean_vecs32 false h ts hl _ _ _ _)]
    rfl
  | octNone ht =>
    cases ts with
    | cons t ts => simp at hl
    | nil =>
      rw [positionCaptures, Prog.clean_read1]
      rcases ht with rfl | rfl <;> rfl
  | octOne ht h =>
    rename_i tech v b
    match ts, hl with
    | [t], _ =>
      have hd : ∀ n, (decOct n [t]).clean b = some (.ok [(t, v)], []) := by
        intro n
        simp only [decOct, Prog.bind_eq]
        rw [nil_eq b, Prog.clean_bind_of (clean_vec32 h _)]
        rfl
      rw [positionCaptures, Prog.clean_read1]
      rcases ht with rfl | rfl
      · exact hd 2
      · exact hd 1
  | oct ht hne hc h1 h2 h3 =>
    rename_i tech size lo hi start codes a b c
    have hd : ∀ n, 0 < n → size = 3 * n → (decOct n ts).clean (a ++ (b ++ (c ++ codes.flatten))) =
        some (.ok (ts.zip (codes.scanl (move lo hi) start)), []) := by
      intro n hn hs
      rw [List.length_scanl] at hl
      have hpos : 0 < codes.length := List.length_pos_iff.2 hne
      match ts, hl with
      | [], hl => simp at hl
      | [t], hl => simp only [List.length_cons, List.length_nil] at hl; omega
      | t :: u :: ts, hl =>
        simp only [decOct, Prog.bind_eq]
        rw [Prog.clean_bind_of (clean_vec32 h1 _)]
        simp only
        rw [Prog.clean_bind_of (clean_vec32 h2 _)]
        simp only
        rw [Prog.clean_bind_of (clean_vec32 h3 _)]
        simp only
        rw [nil_eq codes.flatten, Prog.clean_bind_of (clean_octs n hn lo hi start codes (by rw [← hs]; exact hc) (u :: ts)
          (by simpa using hl) _ [] (by simp)), scanl_cons_tail (move lo hi) start codes]
        rfl
    rw [positionCaptures, Prog.clean_read1]
    rcases ht with ⟨rfl, hs⟩ | ⟨rfl, hs⟩
    · exact hd 2 (by omega) (by omega)
    · exact hd 1 (by omega) (by omega)

theorem clean_rotations {vs : List V3} {b : Bytes} (h : Rotations vs b) (ts : List F64) (hl : ts.length = vs.length) :
    (eulerCaptures ts).clean b = some (.ok (ts.zip vs), []) := by
  have nil_eq : ∀ b : Bytes, b = b ++ [] := fun b => (List.append_nil b).symm
  cases h with
  | raw64 h =>
    rename_i b
    rw [eulerCaptures, Prog.clean_read1]
    show (decRaw64 ts (List.replicate 10 0)).clean b = _
    rw [nil_eq b]
    exact clean_vecs80 h ts hl _ _ rfl
  | raw32 h =>
    rename_i b
    rw [eulerCaptures, Prog.clean_read1]
    show ((decRaw32 true ts 0 0 0).bind _).clean b = _
    rw [nil_eq b, Prog.clean_bind_of (clean_vecs32 true h ts hl _ _ _ _)]
    rfl
  | one h =>
    rename_i v b
    match ts, hl with
    | [t], _ =>
      rw [eulerCaptures, Prog.clean_read1]
      show (decRaw16 [t]).clean b = _
      simp only [decRaw16, Prog.bind_eq]
      rw [nil_eq b, Prog.clean_bind_of (clean_vec32 h _)]
      rfl
  | raw16 hne h =>
    rename_i b
    rw [eulerCaptures, Prog.clean_read1]
    show (decRaw16 ts).clean b = _
    have hcl := clean_vecs16 h ts hl [0, 0] [] rfl
    rw [List.append_nil] at hcl
    match ts, hl with
    | [t], hl => exact absurd hl.symm hne
    | [], hl =>
      simp only [decRaw16, Prog.bind_eq]
      rw [Prog.clean_bind_of hcl]
      rfl
    | t :: u :: ts, hl =>
      simp only [decRaw16, Prog.bind_eq]
      rw [Prog.clean_bind_of hcl]
      rfl

theorem clean_float32s {fs : List F32} {b : Bytes} (h : Many Single fs b) (ts : List F64) (hl : ts.length = fs.length)
    (old : F32) (rest : Bytes) :
    (floatDec32 ts old).clean (b ++ rest) = some (ts.zip (fs.map widen), rest) := by
  induction h generalizing ts old with
  | nil =>
    cases ts with
    | nil => rfl
    | cons t ts => simp at hl
  | cons h1 _ ih =>
    cases ts with
    | nil => simp at hl
    | cons t ts =>
      simp only [floatDec32, Prog.bind_eq, List.append_assoc]
      rw [Prog.clean_bind_of (clean_single h1 _ _)]
      simp only
      rw [Prog.clean_bind_of (ih ts (by simpa using hl) _)]
      rfl

theorem clean_floatsBst (lo hi : F32) (codes : List Bytes) (hc : ∀ c ∈ codes, c.length = 2) (ts : List F64)
    (hl : ts.length = codes.length) (buf rest : Bytes) (hb : buf.length = 2) :
    (floatDecBstLoop lo hi ts buf).clean (codes.flatten ++ rest) =
      some (ts.zip (codes.map (point (widen lo) (widen (hi.sub lo)))), rest) := by
  induction codes generalizing ts buf with
  | nil =>
    cases ts with
    | nil => rfl
    | cons t ts => simp at hl
  | cons c codes ih =>
    cases ts with
    | nil => simp at hl
    | cons t ts =>
      have h2 := hc c (by simp)
      simp only [List.flatten_cons, floatDecBstLoop, Prog.bind_eq, List.append_assoc]
      rw [Prog.clean_bind_of (clean_readInto buf _ _ (by omega) (by omega))]
      simp only
      rw [Prog.clean_bind_of (ih (fun c hc' => hc c (by simp [hc'])) ts (by simpa using hl) c h2)]
      simp only [List.map_cons, List.zip_cons_cons, point_eq, Prog.pure_eq, Prog.clean_pure]

theorem decode_floats {vs : List F64} {b : Bytes} (h : Floats vs b) (ts : List F64) (hl : ts.length = vs.length)
    (name header : Bytes) : floatDecode name header b ts = .ok (some (.float name (ts.zip vs)), none) := by
  cases h with
  | raw64 h =>
    rename_i b
    have hb : b = floatEnc64 vs := many_eq h fun v b _ hv => double_eq hv
    have := clean_floatDec64 ts vs 0 [] hl
    rw [List.append_nil, ← hb] at this
    have h := onErrReader_of_clean this
    rw [floatDecode]
    show (do let x ← (floatDec64 ts 0).onErrReader b; _) = _
    rw [h]; rfl
  | raw32 h =>
    rename_i fs b
    have := clean_float32s h ts (by simpa using hl) 0 []
    rw [List.append_nil] at this
    have h := onErrReader_of_clean this
    rw [floatDecode]
    show (do let x ← (floatDec32 ts 0).onErrReader b; _) = _
    rw [h]; rfl
  | bst h1 h2 hc =>
    rename_i lo hi codes a b
    have : (floatDecBst ts).clean (a ++ (b ++ codes.flatten)) =
        some (ts.zip (codes.map (point (widen lo) (widen (hi.sub lo)))), []) := by
      simp only [floatDecBst, Prog.bind_eq]
      rw [Prog.clean_bind_of (clean_single h1 _ _)]
      simp only
      rw [Prog.clean_bind_of (clean_single h2 _ _)]
      simp only
      rw [show codes.flatten = codes.flatten ++ [] by simp]
      exact clean_floatsBst lo hi codes hc ts (by simpa using hl) _ [] rfl
    have h := onErrReader_of_clean this
    rw [floatDecode]
    show (do let x ← (floatDecBst ts).onErrReader (a ++ (b ++ codes.flatten)); _) = _
    rw [h]; rfl

/-! ### event and enum -/

theorem refs_get {table : List Bytes} {ss : List Bytes} {b : Bytes} (h : Many (Ref table) ss b) :
    ∃ is, Finds table is ss ∧ Many Varint is b := by
  induction h with
  | nil => exact ⟨[], .nil, .nil⟩
  | cons h1 _ ih =>
    obtain ⟨is, i1, i2⟩ := ih
    cases h1 with
    | mk h1 h2 => exact ⟨_ :: is, .cons h1 i1, .cons h2 i2⟩

theorem table_length {table : List Bytes} {b : Bytes} (h : Counted Text table b) : table.length ≤ b.length := by
  cases h with
  | mk _ h2 =>
    have := many_count h2 fun s b h => by have := text_length h; omega
    rw [List.length_append]; omega

theorem clean_table {table : List Bytes} {b : Bytes} (h : Counted Text table b) (hl : b.length ≤ sizeLimit) (rest : Bytes) :
    readStringArray.clean (b ++ rest) = some ((table, b.length, none), rest) := by
  have := texts_eq h hl
  subst this
  exact clean_stringArray_limit table rest hl

theorem clean_events {names keys : List Bytes} (hN : names.length ≤ sizeLimit) (hK : keys.length ≤ sizeLimit)
    {es : List (Bytes × Block)} {b : Bytes} (h : Many (Event names keys) es b) (ts : List F64)
    (hl : ts.length = es.length) (fuel : Nat) (hf : b.length ≤ fuel) (hb : b.length ≤ sizeLimit) (rest : Bytes) :
    (eventCaptures fuel names keys ts).clean (b ++ rest) = some (.ok (ts.zip es), rest) := by
  induction h generalizing ts with
  | nil =>
    cases ts with
    | nil => rfl
    | cons t ts => simp at hl
  | cons h1 _ ih =>
    rename_i e es d D
    cases ts with
    | nil => simp at hl
    | cons t ts =>
      simp only [List.length_append] at hf hb
      cases h1 with
      | mk h1 h2 =>
        rename_i a b
        cases h1 with
        | mk hi hv =>
          rename_i i
          cases h2 with
          | mk hn hp hc hvs =>
            rename_i places a' b'
            simp only [List.length_append] at hf hb
            have hlt := places_lt hK hp
            have hi64 : i < 2 ^ 64 := by
              have := lt_of_get hi
              simp only [sizeLimit] at hN; omega
            have ha := varints_eq hc (by omega) hlt
            subst ha
            simp only [eventCaptures, Prog.bind_eq, List.append_assoc]
            rw [Prog.clean_bind_of (clean_varint hv hi64 _)]
            simp only
            rw [Prog.clean_bind_of (clean_uvarintArray_limit _ _ (by omega) hlt)]
            simp only
            rw [Prog.clean_bind_of (clean_mdLoop keys hp hvs hn fuel (by omega) (by omega) _ [] (by simp)).2]
            simp only [List.nil_append, hi]
            rw [Prog.clean_bind_of (ih ts (by simpa using hl) (by omega) (by omega))]
            rfl

theorem clean_enums {vs : List (BitVec 64)} {b : Bytes} (h : Many (fun (v : BitVec 64) b => Varint v.toNat b) vs b) :
    b = (vs.map fun v => putUvarint v.toNat).flatten := many_eq h fun _ _ _ hv => varint_eq hv

/-- Decoding by the package's encoder of that signature. -/
theorem decode_captures {name sig header : Bytes} {ts : List F64} {c : Coll} {b : Bytes}
    (h : Captures name ts sig header c b) (e : Builtin) (he : e.encoder.sig = sig) (hh : header.length ≤ sizeLimit)
    (hb : b.length ≤ sizeLimit) : e.encoder.decode name header b ts = .ok (some c, none) := by
  have pick : ∀ {s : Bytes}, e.encoder.sig = s →
      (s = sigPosition → ∃ t, e = .position t) ∧ (s = sigEuler → ∃ t, e = .euler t) ∧ (s = sigFloat → ∃ t, e = .float t) ∧
      (s = sigEvent → e = .event) ∧ (s = sigEnum → e = .enum) := by
    rintro _ rfl
    cases e <;>
      refine ⟨fun h => ?_, fun h => ?_, fun h => ?_, fun h => ?_, fun h => ?_⟩ <;>
      first
        | exact ⟨_, rfl⟩
        | rfl
        | (simp only [Builtin.encoder, eventEncoder, enumEncoder, positionEncoder, eulerEncoder, floatEncoder] at h
           exact absurd h (by decide))
  cases h with
  | position hl h =>
    rename_i vs
    obtain ⟨t, rfl⟩ := (pick he).1 sig_position
    simp only [Builtin.encoder, positionEncoder, positionDecode, onBytes_of_clean (clean_positions h ts hl), bind, Except.bind]
  | euler hl h =>
    obtain ⟨t, rfl⟩ := (pick he).2.1 sig_euler
    simp only [Builtin.encoder, eulerEncoder, eulerDecode, onBytes_of_clean (clean_rotations h ts hl), bind, Except.bind]
  | float hl h =>
    obtain ⟨t, rfl⟩ := (pick he).2.2.1 sig_float
    exact decode_floats h ts hl name []
  | event hl h1 h2 h3 =>
    rename_i names keys es h h'
    obtain rfl := (pick he).2.2.2.1 sig_event
    simp only [List.length_append] at hh
    have hhead : eventHeader.clean (h ++ h') = some ((names, keys, none), []) := by
      simp only [eventHeader, Prog.bind_eq]
      rw [Prog.clean_bind_of (clean_table h1 (by omega) _)]
      simp only
      rw [show h' = h' ++ [] by simp, Prog.clean_bind_of (clean_table h2 (by omega) _)]
      rfl
    have l1 := table_length h1
    have l2 := table_length h2
    have hcap := clean_events (by omega) (by omega) h3 ts hl (b.length + 1) (by omega) hb []
    rw [List.append_nil] at hcap
    simp only [Builtin.encoder, eventEncoder, eventDecode, onBytes_of_clean hhead, bind, Except.bind]
    rw [onBytes_of_clean hcap]
  | enum hl h1 h2 h3 =>
    rename_i table ms vs a b
    obtain rfl := (pick he).2.2.2.2 sig_enum
    have l1 := table_length h1
    have hd := clean_table h1 hh []
    rw [List.append_nil] at hd
    cases h2 with
    | mk c1 c2 =>
      rename_i n bs
      obtain ⟨idx, i1, i2⟩ := refs_get c2
      have hlen : idx.length = ms.length := i1.length_eq
      simp only [List.length_append] at hb
      have hlt : ∀ i ∈ idx, i < 2 ^ 64 := fun i hi => by
        have := i1.lt i hi
        simp only [sizeLimit] at hh; omega
      have ha : n ++ bs = uvarintArrayToBytes idx :=
        varints_eq (.mk (by rw [hlen]; exact c1) i2) (by rw [List.length_append]; omega) hlt
      rw [ha]
      have hal : (uvarintArrayToBytes idx).length ≤ sizeLimit := by rw [← ha, List.length_append]; omega
      have hcl : (readUvarIntArray.bind fun (x : List Nat × Nat × Option Err) =>
          (Prog.ofGo (lookupAll table x.1)).bind fun ms => (enumCaptures ts).bind fun caps =>
            (Prog.pure (ms, caps) : Prog _)).clean (uvarintArrayToBytes idx ++ b) = some ((ms, ts.zip vs), []) := by
        rw [Prog.clean_bind_of (clean_uvarintArray_limit idx _ hal hlt)]
        simp only [lookupAll_finds i1]
        have := clean_enumCaptures ts vs [] hl
        rw [← clean_enums h3, List.append_nil] at this
        simp only [Prog.ofGo, Prog.pure_bind']
        rw [Prog.clean_bind_of this]
        rfl
      simp only [Builtin.encoder, enumEncoder, enumDecode, onBytes_of_clean hd, bind, Except.bind]
      have := onErrReader_of_clean hcl
      simp only [Prog.pure_eq, this]

/-! ## Recordings -/

/-- The tables the reader has loaded, against those of the file. -/
structure Loaded (T : RTables) (keys : List Bytes) (encs : List (Bytes × Bytes)) : Prop where
  table : T.keys = keys
  size : keys.length ≤ sizeLimit
  count : encs.length ≤ sizeLimit
  find : ∀ (i : Nat) (sig header : Bytes), encs[i]? = some (sig, header) →
    ∃ e : Builtin, T.encs[i]? = some (e.encoder, header) ∧ e.encoder.sig = sig ∧ header.length ≤ sizeLimit

theorem varint_pos {n : Nat} {b : Bytes} (h : Varint n b) : 1 ≤ b.length := by
  cases h <;> simp

theorem stream_pos {encs : List (Bytes × Bytes)} {c : Coll} {b : Bytes} (h : Stream encs c b) : 1 ≤ b.length := by
  cases h with
  | mk _ h _ _ _ _ => have := varint_pos h; simp only [List.length_append]; omega

theorem reference_pos {keys : List Bytes} {r : BinRef} {b : Bytes} (h : Reference keys r b) : 1 ≤ b.length := by
  cases h with
  | mk _ h _ _ _ => have := text_length h; simp only [List.length_append]; omega

theorem binary_pos {keys : List Bytes} {x : Bin} {b : Bytes} (h : Binary keys x b) : 1 ≤ b.length := by
  cases h with
  | mk _ h _ _ => have := text_length h; simp only [List.length_append]; omega

theorem clean_streams {T : RTables} {keys : List Bytes} {encs : List (Bytes × Bytes)} (hT : Loaded T keys encs)
    {cs : List Coll} {b : Bytes} (h : Many (Stream encs) cs b) (hl : b.length ≤ sizeLimit) (rest : Bytes) :
    (readStreams T cs.length).clean (b ++ rest) = some (cs.map some, rest) := by
  induction h with
  | nil => rfl
  | cons h1 _ ih =>
    simp only [List.length_append] at hl
    cases h1 with
    | mk hi ha hn ht hb hc =>
      rename_i i sig header block ts a n t d
      simp only [List.length_append] at hl
      obtain ⟨e, e1, e2, e3⟩ := hT.find i sig header hi
      have hi64 : i < 2 ^ 64 := by
        have := lt_of_get hi
        have := hT.count
        simp only [sizeLimit] at this; omega
      have hbl : block.length ≤ sizeLimit := by have := text_length hb; omega
      simp only [List.append_assoc, List.length_cons, readStreams, Prog.bind_eq]
      rw [Prog.clean_bind_of (clean_varint ha hi64 _)]
      simp only
      rw [Prog.clean_bind_of (clean_text hn (by omega) _)]
      simp only
      rw [Prog.clean_bind_of (clean_times ht (by omega) _)]
      simp only
      rw [Prog.clean_bind_of (clean_text' hb (by omega) _)]
      simp only [e1, decode_captures hc e e2 e3 hbl, Prog.ofGo, Prog.pure_bind']
      rw [Prog.clean_bind_of (ih (by omega))]
      rfl

theorem clean_references {T : RTables} {keys : List Bytes} {encs : List (Bytes × Bytes)} (hT : Loaded T keys encs)
    {rs : List BinRef} {b : Bytes} (h : Many (Reference keys) rs b) (hf : b.length ≤ T.fuel) (hl : b.length ≤ sizeLimit)
    (rest : Bytes) : (readRefs T rs.length).clean (b ++ rest) = some (rs.map some, rest) := by
  induction h with
  | nil => rfl
  | cons h1 _ ih =>
    simp only [List.length_append] at hl hf
    cases h1 with
    | mk hs hn hu hv hm =>
      simp only [List.length_append] at hl hf
      simp only [List.append_assoc, List.length_cons, readRefs, Prog.bind_eq]
      rw [Prog.clean_bind_of (clean_text hn (by omega) _)]
      simp only
      rw [Prog.clean_bind_of (clean_text hu (by omega) _)]
      simp only
      rw [Prog.clean_bind_of (clean_varint hv hs _)]
      simp only
      rw [hT.table, Prog.clean_bind_of (clean_meta hm hT.size T.fuel (by omega) (by omega) _)]
      rw [Prog.clean_bind_of (ih (by omega) (by omega))]
      rfl

theorem clean_binaries {T : RTables} {keys : List Bytes} {encs : List (Bytes × Bytes)} (hT : Loaded T keys encs)
    {bs : List Bin} {b : Bytes} (h : Many (Binary keys) bs b) (hf : b.length ≤ T.fuel) (hl : b.length ≤ sizeLimit)
    (rest : Bytes) : (readBins T bs.length).clean (b ++ rest) = some (bs.map some, rest) := by
  induction h with
  | nil => rfl
  | @cons x xs d D h1 _ ih =>
    simp only [List.length_append] at hl hf
    cases h1 with
    | mk hs hn hv hm =>
      simp only [List.length_append] at hl hf
      have hsz : x.size ≤ sizeLimit := by omega
      simp only [List.append_assoc, List.length_cons, readBins, Prog.bind_eq]
      rw [Prog.clean_bind_of (clean_text hn (by omega) _)]
      simp only
      rw [Prog.clean_bind_of (clean_varint hv (by simp only [sizeLimit] at hsz; omega) _)]
      simp only
      rw [hT.table, Prog.clean_bind_of (clean_meta hm hT.size T.fuel (by omega) (by omega) _)]
      rw [Prog.clean_make _ _ _ _ (by simp only [sizeLimit, maxAlloc] at *; omega),
        Prog.clean_readFull _ _ _ _ hs.symm]
      rw [Prog.clean_bind_of (ih (by omega) (by omega))]
      cases x
      dsimp only at hs hsz
      subst hs
      have h64 := u64_of_lt (show List.length _ < 2 ^ 64 from Nat.lt_of_le_of_lt hsz (by decide))
      simp only [Nat.sub_self, List.replicate_zero, List.append_nil, newBinary, blockOrEmpty, List.map_cons,
        h64, Prog.pure_eq, Prog.clean_pure]

theorem recording_get {T : RTables} {keys : List Bytes} {encs : List (Bytes × Bytes)} (hT : Loaded T keys encs)
    {rec : Rec} {b : Bytes} (h : Recording keys encs rec b) :
    ∀ f, b.length < f → b.length ≤ T.fuel → b.length ≤ sizeLimit → ∀ rest,
      (buildRec T f).clean (b ++ rest) = some (.ok rec, rest) := by
  have make_ok : ∀ {n : Nat}, n ≤ sizeLimit → n * 16 ≤ maxAlloc := by
    intro n hn; simp only [sizeLimit, maxAlloc] at *; omega
  have small : ∀ {n : Nat}, n ≤ sizeLimit → n < 2 ^ 64 := by
    intro n hn; simp only [sizeLimit] at *; omega
  refine Recording.rec
    (motive_1 := fun rec b _ => ∀ f, b.length < f → b.length ≤ T.fuel → b.length ≤ sizeLimit → ∀ rest,
      (buildRec T f).clean (b ++ rest) = some (.ok rec, rest))
    (motive_2 := fun recs b _ => recs.length ≤ b.length ∧
      ∀ f, b.length < f → b.length ≤ T.fuel → b.length ≤ sizeLimit → ∀ rest,
        (readChildren (buildRec T f) recs.length).clean (b ++ rest) = some (.ok recs, rest)) ?_ ?_ ?_ h
  · intro id name colls recs md bins refs i n m s r b k c h1 h2 h3 h4 h5 h6 h7 _ ih f hf hT' hl rest
    obtain ⟨ih1, ih2⟩ := ih
    cases f with
    | zero => omega
    | succ f =>
      cases h4 with
      | mk c1 m1 =>
        cases h5 with
        | mk c2 m2 =>
          cases h6 with
          | mk c3 m3 =>
            simp only [List.length_append] at hf hT' hl
            have k1 := many_count m1 fun _ _ => stream_pos
            have k2 := many_count m2 fun _ _ => reference_pos
            have k3 := many_count m3 fun _ _ => binary_pos
            have t1 := text_length h1
            simp only [buildRec, Prog.bind_eq, List.append_assoc]
            rw [Prog.clean_bind_of (clean_text h1 (by omega) _)]
            simp only
            rw [Prog.clean_bind_of (clean_text h2 (by omega) _)]
            simp only
            rw [hT.table, Prog.clean_bind_of (clean_meta h3 hT.size T.fuel (by omega) (by omega) _)]
            simp only
            rw [Prog.clean_bind_of (clean_varint c1 (small (by omega)) _)]
            simp only
            rw [Prog.clean_make _ _ _ _ (make_ok (by omega)), Prog.clean_bind_of (clean_streams hT m1 (by omega) _),
              Prog.clean_bind_of (clean_varint c2 (small (by omega)) _)]
            simp only
            rw [Prog.clean_make _ _ _ _ (make_ok (by omega)),
              Prog.clean_bind_of (clean_references hT m2 (by omega) (by omega) _),
              Prog.clean_bind_of (clean_varint c3 (small (by omega)) _)]
            simp only
            rw [Prog.clean_make _ _ _ _ (make_ok (by omega)),
              Prog.clean_bind_of (clean_binaries hT m3 (by omega) (by omega) _),
              Prog.clean_bind_of (clean_varint h7 (small (by omega)) _)]
            simp only
            rw [Prog.clean_make _ _ _ _ (make_ok (by omega)),
              Prog.clean_bind_of (ih2 f (by omega) (by omega) (by omega) _)]
            rfl
  · exact ⟨by simp, fun _ _ _ _ _ => rfl⟩
  · intro rec recs b bs hr _ ih1 ih2
    obtain ⟨j1, j2⟩ := ih2
    have hpos : 1 ≤ b.length := by
      cases hr with
      | mk h1 _ _ _ _ _ _ _ => have := text_length h1; simp only [List.length_append]; omega
    refine ⟨by simp only [List.length_cons, List.length_append]; omega, fun f hf hT' hl rest => ?_⟩
    simp only [List.length_append] at hf hT' hl
    simp only [List.length_cons, readChildren, Prog.bind_eq, List.append_assoc]
    rw [Prog.clean_bind_of (ih1 f (by omega) (by omega) (by omega) _)]
    simp only
    rw [Prog.clean_bind_of (j2 f (by omega) (by omega) (by omega) _)]
    rfl

/-! ## Files -/

theorem find_sigs (rs : List Builtin) (sigs : List Bytes) (h : ∀ s ∈ sigs, ∃ e ∈ rs, e.encoder.sig = s) :
    ∃ es : List Builtin, findEncoders (rs.map Builtin.encoder) sigs (sigs.map fun _ => 0) = .ok (es.map Builtin.encoder) ∧
      es.map (fun e => e.encoder.sig) = sigs := by
  induction sigs with
  | nil => exact ⟨[], rfl, rfl⟩
  | cons s sigs ih =>
    obtain ⟨es, i1, i2⟩ := ih fun s hs => h s (by simp [hs])
    obtain ⟨e, he, hs⟩ := h s (by simp)
    obtain ⟨e', f1, f2⟩ := findEncoder_ok s 0 (rs.map Builtin.encoder) none (fun _ _ _ => Nat.zero_le _)
      (Or.inr ⟨e.encoder, List.mem_map.2 ⟨e, he, rfl⟩, hs⟩)
    simp only [reduceCtorEq, false_or, List.mem_map] at f2
    obtain ⟨⟨b, -, rfl⟩, hsig⟩ := f2
    refine ⟨b :: es, ?_, by simp [hsig, i2]⟩
    simp only [List.map_cons, findEncoders, f1, i1]

theorem clean_zeros (sigs : List Bytes) (total : Nat) {v : Bytes} (h : Many Varint (sigs.map fun _ => 0) v) (rest : Bytes) :
    (readVersions sigs.length total).clean (v ++ rest) = some ((sigs.map fun _ => 0, total + v.length, none), rest) := by
  induction sigs generalizing total v with
  | nil => cases h; rfl
  | cons s sigs ih =>
    cases h with
    | cons h1 h2 =>
      simp only [List.append_assoc, List.length_cons, readVersions, Prog.bind_eq]
      rw [Prog.clean_bind_of (clean_varint (n := 0) h1 (by decide) _)]
      simp only
      rw [Prog.clean_bind_of (ih _ h2)]
      simp [Nat.add_assoc]

theorem clean_head (X : Ext) (unmarshal : Bytes → Except Err V1.Recording) (rs : List Builtin)
    (hrs : ∀ s ∈ signatures, ∃ e ∈ rs, e.encoder.sig = s) {sigs : List Bytes} {h : Bytes} (hh : Head sigs h)
    (hl : h.length ≤ sizeLimit) (flag : UInt8) (rest : Bytes) :
    ∃ es : List Builtin, es.map (fun e => e.encoder.sig) = sigs ∧
      (readPrelude X unmarshal (rs.map Builtin.encoder)).clean (h ++ (flag :: rest)) =
        some (.inr (es.map Builtin.encoder, flag, h.length + 1), rest) := by
  cases hh with
  | mk hm h1 h2 =>
    rename_i s v
    obtain ⟨es, e1, e2⟩ := find_sigs rs sigs fun s hs => hrs s (hm s hs)
    refine ⟨es, e2, ?_⟩
    simp only [List.length_cons, List.length_append] at hl
    have hre : (readEncoders (rs.map Builtin.encoder)).clean (s ++ (v ++ (flag :: rest))) =
        some ((.ok (es.map Builtin.encoder), s.length + v.length), flag :: rest) := by
      simp only [readEncoders, Prog.bind_eq]
      rw [Prog.clean_bind_of (clean_table h1 (by omega) _)]
      simp only
      rw [Prog.clean_bind_of (clean_zeros sigs s.length h2 _)]
      simp only [e1, Prog.pure_eq, Prog.clean_pure]
    simp only [List.cons_append, List.append_assoc]
    rw [readPrelude, Prog.clean_read1]
    show ((readEncoders _).bind _).clean _ = _
    rw [Prog.clean_bind_of hre, Prog.clean_read1]
    simp only [List.length_cons, List.length_append, List.length_nil, Prog.clean_pure, List.headD_cons]
    congr 5
    omega

theorem headers_eq {l : List Bytes} {b : Bytes} (h : Many Text l b) (hl : b.length ≤ sizeLimit) :
    b = (l.map bytesArrayToBytes).flatten := by
  induction h with
  | nil => rfl
  | cons h1 _ ih =>
    simp only [List.length_append] at hl
    rw [List.map_cons, List.flatten_cons, ← text_eq' h1 (by omega), ← ih (by omega)]

theorem body_get {sigs : List Bytes} {rec : Rec} {b : Bytes} (h : Body sigs rec b) (hs : sigs.length ≤ sizeLimit)
    (hl : b.length ≤ sizeLimit) (es : List Builtin) (he : es.map (fun e => e.encoder.sig) = sigs) (total : Nat) (rest : Bytes)
    (fin : Err) :
    readBody (es.map Builtin.encoder) total (⟨b ++ rest, fin⟩ : Flat) = .ok ((rec, total + b.length, none), ⟨rest, fin⟩) := by
  cases h with
  | mk hlen h1 h2 h3 =>
    rename_i headers keys h k r
    simp only [List.length_append] at hl
    have hh := headers_eq h1 (by omega)
    have hk := texts_eq h2 (by omega)
    have hkl := table_length h2
    have hel : es.length = headers.length := by rw [hlen, ← he, List.length_map]
    subst hh hk
    have htab := clean_readTables (es.map Builtin.encoder) headers keys total (r ++ rest) (by simpa using hel) (by omega)
    have hT : Loaded ⟨keys, (es.map Builtin.encoder).zip headers, (r ++ rest).length + 2⟩ keys (sigs.zip headers) := by
      refine ⟨rfl, by omega, by rw [List.length_zip]; omega, fun i sig header hi => ?_⟩
      rw [List.getElem?_zip_eq_some] at hi
      obtain ⟨hi1, hi2⟩ := hi
      rw [← he, List.getElem?_map, Option.map_eq_some_iff] at hi1
      obtain ⟨e, e1, e2⟩ := hi1
      refine ⟨e, ?_, e2, ?_⟩
      · show ((es.map Builtin.encoder).zip headers)[i]? = _
        rw [List.getElem?_zip_eq_some]
        exact ⟨by rw [List.getElem?_map, e1]; rfl, hi2⟩
      · have h5 := mem_length_le_flatten bytesArrayToBytes headers (List.mem_of_getElem? hi2)
        have h6 : header.length ≤ (bytesArrayToBytes header).length := by simp [bytesArrayToBytes]
        dsimp only at h5
        omega
    have hrec := recording_get hT h3 ((r ++ rest).length + 2) (by simp; omega) (by simp; omega) (by omega) rest
    simp only [readBody]
    simp only [List.append_assoc]
    rw [Prog.clean_flat fin htab]
    simp only [bind, Except.bind, Drain.rest]
    rw [ER.new, Prog.clean_er fin 0 hrec]
    simp only [List.length_append, Except.ok.injEq, Prod.mk.injEq, and_true, true_and]
    omega

theorem head_length {sigs : List Bytes} {h : Bytes} (hh : Head sigs h) : sigs.length ≤ h.length := by
  cases hh with
  | mk _ h1 _ => have := table_length h1; simp only [List.length_cons, List.length_append]; omega

/-- Reading a file that follows the grammar, with the package's encoders. -/
theorem file_get (F : Flate) (X : Ext) (unmarshal : Bytes → Except Err V1.Recording) (rs : List Builtin)
    (hrs : ∀ s ∈ signatures, ∃ e ∈ rs, e.encoder.sig = s) {rec : Rec} {n : Nat} {file : Bytes} (h : File F rec n file)
    (hn : n ≤ sizeLimit) :
    ∃ s, read F X unmarshal (rs.map Builtin.encoder) (⟨file, .eof⟩ : Flat) = .ok ((rec, n, none), s) := by
  cases h with
  | plain hh hb =>
    rename_i sigs h b
    simp only [List.length_append, List.length_cons] at hn
    have hsl := head_length hh
    obtain ⟨es, e1, e2⟩ := clean_head X unmarshal rs hrs hh (by omega) 0 b
    refine ⟨⟨[], .eof⟩, ?_⟩
    simp only [read, Prog.clean_flat .eof e2, bind, Except.bind]
    rw [if_neg (by decide)]
    have := body_get hb (by omega) (by omega) es e1 (h.length + 1) [] .eof
    rw [List.append_nil] at this
    rw [this]
    simp only [List.length_append, List.length_cons, Except.ok.injEq, Prod.mk.injEq, and_true, true_and]
    omega
  | packed hh hb hz =>
    rename_i sigs h b z
    simp only [List.length_append, List.length_cons] at hn
    have hsl := head_length hh
    obtain ⟨es, e1, e2⟩ := clean_head X unmarshal rs hrs hh (by omega) 1 z
    refine ⟨⟨z, .eof⟩, ?_⟩
    simp only [read, Prog.clean_flat .eof e2, bind, Except.bind]
    have := body_get hb (by omega) (by omega) es e1 (h.length + 1) [] .eof
    rw [List.append_nil] at this
    simp only [if_true, Drain.rest, hz, this]
    simp only [List.length_append, List.length_cons, Except.ok.injEq, Prod.mk.injEq, and_true, true_and]
    omega

end Layout
end Rap
