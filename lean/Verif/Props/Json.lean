import Verif.Props.JsonExact

/-!
# C41, C42, C50: recordings from JSON (format/parsing/json.go)
-/

namespace Rap

variable {X : JsonExt}

/-- The recursion without its termination argument. -/
theorem parseRecording_eq (j : JVal) : parseRecording X j =
    match children j with
    | none => GoE.fail 22
    | some [] => GoE.fail 23
    | some (_ :: _) => (do
      let id ← parseString (some j) b!"id"
      let name ← parseString (some j) b!"name"
      let recs ← parseArray (some j) b!"recordings" (parseRecording X)
      let md ← parseMetadata X (some j)
      let refs ← parseReferences X j
      let colls ← parseCollections X j
      pure (.mk id name (colls.map some) recs md [] (refs.map some))) := by
  have hsub : (match _h : search b!"recordings" j with
      | none => pure []
      | some (.arr items) =>
        GoE.each (fun v : {v // v ∈ items} => if isJSONObj v then parseRecording X v else GoE.fail 17) items.attach
      | some _ => GoE.fail 18) = parseArray (some j) b!"recordings" (parseRecording X) := by
    rw [parseArray, path, Option.bind_some]
    split
    · next h => rw [h]
    · next items h =>
      rw [h]
      exact GoE.each_attach (fun v => if isJSONObj v then parseRecording X v else GoE.fail 17) items
    · next v hv h => 
      rw [h]
      split
      · simp_all
      · simp_all
      · rfl
  rw [parseRecording, ← hsub]
  rfl

theorem keys_of_getMembers : (d : List (Bytes × JVal)) → (kvs : Block) → getMembers X d = pure kvs →
    d.map (·.1) = kvs.map (·.1)
  | [], kvs, h => by
    rw [getMembers, GoE.pure_inj] at h; subst h; rfl
  | (k, v) :: rest, kvs, h => by
    rw [getMembers, GoE.bind_pure_iff] at h
    obtain ⟨p, -, h⟩ := h
    rw [GoE.bind_pure_iff] at h
    obtain ⟨kvs', h', h⟩ := h
    rw [GoE.pure_inj] at h
    subst h
    simp [keys_of_getMembers rest kvs' h']

theorem members_of_block {d : List (Bytes × JVal)} {kvs : Block} (h : getProperties X (.obj d) = pure (.block kvs)) :
    getMembers X d = pure kvs := by
  have hm : (getMembers X d >>= fun kvs => pure (.block kvs)) = (pure (.block kvs) : GoE Property) →
      getMembers X d = pure kvs := by
    intro h
    rw [GoE.bind_pure_iff] at h
    obtain ⟨a, h1, h2⟩ := h
    rw [GoE.pure_inj] at h2
    cases h2
    exact h1
  rw [getProperties] at h
  split at h
  · split at h
    · rw [GoE.bind_pure_iff] at h
      obtain ⟨a, -, h⟩ := h
      rw [GoE.bind_pure_iff] at h
      obtain ⟨b, -, h⟩ := h
      rw [GoE.pure_inj] at h
      cases h
    · split at h
      · split at h
        · rw [GoE.bind_pure_iff] at h
          obtain ⟨a, -, h⟩ := h
          rw [GoE.bind_pure_iff] at h
          obtain ⟨b, -, h⟩ := h
          rw [GoE.bind_pure_iff] at h
          obtain ⟨c, -, h⟩ := h
          rw [GoE.pure_inj] at h
          cases h
        · exact hm h
      · exact hm h
  · exact hm h

theorem unmarshal_pure {d : List (Bytes × JVal)} {md : Block} (h : unmarshalMetadata X d = pure md) :
    getProperties X (.obj d) = pure (.block md) := by
  rw [unmarshalMetadata, GoE.bind_pure_iff] at h
  obtain ⟨p, hp, h⟩ := h
  split at h
  · rw [GoE.pure_inj] at h; subst h; exact hp
  · exact absurd h GoE.fail_ne

/-- What the parser does: the metadata is what the object becomes (C43), and empty if it becomes nothing; sizes below
2^53 are the number given; the members of an enum collection are the texts given, one per capture, and every capture
designates the first. -/
def parserReading (X : JsonExt) : Reading where
  metadata m md := Becomes X (.obj m) (.block md) ∨ (md = [] ∧ ∀ kvs, ¬ Becomes X (.obj m) (.block kvs))
  size x n := n < 2 ^ 53 → number64 x = .fin n
  enum given members caps := members = given.map (·.2) ∧ caps = given.map fun g => (g.1, 0)

theorem parseMetadata_pure (hX : X.Lawful) {d : List (Bytes × JVal)} {md : Block}
    (h : parseMetadata X (some (.obj d)) = pure md) : MetadataMember (parserReading X) d md := by
  rw [parseMetadata, path_obj] at h
  split at h
  · next hn => rw [GoE.pure_inj] at h; subst h; exact .inr ⟨rfl, not_mem_of_mapGet hn⟩
  · next m hm =>
    refine .inl ⟨m, mem_of_mapGet hm, ?_⟩
    split at h
    · exact absurd h GoE.panic_ne
    · next e hu =>
      rw [GoE.pure_inj] at h
      refine .inr ⟨h.symm, fun kvs hb => ?_⟩
      rw [← C43_exact hX] at hb
      have : unmarshalMetadata X m = pure kvs := by rw [unmarshalMetadata, hb]; rfl
      rw [this] at hu
      cases hu
    · next md' hu =>
      rw [GoE.pure_inj] at h
      subst h
      exact .inl ((C43_exact hX _ _).1 (unmarshal_pure (GoE.run_inj hu)))
  · exact absurd h GoE.fail_ne

theorem parseReference_pure (hX : X.Lawful) {j : JVal} {r : BinRef} (h : parseReference X j = pure r) :
    DescribesRef (parserReading X) j r := by
  rw [parseReference, GoE.bind_pure_iff] at h
  obtain ⟨name, hn, h⟩ := h
  obtain ⟨d, rfl, gn⟩ := parseString_pure hn
  rw [GoE.bind_pure_iff] at h
  obtain ⟨uri, hu, h⟩ := h
  obtain ⟨d', hd', hu⟩ := parseString_pure hu
  cases hd'
  rw [GoE.bind_pure_iff] at h
  obtain ⟨md, hm, h⟩ := h
  split at h
  · next x hx =>
    rw [path_obj] at hx
    rw [GoE.bind_pure_iff] at h
    obtain ⟨size, hs, h⟩ := h
    rw [GoE.get_pure] at hs
    split at h
    · exact absurd h GoE.fail_ne
    · next hneg =>
      rw [GoE.pure_inj] at h
      subst h
      obtain ⟨h1, h2⟩ := hX.atoi_range x size hs
      have hsz : u64 size.toNat = size.toNat := by unfold u64; omega
      refine ⟨d, x, rfl, mem_of_mapGet gn, mem_of_mapGet hu, mem_of_mapGet hx, ?_, parseMetadata_pure hX hm⟩
      intro hlt
      dsimp only at hlt ⊢
      rw [hsz] at hlt ⊢
      have := hX.atoi_only x size hs (by omega)
      rw [this, Number.fin.injEq]
      have e : ((size.toNat : Nat) : Int) = size := by omega
      exact_mod_cast congrArg (Int.cast (R := ℚ)) e.symm
  · exact absurd h GoE.fail_ne

theorem parseArray_pure {α : Type} {R : JVal → α → Prop} {d : List (Bytes × JVal)} {key : Bytes} {f : JVal → GoE α}
    {l : List α} (h : parseArray (some (.obj d)) key f = pure l) (hR : ∀ items, (key, .arr items) ∈ d → ∀ v ∈ items,
      ∀ a, f v = pure a → R v a) : ∃ items, ArrayMember d key items ∧ List.Forall₂ R items l := by
  rw [parseArray, path_obj] at h
  split at h
  · next hn =>
    rw [GoE.pure_inj] at h
    subst h
    exact ⟨[], .inr ⟨rfl, not_mem_of_mapGet hn⟩, .nil⟩
  · next items hi =>
    rw [GoE.each_pure] at h
    refine ⟨items, .inl (mem_of_mapGet hi), ?_⟩
    have hR' := hR items (mem_of_mapGet hi)
    clear hR hi
    induction h with
    | nil => exact .nil
    | @cons v a vs as h1 h2 ih =>
      refine .cons ?_ (ih fun v hv => hR' v (by simp [hv]))
      split at h1
      · exact hR' v (by simp) a h1
      · exact absurd h1 GoE.fail_ne
  · exact absurd h GoE.fail_ne

theorem parseVectorCapture_pure {j : JVal} {c : F64 × V3} (h : parseVectorCapture j = pure c) : DescribesVector j c := by
  rw [parseVectorCapture, GoE.bind_pure_iff] at h
  obtain ⟨t, ht, h⟩ := h
  obtain ⟨d, rfl, gt⟩ := parseCaptureTime_pure ht
  rw [GoE.bind_pure_iff] at h
  obtain ⟨v, hv, h⟩ := h
  rw [GoE.pure_inj] at h
  subst h
  rw [parseVector3, GoE.bind_pure_iff] at hv
  obtain ⟨x, hx, hv⟩ := hv
  rw [GoE.bind_pure_iff] at hv
  obtain ⟨y, hy, hv⟩ := hv
  rw [GoE.bind_pure_iff] at hv
  obtain ⟨z, hz, hv⟩ := hv
  rw [GoE.pure_inj] at hv
  subst hv
  obtain ⟨e, he, hx⟩ := parseFloat_pure hx
  obtain ⟨e', he', hy⟩ := parseFloat_pure hy
  obtain ⟨e'', he'', hz⟩ := parseFloat_pure hz
  rw [he] at he' he''
  cases he'
  cases he''
  rw [path_obj] at he
  exact ⟨d, e, rfl, mem_of_mapGet gt, mem_of_mapGet he, mem_of_mapGet hx, mem_of_mapGet hy, mem_of_mapGet hz⟩

theorem parseEventCapture_pure {R : Reading}
    (hM : ∀ d md, parseMetadata X (some (.obj d)) = pure md → MetadataMember R d md)
    {j : JVal} {c : F64 × Bytes × Block} (h : parseEventCapture X j = pure c) : DescribesEvent R j c := by
  rw [parseEventCapture, GoE.bind_pure_iff] at h
  obtain ⟨t, ht, h⟩ := h
  obtain ⟨d, rfl, gt⟩ := parseCaptureTime_pure ht
  rw [path_obj] at h
  split at h
  · exact absurd h GoE.fail_ne
  · next data hd =>
    rw [GoE.bind_pure_iff] at h
    obtain ⟨name, hn, h⟩ := h
    obtain ⟨e, rfl, gn⟩ := parseString_pure hn
    rw [GoE.bind_pure_iff] at h
    obtain ⟨md, hm, h⟩ := h
    rw [GoE.pure_inj] at h
    subst h
    exact ⟨d, e, rfl, mem_of_mapGet gt, mem_of_mapGet hd, mem_of_mapGet gn, hM _ _ hm⟩

theorem parseEnumCaptures_pure : (l : List JVal) → (entries : List Bytes) → (ms : List Bytes) →
    (caps : List (F64 × BitVec 64)) → parseEnumCaptures [] entries l = pure (ms, caps) →
    ∃ given, List.Forall₂ DescribesEnum l given ∧ ms = entries ++ given.map (·.2) ∧
      caps = given.map fun g => (g.1, 0)
  | [], entries, ms, caps, h => by
    rw [parseEnumCaptures, GoE.pure_inj] at h
    cases h
    exact ⟨[], .nil, by simp, rfl⟩
  | j :: rest, entries, ms, caps, h => by
    rw [parseEnumCaptures, GoE.bind_pure_iff] at h
    obtain ⟨t, ht, h⟩ := h
    obtain ⟨d, rfl, gt⟩ := parseCaptureTime_pure ht
    rw [GoE.bind_pure_iff] at h
    obtain ⟨s, hs, h⟩ := h
    obtain ⟨d', hd', hs⟩ := parseString_pure hs
    cases hd'
    simp only [mapGet] at h
    rw [GoE.bind_pure_iff] at h
    obtain ⟨⟨ms', caps'⟩, h', h⟩ := h
    rw [GoE.pure_inj] at h
    cases h
    obtain ⟨given, h1, h2, h3⟩ := parseEnumCaptures_pure rest _ _ _ h'
    refine ⟨(t, s) :: given, .cons ⟨d, rfl, mem_of_mapGet gt, mem_of_mapGet hs⟩ h1, ?_, ?_⟩
    · rw [h2]; simp
    · rw [h3]; rfl

theorem each_forall₂ {α β : Type} {R : α → β → Prop} {f : α → GoE β} {l : List α} {r : List β} (h : GoE.each f l = pure r)
    (hR : ∀ a b, f a = pure b → R a b) : List.Forall₂ R l r := by
  rw [GoE.each_pure] at h
  exact h.imp hR

theorem parseCollection_pure {R : Reading}
    (hM : ∀ d md, parseMetadata X (some (.obj d)) = pure md → MetadataMember R d md)
    (hE : ∀ given, R.enum given (given.map (·.2)) (given.map fun g => (g.1, 0))) {j : JVal} {c : Coll}
    (h : parseCollection X j = pure c) : DescribesColl R j c := by
  rw [parseCollection, GoE.bind_pure_iff] at h
  obtain ⟨name, hn, h⟩ := h
  obtain ⟨d, rfl, gn⟩ := parseString_pure hn
  rw [GoE.bind_pure_iff] at h
  obtain ⟨type, ht, h⟩ := h
  obtain ⟨d', hd', ht⟩ := parseString_pure ht
  cases hd'
  rw [path_obj] at h
  split at h
  · next items hi =>
    split at h
    · next hty =>
      rw [GoE.bind_pure_iff] at h
      obtain ⟨caps, hc, h⟩ := h
      rw [GoE.pure_inj] at h
      subst h hty
      exact ⟨d, items, rfl, mem_of_mapGet gn, mem_of_mapGet ht, mem_of_mapGet hi,
        each_forall₂ hc fun _ _ => parseVectorCapture_pure⟩
    split at h
    · next hty =>
      rw [GoE.bind_pure_iff] at h
      obtain ⟨caps, hc, h⟩ := h
      rw [GoE.pure_inj] at h
      subst h hty
      exact ⟨d, items, rfl, mem_of_mapGet gn, mem_of_mapGet ht, mem_of_mapGet hi,
        each_forall₂ hc fun _ _ => parseVectorCapture_pure⟩
    split at h
    · next hty =>
      rw [GoE.bind_pure_iff] at h
      obtain ⟨caps, hc, h⟩ := h
      rw [GoE.pure_inj] at h
      subst h hty
      exact ⟨d, items, rfl, mem_of_mapGet gn, mem_of_mapGet ht, mem_of_mapGet hi,
        each_forall₂ hc fun _ _ => parseEventCapture_pure hM⟩
    split at h
    · next hty =>
      rw [parseEnumCollection, GoE.bind_pure_iff] at h
      obtain ⟨⟨ms, caps⟩, hc, h⟩ := h
      rw [GoE.pure_inj] at h
      subst h hty
      obtain ⟨given, h1, h2, h3⟩ := parseEnumCaptures_pure _ _ _ _ hc
      exact ⟨d, items, rfl, mem_of_mapGet gn, mem_of_mapGet ht, mem_of_mapGet hi, given, h1, by rw [h2, h3]; exact hE given⟩
    · exact absurd h GoE.fail_ne
  · exact absurd h GoE.fail_ne

theorem parseRecording_pure (hX : X.Lawful) (n : Nat) : ∀ (j : JVal), sizeOf j < n → ∀ {r : Rec},
    parseRecording X j = pure r → Describes (parserReading X) j r := by
  induction n with
  | zero => intro j h; omega
  | succ n ih =>
    intro j hj r h
    rw [parseRecording_eq] at h
    split at h
    · exact absurd h GoE.fail_ne
    · exact absurd h GoE.fail_ne
    · rw [GoE.bind_pure_iff] at h
      obtain ⟨id, hid, h⟩ := h
      obtain ⟨d, rfl, gid⟩ := parseString_pure hid
      rw [GoE.bind_pure_iff] at h
      obtain ⟨name, hn, h⟩ := h
      obtain ⟨d', hd', hn⟩ := parseString_pure hn
      cases hd'
      rw [GoE.bind_pure_iff] at h
      obtain ⟨recs, hr, h⟩ := h
      rw [GoE.bind_pure_iff] at h
      obtain ⟨md, hm, h⟩ := h
      rw [GoE.bind_pure_iff] at h
      obtain ⟨refs, hf, h⟩ := h
      rw [GoE.bind_pure_iff] at h
      obtain ⟨colls, hc, h⟩ := h
      rw [GoE.pure_inj] at h
      subst h
      obtain ⟨subs, hs1, hs2⟩ := parseArray_pure (R := Describes (parserReading X)) hr (by
        intro items hi v hv a ha
        refine ih v ?_ ha
        have h1 := List.sizeOf_lt_of_mem hi
        have h2 := List.sizeOf_lt_of_mem hv
        simp only [Prod.mk.sizeOf_spec, JVal.arr.sizeOf_spec] at h1
        simp only [JVal.obj.sizeOf_spec] at hj
        omega)
      obtain ⟨refNodes, hf1, hf2⟩ := parseArray_pure hf fun _ _ _ _ _ => parseReference_pure hX
      obtain ⟨collNodes, hc1, hc2⟩ := parseArray_pure hc fun _ _ _ _ _ => parseCollection_pure
        (fun _ _ => parseMetadata_pure hX) fun _ => ⟨rfl, rfl⟩
      exact .mk (mem_of_mapGet gid) (mem_of_mapGet hn) hs1 hs2 (parseMetadata_pure hX hm) hf1 hf2 hc1 hc2

/-- C50: a recording parsed from JSON is the one the document describes: identifier, name, sub-recordings, references,
collections and captures, in the order of the document. Metadata is exactly what C43 says, or dropped if an item of it is
refused (C42); enum captures all designate the first member (C41). -/
theorem C50_parsed (hX : X.Lawful) {j : JVal} {r : Rec} (h : fromJSON X (.ok j) = pure r) :
    Describes (parserReading X) j r :=
  parseRecording_pure hX _ j (Nat.lt_succ_self _) h

/-! ## Documents that are accepted -/

theorem proper_member {d : List (Bytes × JVal)} (h : properMembers d) {k : Bytes} {v : JVal} (hv : (k, v) ∈ d) : v.Proper := by
  induction d with
  | nil => simp at hv
  | cons p rest ih =>
    obtain ⟨k', v'⟩ := p
    rw [properMembers] at h
    rcases List.mem_cons.1 hv with he | hv
    · cases he; exact h.1
    · exact ih h.2 hv

theorem proper_item {l : List JVal} (h : properItems l) {v : JVal} (hv : v ∈ l) : v.Proper := by
  induction l with
  | nil => simp at hv
  | cons p rest ih =>
    rw [properItems] at h
    rcases List.mem_cons.1 hv with he | hv
    · subst he; exact h.1
    · exact ih h.2 hv

theorem proper_obj {d : List (Bytes × JVal)} (h : (JVal.obj d).Proper) :
    (d.map (·.1)).Nodup ∧ ∀ k v, (k, v) ∈ d → v.Proper := by
  rw [JVal.Proper] at h
  exact ⟨h.1, fun k v hv => proper_member h.2 hv⟩

theorem proper_arr {l : List JVal} (h : (JVal.arr l).Proper) : ∀ v ∈ l, v.Proper := by
  rw [JVal.Proper] at h
  exact fun v hv => proper_item h hv

/-- The documented reading: metadata by the rules of C43, exact sizes. Enum captures are read as the parser does (C41). -/
def documentReading (X : JsonExt) : Reading where
  metadata m md := Means X (.obj m) (.block md)
  size x n := number64 x = .fin n ∧ n ≤ 2 ^ 53
  enum given members caps := members = given.map (·.2) ∧ caps = given.map fun g => (g.1, 0)

theorem parseString_member {d : List (Bytes × JVal)} (hd : (d.map (·.1)).Nodup) {k s : Bytes} (h : (k, .str s) ∈ d) :
    parseString (some (.obj d)) k = pure s := by
  rw [parseString, path_obj, mapGet_of_mem hd h]

theorem parseFloat_member {d : List (Bytes × JVal)} (hd : (d.map (·.1)).Nodup) {k : Bytes} {x : F64} (h : (k, .num x) ∈ d) :
    parseFloat (some (.obj d)) k = pure x := by
  rw [parseFloat, path_obj, mapGet_of_mem hd h]

theorem parseTime_member {d : List (Bytes × JVal)} (hd : (d.map (·.1)).Nodup) {x : F64} (h : (b!"time", .num x) ∈ d) :
    parseCaptureTime (some (.obj d)) = pure x := by
  rw [parseCaptureTime, path_obj, mapGet_of_mem hd h]

theorem unmarshal_means (hX : X.Lawful) {m : List (Bytes × JVal)} {md : Block} (h : Means X (.obj m) (.block md)) :
    unmarshalMetadata X m = pure md := by
  rw [unmarshalMetadata, C43_kinds_partial hX h]; rfl

theorem parseMetadata_member (hX : X.Lawful) {d : List (Bytes × JVal)} (hd : (d.map (·.1)).Nodup) {md : Block}
    (h : MetadataMember (documentReading X) d md) : parseMetadata X (some (.obj d)) = pure md := by
  rw [parseMetadata, path_obj]
  rcases h with ⟨m, hm, h⟩ | ⟨rfl, h⟩
  · rw [mapGet_of_mem hd hm]
    dsimp only
    rw [unmarshal_means hX h]; rfl
  · rw [mapGet_none h]

theorem parseArray_member {α : Type} {d : List (Bytes × JVal)} (hd : (d.map (·.1)).Nodup) {key : Bytes}
    {f : JVal → GoE α} {items : List JVal} {l : List α} (h : ArrayMember d key items)
    (hf : List.Forall₂ (fun v a => isJSONObj v = true ∧ f v = pure a) items l) :
    parseArray (some (.obj d)) key f = pure l := by
  rw [parseArray, path_obj]
  rcases h with h | ⟨rfl, h⟩
  · rw [mapGet_of_mem hd h]
    exact (GoE.each_pure items).2 (hf.imp fun v a h => by rw [if_pos h.1]; exact h.2)
  · rw [mapGet_none h]
    cases hf
    rfl

theorem forall₂_mem {α β : Type} {R S : α → β → Prop} {l : List α} {r : List β} (h : List.Forall₂ R l r)
    (hS : ∀ a ∈ l, ∀ b, R a b → S a b) : List.Forall₂ S l r := by
  induction h with
  | nil => exact .nil
  | cons h1 _ ih => exact .cons (hS _ (by simp) _ h1) (ih fun a ha => hS a (by simp [ha]))

theorem parseReference_member (hX : X.Lawful) {j : JVal} (hj : j.Proper) {r : BinRef}
    (h : DescribesRef (documentReading X) j r) : isJSONObj j = true ∧ parseReference X j = pure r := by
  obtain ⟨d, x, rfl, h1, h2, h3, ⟨h4, h5⟩, h6⟩ := h
  obtain ⟨hd, -⟩ := proper_obj hj
  refine ⟨rfl, ?_⟩
  rw [parseReference, parseString_member hd h1, pure_bind, parseString_member hd h2, pure_bind,
    parseMetadata_member hX hd h6, pure_bind, path_obj, mapGet_of_mem hd h3]
  dsimp only
  have h4' : number64 x = .fin ((r.size : Int) : ℚ) := by rw [h4]; push_cast; rfl
  rw [hX.atoi_exact x r.size h4' (by rwa [Int.natAbs_natCast])]
  simp only [GoE.get, pure_bind]
  rw [if_neg (by omega)]
  have : u64 (r.size : Int).toNat = r.size := by
    rw [Int.toNat_natCast, u64, Nat.mod_eq_of_lt (by omega)]
  rw [this]

theorem parseVectorCapture_member {j : JVal} (hj : j.Proper) {c : F64 × V3} (h : DescribesVector j c) :
    parseVectorCapture j = pure c := by
  obtain ⟨d, e, rfl, h1, h2, h3, h4, h5⟩ := h
  obtain ⟨hd, hp⟩ := proper_obj hj
  obtain ⟨he, -⟩ := proper_obj (hp _ _ h2)
  rw [parseVectorCapture, parseTime_member hd h1, pure_bind, path_obj, mapGet_of_mem hd h2, parseVector3,
    parseFloat_member he h3, pure_bind, parseFloat_member he h4, pure_bind, parseFloat_member he h5]
  rfl

theorem parseEventCapture_member (hX : X.Lawful) {j : JVal} (hj : j.Proper) {c : F64 × Bytes × Block}
    (h : DescribesEvent (documentReading X) j c) : parseEventCapture X j = pure c := by
  obtain ⟨d, e, rfl, h1, h2, h3, h4⟩ := h
  obtain ⟨hd, hp⟩ := proper_obj hj
  obtain ⟨he, -⟩ := proper_obj (hp _ _ h2)
  rw [parseEventCapture, parseTime_member hd h1, pure_bind, path_obj, mapGet_of_mem hd h2]
  dsimp only
  rw [parseString_member he h3, pure_bind, parseMetadata_member hX he h4]
  rfl

theorem parseEnumCaptures_member {l : List JVal} {given : List (F64 × Bytes)} (h : List.Forall₂ DescribesEnum l given) :
    (∀ v ∈ l, v.Proper) → ∀ entries, parseEnumCaptures [] entries l =
      pure (entries ++ given.map (·.2), given.map fun g => (g.1, 0)) := by
  induction h with
  | nil => intro _ entries; rw [parseEnumCaptures]; simp
  | @cons j g _ _ h1 _ ih =>
    intro hp entries
    obtain ⟨d, rfl, h2, h3⟩ := h1
    obtain ⟨hd, -⟩ := proper_obj (hp (.obj d) (by simp))
    rw [parseEnumCaptures, parseTime_member hd h2, pure_bind, parseString_member hd h3, pure_bind]
    simp only [mapGet]
    rw [ih (fun v hv => hp v (by simp [hv])), pure_bind]
    simp

theorem parseCollection_member (hX : X.Lawful) {j : JVal} (hj : j.Proper) {c : Coll}
    (h : DescribesColl (documentReading X) j c) : isJSONObj j = true ∧ parseCollection X j = pure c := by
  obtain ⟨d, items, rfl, h1, h2, h3, h4⟩ := h
  obtain ⟨hd, hp⟩ := proper_obj hj
  have hi := proper_arr (hp _ _ h3)
  refine ⟨rfl, ?_⟩
  rw [parseCollection, parseString_member hd h1, pure_bind, parseString_member hd h2, pure_bind, path_obj,
    mapGet_of_mem hd h3]
  dsimp only
  cases c with
  | position n caps =>
    rw [Coll.sig, if_pos rfl, (GoE.each_pure items).2 (forall₂_mem h4 fun v hv _ => parseVectorCapture_member (hi v hv))]
    rfl
  | euler n caps =>
    rw [Coll.sig, if_neg (by decide), if_pos rfl,
      (GoE.each_pure items).2 (forall₂_mem h4 fun v hv _ => parseVectorCapture_member (hi v hv))]
    rfl
  | event n caps =>
    rw [Coll.sig, if_neg (by decide), if_neg (by decide), if_pos rfl,
      (GoE.each_pure items).2 (forall₂_mem h4 fun v hv _ => parseEventCapture_member hX (hi v hv))]
    rfl
  | enum n ms caps =>
    obtain ⟨given, h5, rfl, rfl⟩ := h4
    rw [Coll.sig, if_neg (by decide), if_neg (by decide), if_neg (by decide), if_pos rfl, parseEnumCollection,
      parseEnumCaptures_member h5 hi]
    rfl
  | float _ _ => exact h4.elim
  | other _ _ _ => exact h4.elim

/-- C50: every document of the documented form is accepted and gives the recording it describes. -/
theorem C50_accepted (hX : X.Lawful) {j : JVal} {r : Rec} (hj : j.Proper) (h : Describes (documentReading X) j r) :
    fromJSON X (.ok j) = pure r := by
  refine Describes.rec (motive_1 := fun j r _ => j.Proper → parseRecording X j = pure r)
    (motive_2 := fun l rs _ => (∀ v ∈ l, v.Proper) →
      List.Forall₂ (fun v r => isJSONObj v = true ∧ parseRecording X v = pure r) l rs) ?_ ?_ ?_ h hj
  · intro d id name subs refNodes collNodes recs md refs colls h1 h2 h3 h4 h5 h6 h7 h8 h9 ih hj
    obtain ⟨hd, hp⟩ := proper_obj hj
    have harr : ∀ {k l}, ArrayMember d k l → ∀ v ∈ l, v.Proper := by
      rintro k l (h | ⟨rfl, -⟩)
      · exact proper_arr (hp _ _ h)
      · simp
    have hc : ∃ v vs, children (.obj d) = some (v :: vs) := by
      cases d with
      | nil => simp at h1
      | cons p rest => exact ⟨_, _, rfl⟩
    obtain ⟨v, vs, hc⟩ := hc
    rw [parseRecording_eq, hc]
    dsimp only
    rw [parseString_member hd h1, pure_bind, parseString_member hd h2, pure_bind,
      parseArray_member hd h3 (ih (harr h3)), pure_bind, parseMetadata_member hX hd h5, pure_bind, parseReferences,
      parseArray_member hd h6 (forall₂_mem h7 fun v hv _ => parseReference_member hX (harr h6 v hv)), pure_bind,
      parseCollections,
      parseArray_member hd h8 (forall₂_mem h9 fun v hv _ => parseCollection_member hX (harr h8 v hv)), pure_bind]
  · intro _; exact .nil
  · intro a b l1 l2 h1 h2 ih1 ih2 hp
    refine .cons ⟨?_, ih1 (hp a (by simp))⟩ (ih2 fun v hv => hp v (by simp [hv]))
    cases h1
    rfl

/-! ## C41: enum captures -/

/-- C41: the members of a parsed enum collection are the texts of the captures, in order and with repetitions; whatever
a capture says, it designates the text of the first capture. -/
theorem C41_first_member {j : JVal} {name : Bytes} {ms : List Bytes} {caps : List (F64 × BitVec 64)}
    (h : parseCollection X j = pure (.enum name ms caps)) :
    ∃ d items given, j = .obj d ∧ (b!"captures", .arr items) ∈ d ∧ List.Forall₂ DescribesEnum items given ∧
      caps.map (·.1) = given.map (·.1) ∧ ∀ c ∈ caps, ms[c.2.toNat]? = given.head?.map (·.2) := by
  obtain ⟨d, items, hj, -, -, h3, given, h4, rfl, rfl⟩ := parseCollection_pure (R := {
    metadata := fun _ _ => True, size := fun _ _ => True,
    enum := fun given members caps => members = given.map (·.2) ∧ caps = given.map fun g => (g.1, 0) })
    (fun d md hm => by
      rw [parseMetadata, path_obj] at hm
      split at hm
      · next hn => exact .inr ⟨(GoE.pure_inj.1 hm).symm, not_mem_of_mapGet hn⟩
      · next m hg => exact .inl ⟨m, mem_of_mapGet hg, trivial⟩
      · exact absurd hm GoE.fail_ne) (fun _ => ⟨rfl, rfl⟩) h
  refine ⟨d, items, given, hj, h3, h4, by simp, ?_⟩
  intro c hc
  obtain ⟨g, hg, rfl⟩ := List.mem_map.1 hc
  simp [List.head?_eq_getElem?]

/-- C41 holds for collections with one member: when all captures give the same text, each designates it. -/
theorem C41_one_member_partial {j : JVal} {name s : Bytes} {ms : List Bytes} {caps : List (F64 × BitVec 64)}
    {d : List (Bytes × JVal)} {items : List JVal} (hj : j.Proper) (hd : j = .obj d) (hi : (b!"captures", .arr items) ∈ d)
    (hs : ∀ v ∈ items, ∀ e t, v = .obj e → (b!"data", .str t) ∈ e → t = s)
    (h : parseCollection X j = pure (.enum name ms caps)) : ∀ c ∈ caps, ms[c.2.toNat]? = some s := by
  obtain ⟨d', items', given, hd', hi', hg, ht, hm⟩ := C41_first_member h
  rw [hd] at hd' hj
  cases hd'
  have : items' = items := by
    have h1 := mapGet_of_mem (proper_obj hj).1 hi
    have h2 := mapGet_of_mem (proper_obj hj).1 hi'
    rw [h1] at h2
    cases h2
    rfl
  subst this
  intro c hc
  rw [hm c hc]
  cases hg with
  | nil => simp at ht; subst ht; simp at hc
  | @cons v g vs gs h1 h2 =>
    obtain ⟨e, rfl, -, h3⟩ := h1
    have := hs _ (by simp) e g.2 rfl h3
    simp [this]

/-- A capture of an enum collection. -/
def enumCapture (t : F64) (s : Bytes) : JVal := .obj [(b!"time", .num t), (b!"data", .str s)]

/-- An enum collection with the texts `l`, all at time 0. -/
def enumDocument (l : List Bytes) : JVal :=
  .obj [(b!"name", .str b!"state"), (b!"type", .str sigEnum), (b!"captures", .arr (l.map (enumCapture 0)))]

/-- The collection on, on: both captures designate the text given. -/
example : parseCollection X (enumDocument [b!"on", b!"on"]) =
    pure (.enum b!"state" [b!"on", b!"on"] [(0, 0), (0, 0)]) := by
  rfl

/-- C41 fails: of the captures on, off the second designates the member on. -/
theorem C41_wrong_member : ∃ j name ms caps, parseCollection X j = pure (.enum name ms caps) ∧
    (∃ d items, j = .obj d ∧ (b!"captures", .arr items) ∈ d ∧
      List.Forall₂ DescribesEnum items [(0, b!"on"), (0, b!"off")]) ∧
    caps.map (fun c => ms[c.2.toNat]?) = [some b!"on", some b!"on"] := by
  refine ⟨enumDocument [b!"on", b!"off"], b!"state", [b!"on", b!"off"], [(0, 0), (0, 0)], rfl,
    ⟨_, [enumCapture 0 b!"on", enumCapture 0 b!"off"], rfl, by simp [enumCapture], ?_⟩, rfl⟩
  exact .cons ⟨_, rfl, by simp, by simp⟩ (.cons ⟨_, rfl, by simp, by simp⟩ .nil)

/-! ## C42: metadata -/

/-- The metadata of a recording. -/
def Rec.metadata : Rec → Block
  | .nil => []
  | .mk _ _ _ _ md _ _ => md

theorem parseMetadata_of_recording {j : JVal} {r : Rec} (h : fromJSON X (.ok j) = pure r) :
    ∃ d, j = .obj d ∧ parseMetadata X (some (.obj d)) = pure r.metadata := by
  rw [fromJSON, parseRecording_eq] at h
  split at h
  · exact absurd h GoE.fail_ne
  · exact absurd h GoE.fail_ne
  · rw [GoE.bind_pure_iff] at h
    obtain ⟨id, hid, h⟩ := h
    obtain ⟨d, rfl, -⟩ := parseString_pure hid
    simp only [GoE.bind_pure_iff, GoE.pure_inj] at h
    obtain ⟨name, -, recs, -, md, hm, refs, -, colls, -, rfl⟩ := h
    exact ⟨d, rfl, hm⟩

/-- C42: a recording with metadata that has a meaning gets exactly that metadata, with the keys of the object. -/
theorem C42_kept_partial (hX : X.Lawful) {d m : List (Bytes × JVal)} {md : Block} {r : Rec} (hd : (d.map (·.1)).Nodup)
    (hm : (b!"metadata", .obj m) ∈ d) (h : Means X (.obj m) (.block md)) (hr : fromJSON X (.ok (.obj d)) = pure r) :
    r.metadata = md ∧ md.map (·.1) = m.map (·.1) := by
  obtain ⟨d', hd', hp⟩ := parseMetadata_of_recording hr
  cases hd'
  rw [parseMetadata_member (md := md) hX hd (.inl ⟨m, hm, h⟩), GoE.pure_inj] at hp
  exact ⟨hp.symm, (keys_of_getMembers _ _ (members_of_block (C43_kinds_partial hX h))).symm⟩

/-- C42: metadata that is not an object is an error. -/
theorem C42_not_object {d : List (Bytes × JVal)} {v : JVal} {r : Rec} (hd : (d.map (·.1)).Nodup)
    (hm : (b!"metadata", v) ∈ d) (hv : ∀ m, v ≠ .obj m) : fromJSON X (.ok (.obj d)) ≠ pure r := by
  intro hr
  obtain ⟨d', hd', hp⟩ := parseMetadata_of_recording hr
  cases hd'
  rw [parseMetadata, path_obj, mapGet_of_mem hd hm] at hp
  cases v with
  | obj m => exact hv m rfl
  | _ => exact absurd hp GoE.fail_ne

/-- C42 fails: metadata that cannot be represented is dropped without an error, whatever else the document says. -/
theorem C42_dropped {d m : List (Bytes × JVal)} {r : Rec} {n : Nat} (hd : (d.map (·.1)).Nodup)
    (hm : (b!"metadata", .obj m) ∈ d) (h : getProperties X (.obj m) = GoE.fail n)
    (hr : fromJSON X (.ok (.obj d)) = pure r) : r.metadata = [] := by
  obtain ⟨d', hd', hp⟩ := parseMetadata_of_recording hr
  cases hd'
  have : unmarshalMetadata X m = GoE.fail n := by rw [unmarshalMetadata, h]; rfl
  rw [parseMetadata, path_obj, mapGet_of_mem hd hm] at hp
  dsimp only at hp
  rw [this] at hp
  exact (GoE.pure_inj.1 hp).symm

/-- A recording without a name whose metadata is `m`. -/
def metadataDocument (m : List (Bytes × JVal)) : List (Bytes × JVal) :=
  [(b!"id", .str []), (b!"name", .str []), (b!"metadata", .obj m)]

theorem metadataDocument_describes {m : List (Bytes × JVal)} {md : Block} (h : Means X (.obj m) (.block md)) :
    Describes (documentReading X) (.obj (metadataDocument m)) (.mk [] [] [] [] md [] []) := by
  have hno : ∀ k ∈ [b!"recordings", b!"references", b!"collections"], ∀ v : JVal, (k, v) ∉ metadataDocument m := by
    intro k hk v hv
    have : k ∈ (metadataDocument m).map (·.1) := List.mem_map.2 ⟨_, hv, rfl⟩
    change k ∈ [b!"id", b!"name", b!"metadata"] at this
    revert this
    exact (by decide : ∀ k ∈ [b!"recordings", b!"references", b!"collections"], k ∉ [b!"id", b!"name", b!"metadata"]) k hk
  exact Describes.mk (subs := []) (refNodes := []) (collNodes := []) (refs := []) (colls := []) (by simp [metadataDocument])
    (by simp [metadataDocument])
    (.inr ⟨rfl, hno _ (by simp)⟩) .nil (.inl ⟨m, by simp [metadataDocument], h⟩) (.inr ⟨rfl, hno _ (by simp)⟩) .nil
    (.inr ⟨rfl, hno _ (by simp)⟩) .nil

/-- The sample object as metadata of a recording. -/
example : ∃ r, fromJSON sampleJson (.ok (.obj (metadataDocument sampleObject))) = pure r ∧ r.metadata = sampleBlock := by
  refine ⟨_, C50_accepted sampleJson_lawful ?_ (metadataDocument_describes sampleObject_means), rfl⟩
  simp only [metadataDocument, sampleObject, JVal.Proper, properMembers, properItems]
  decide

/-- A count of 3000000000 and a note: both are lost. -/
example : ∃ r, fromJSON sampleJson (.ok (.obj (metadataDocument
    [(b!"note", .str b!"kept?"), (b!"count", .num 0x41E65A0BC0000000)]))) = pure r ∧ r.metadata = [] := by
  have h : getMembers sampleJson [(b!"note", .str b!"kept?"), (b!"count", .num 0x41E65A0BC0000000)] = GoE.fail 7 := by
    have h1 : stringProperty sampleJson b!"kept?" = pure (.str b!"kept?") :=
      string_text (by decide) (by decide) (by unfold PlainText; decide)
    have h2 : numberProperty sampleJson 0x41E65A0BC0000000 = GoE.fail 7 := by
      rw [numberProperty, if_pos (by decide +kernel), if_neg (by decide +kernel)]
    rw [getMembers, getMembers, getProperties, getProperties, h1, h2]
    rfl
  have hu : unmarshalMetadata sampleJson [(b!"note", .str b!"kept?"), (b!"count", .num 0x41E65A0BC0000000)] =
      GoE.fail 7 := by
    rw [unmarshalMetadata, getProperties]
    simp only [mapGet]
    rw [if_neg (by decide), if_neg (by decide)]
    dsimp only
    rw [h]
    rfl
  have hm : parseMetadata sampleJson (some (.obj (metadataDocument
      [(b!"note", .str b!"kept?"), (b!"count", .num 0x41E65A0BC0000000)]))) = pure [] := by
    rw [parseMetadata, path_obj]
    have : mapGet (metadataDocument [(b!"note", .str b!"kept?"), (b!"count", .num 0x41E65A0BC0000000)]) b!"metadata" =
        some (.obj [(b!"note", .str b!"kept?"), (b!"count", .num 0x41E65A0BC0000000)]) := rfl
    rw [this]
    dsimp only
    rw [hu]
    rfl
  refine ⟨.mk [] [] [] [] [] [] [], ?_, rfl⟩
  rw [fromJSON, parseRecording_eq, hm]
  rfl

/-- Metadata 1. -/
example : fromJSON sampleJson (.ok (.obj [(b!"id", .str []), (b!"name", .str []), (b!"metadata", .num 0x3FF0000000000000)])) =
    GoE.fail 10 := by
  rw [fromJSON, parseRecording_eq]; rfl

/-! ## A document with a sub-recording, a reference and two collections -/

/-- `{"id": "c", "name": "child", "collections": [{"name": "p", "type": "recolude.position", "captures":
[{"time": 1, "data": {"z": 0.5, "x": 1, "y": 2}}]}]}` -/
def childDocument : List (Bytes × JVal) :=
  [(b!"id", .str b!"c"), (b!"name", .str b!"child"), (b!"collections", .arr [.obj
    [(b!"name", .str b!"p"), (b!"type", .str sigPosition), (b!"captures", .arr [.obj
      [(b!"time", .num 0x3FF0000000000000), (b!"data", .obj [(b!"z", .num 0x3FE0000000000000),
        (b!"x", .num 0x3FF0000000000000), (b!"y", .num 0x4000000000000000)])]])]])]

/-- `{"id": "r", "name": "root", "metadata": .., "recordings": [..], "references": [{"name": "a", "uri": "u", "size": 2}],
"collections": [{"name": "e", "type": "recolude.event", "captures": [{"time": 2, "data": {"name": "go"}}]}]}` -/
def rootDocument : List (Bytes × JVal) :=
  [(b!"id", .str b!"r"), (b!"name", .str b!"root"), (b!"metadata", .obj sampleObject),
   (b!"recordings", .arr [.obj childDocument]),
   (b!"references", .arr [.obj [(b!"name", .str b!"a"), (b!"uri", .str b!"u"), (b!"size", .num 0x4000000000000000)]]),
   (b!"collections", .arr [.obj [(b!"name", .str b!"e"), (b!"type", .str sigEvent), (b!"captures", .arr [.obj
      [(b!"time", .num 0x4000000000000000), (b!"data", .obj [(b!"name", .str b!"go")])]])]])]

/-- The recording it describes. -/
def rootRecording : Rec :=
  .mk b!"r" b!"root" [some (.event b!"e" [(0x4000000000000000, b!"go", [])])]
    [.mk b!"c" b!"child" [some (.position b!"p" [(0x3FF0000000000000, ⟨0x3FF0000000000000, 0x4000000000000000,
      0x3FE0000000000000⟩)])] [] [] [] []] sampleBlock [] [some ⟨b!"a", b!"u", 2, []⟩]

theorem rootDocument_describes : Describes (documentReading sampleJson) (.obj rootDocument) rootRecording := by
  have hno : ∀ (d : List (Bytes × JVal)) (k : Bytes), k ∉ d.map (·.1) → ∀ v : JVal, (k, v) ∉ d :=
    fun d k h v hv => h (List.mem_map.2 ⟨_, hv, rfl⟩)
  have hmd : ∀ (d : List (Bytes × JVal)), b!"metadata" ∉ d.map (·.1) → MetadataMember (documentReading sampleJson) d [] :=
    fun d h => .inr ⟨rfl, hno d _ h⟩
  have hchild : Describes (documentReading sampleJson) (.obj childDocument) (.mk b!"c" b!"child" [some (.position b!"p"
      [(0x3FF0000000000000, ⟨0x3FF0000000000000, 0x4000000000000000, 0x3FE0000000000000⟩)])] [] [] [] []) := by
    refine Describes.mk (subs := []) (refNodes := []) (refs := []) (colls := [.position b!"p" [(0x3FF0000000000000,
      ⟨0x3FF0000000000000, 0x4000000000000000, 0x3FE0000000000000⟩)]]) (by simp [childDocument]) (by simp [childDocument])
      (.inr ⟨rfl, hno _ _ (by decide)⟩) .nil (hmd _ (by decide)) (.inr ⟨rfl, hno _ _ (by decide)⟩) .nil
      (.inl (.tail _ (.tail _ (.head _))))
      (.cons ⟨_, _, rfl, .head _, .tail _ (.head _), .tail _ (.tail _ (.head _)), .cons ⟨_, _, rfl, .head _,
        .tail _ (.head _), .tail _ (.head _), .tail _ (.tail _ (.head _)), .head _⟩ .nil⟩ .nil)
  refine Describes.mk (refs := [⟨b!"a", b!"u", 2, []⟩]) (colls := [.event b!"e" [(0x4000000000000000, b!"go", [])]])
    (.head _) (.tail _ (.head _)) (.inl (.tail _ (.tail _ (.tail _ (.head _))))) (.cons hchild .nil)
    (.inl ⟨_, .tail _ (.tail _ (.head _)), sampleObject_means⟩) (.inl (.tail _ (.tail _ (.tail _ (.tail _ (.head _))))))
    (.cons ⟨_, 0x4000000000000000, rfl, .head _, .tail _ (.head _), .tail _ (.tail _ (.head _)),
      ⟨by decide +kernel, by decide⟩, hmd _ (by decide)⟩ .nil)
    (.inl (.tail _ (.tail _ (.tail _ (.tail _ (.tail _ (.head _)))))))
    (.cons ⟨_, _, rfl, .head _, .tail _ (.head _), .tail _ (.tail _ (.head _)), .cons ⟨_, _, rfl, .head _, .tail _ (.head _),
      .head _, hmd _ (by decide)⟩ .nil⟩ .nil)

example : (JVal.obj rootDocument).Proper ∧ fromJSON sampleJson (.ok (.obj rootDocument)) = pure rootRecording ∧
    Describes (parserReading sampleJson) (.obj rootDocument) rootRecording := by
  have hp : (JVal.obj rootDocument).Proper := by
    simp only [rootDocument, childDocument, sampleObject, JVal.Proper, properMembers, properItems, List.map_cons,
      List.map_nil, and_true, true_and]
    decide
  have h := C50_accepted sampleJson_lawful hp rootDocument_describes
  exact ⟨hp, h, C50_parsed sampleJson_lawful h⟩

end Rap
