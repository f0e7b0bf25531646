import Verif.Model.Bson
import Verif.Spec.Bson
import Verif.Proof.JsonEncode
import Verif.Proof.Round
import Verif.Props.Marshal

/-!
# BSON: bytes and their meaning
-/

namespace Rap

theorem little_leBytes {k n : Nat} (h : n < 256 ^ k) : Little (leBytes k n) k n := by
  refine ⟨leBytes_length k n, ?_⟩
  have e : ∀ b : Bytes, b.foldr (fun c v => c.toNat + 256 * v) 0 = leNat b := by
    intro b
    induction b with
    | nil => rfl
    | cons x b ih => rw [List.foldr_cons, ih, leNat]
  rw [e, leNat_leBytes, Nat.mod_eq_of_lt h]

theorem bson_element {k : Bytes} (h : 0 ∉ k) (v : UInt8 × Bytes) :
    bsonElement k v = pure (v.1 :: (k ++ 0 :: v.2)) := if_neg h

theorem bson_document {body : Bytes} (h : body.length + 5 < 2 ^ 31) :
    bsonDocument body = pure (leBytes 4 (body.length + 5) ++ body ++ [0]) := if_pos h

theorem decimal_name (n : Nat) : BsonName (V1.decimalNat n) := by
  have h := (decimalNat_spec n).1
  have hd := h.2.1
  refine ⟨?_, fun h0 => ?_⟩
  · generalize V1.decimalNat n = s at hd
    clear h
    induction s with
    | nil => exact ⟨[], rfl⟩
    | cons c s ih =>
      obtain ⟨cs, e⟩ := ih fun x hx => hd x (List.mem_cons_of_mem _ hx)
      have hc := hd c List.mem_cons_self
      refine ⟨Char.ofNat c.toNat :: cs, ?_⟩
      rw [List.flatMap_cons, ← e]
      have : ∀ n : Nat, 48 ≤ n → n ≤ 57 → String.utf8EncodeChar (Char.ofNat n) = [UInt8.ofNat n] := by decide +kernel
      rw [this _ hc.1 hc.2]
      simp
  · have := hd 0 h0
    simp at this

theorem bson_bools : ∀ (bs : List Bool) (i : Nat), 12 * i + 13 * bs.length < 2 ^ 31 → ∃ body d,
    bsonBools i bs = pure body ∧ body.length ≤ 13 * bs.length ∧ BsonElems body d ∧
      (∀ j k, (d.map (·.1))[j]? = some k → IsDecimal k (i + j)) ∧ d.map (·.2) = bs.map .bool
  | [], i, _ => ⟨[], [], rfl, Nat.le_refl _, .nil, by simp, rfl⟩
  | b :: bs, i, h => by
    rw [List.length_cons] at h
    obtain ⟨body, d, h1, h2, h3, h4, h5⟩ := bson_bools bs (i + 1) (by omega)
    have hn := decimal_name i
    have hl : (V1.decimalNat i).length ≤ 10 := decimalNat_length (by decide) (by omega)
    refine ⟨8 :: (V1.decimalNat i ++ 0 :: [if b then 1 else 0]) ++ body, (V1.decimalNat i, .bool b) :: d, ?_, ?_, ?_, ?_, ?_⟩
    · rw [bsonBools, bson_element hn.2, pure_bind, h1, pure_bind]
    · simp only [List.length_append, List.length_cons, List.length_nil]; omega
    · cases b
      · have := BsonElems.no hn h3
        simpa using this
      · have := BsonElems.yes hn h3
        simpa using this
    · intro j k hk
      rcases j with _ | j
      · simp only [List.map_cons, List.getElem?_cons_zero, Option.some.injEq] at hk
        rw [← hk]
        exact (decimalNat_spec i).1
      · rw [show i + (j + 1) = i + 1 + j by omega]
        exact h4 j k (by simpa using hk)
    · rw [List.map_cons, List.map_cons, h5]

/-- What holds of the bytes `v` of type `ty` for the property `p`. -/
def BsonWrites (p : Property) (ty : UInt8) (v : Bytes) (b : BVal) : Prop :=
  v.length ≤ bsonRoom p ∧ BsonMeans p b ∧ ∀ k rest es, BsonName k → BsonElems rest es →
    BsonElems (ty :: (k ++ 0 :: (v ++ rest))) ((k, b) :: es)

theorem name_xyz : BsonName b!"x" ∧ BsonName b!"y" ∧ BsonName b!"z" :=
  ⟨⟨⟨['x'], by decide⟩, by decide⟩, ⟨⟨['y'], by decide⟩, by decide⟩, ⟨⟨['z'], by decide⟩, by decide⟩⟩

theorem bson_floats : ∀ l : List (Bytes × F64), (∀ kx ∈ l, BsonName kx.1 ∧ kx.1.length = 1) → ∃ body,
    bsonFloats l = pure body ∧ body.length = 11 * l.length ∧ BsonElems body (l.map fun kx => (kx.1, .double kx.2))
  | [], _ => ⟨[], rfl, rfl, .nil⟩
  | (k, x) :: l, h => by
    obtain ⟨body, h1, h2, h3⟩ := bson_floats l fun kx hkx => h kx (List.mem_cons_of_mem _ hkx)
    have hn := h (k, x) List.mem_cons_self
    refine ⟨1 :: (k ++ 0 :: leBytes 8 x.toNat) ++ body, ?_, ?_, ?_⟩
    · rw [bsonFloats, bson_element hn.1.2, pure_bind, h1, pure_bind]
    · have := hn.2
      simp only at this
      simp only [List.length_append, List.length_cons, leBytes_length, h2, this]
      omega
    · have := BsonElems.double hn.1 (little_leBytes (k := 8) x.isLt) h3
      simpa using this

theorem writes_doc {p : Property} {body : Bytes} {d : List (Bytes × BVal)} (h : body.length + 5 < 2 ^ 31)
    (he : BsonElems body d) (hr : body.length + 5 ≤ bsonRoom p) (hm : BsonMeans p (.doc d)) :
    BsonWrites p 3 (leBytes 4 (body.length + 5) ++ body ++ [0]) (.doc d) := by
  refine ⟨by simp only [List.length_append, leBytes_length, List.length_cons, List.length_nil]; omega, hm, ?_⟩
  intro k rest es hk hes
  have := BsonElems.doc hk he h (little_leBytes (k := 4) (by omega)) hes
  simpa using this

theorem writes_arr {p : Property} {body : Bytes} {d : List (Bytes × BVal)} (h : body.length + 5 < 2 ^ 31)
    (he : BsonElems body d) (hr : body.length + 5 ≤ bsonRoom p) (hm : BsonMeans p (.arr d)) :
    BsonWrites p 4 (leBytes 4 (body.length + 5) ++ body ++ [0]) (.arr d) := by
  refine ⟨by simp only [List.length_append, leBytes_length, List.length_cons, List.length_nil]; omega, hm, ?_⟩
  intro k rest es hk hes
  have := BsonElems.arr hk he h (little_leBytes (k := 4) (by omega)) hes
  simpa using this

theorem bson_time {t : BitVec 64} (h1 : -2 ^ 63 ≤ t.toInt * 1000) (h2 : t.toInt * 1000 < 2 ^ 63) :
    1000 * (bsonTime (t * 1000)).toInt ≤ t.toInt ∧ t.toInt < 1000 * ((bsonTime (t * 1000)).toInt + 1) := by
  have e : (t * 1000).toInt = t.toInt * 1000 := by
    rw [BitVec.toInt_mul, show (1000 : BitVec 64).toInt = 1000 from rfl]
    rw [Int.bmod_def]
    norm_num at h1 h2 ⊢
    omega
  have f : (bsonTime (t * 1000)).toInt = t.toInt * 1000 / 1000000 := by
    rw [bsonTime, e, BitVec.toInt_ofInt, Int.bmod_def]
    norm_num at h1 h2 ⊢
    omega
  rw [f]
  omega

mutual
theorem bson_value : ∀ p : Property, BsonReady p → zeroFree p = true → bsonRoom p < 2 ^ 31 →
    ∃ ty v b, bsonValue p = pure (ty, v) ∧ BsonWrites p ty v b
  | .str s, h, _, hr => by
    cases h with
    | str hu =>
      rw [bsonRoom] at hr
      refine ⟨_, _, .string s, by rw [bsonValue], ?_, .str, ?_⟩
      · rw [bsonRoom]; simp only [List.length_append, leBytes_length, List.length_cons, List.length_nil]; omega
      · intro k rest es hk hes
        have := BsonElems.string hk hu (by omega) (little_leBytes (k := 4) (n := s.length + 1) (by omega)) hes
        simpa using this
  | .int32 i, _, _, _ => by
    refine ⟨_, _, .int32 i, by rw [bsonValue], ?_, .int32, ?_⟩
    · rw [bsonRoom, leBytes_length]
    · intro k rest es hk hes
      exact .int32 hk (little_leBytes (k := 4) i.isLt) hes
  | .f32 f, _, _, _ => by
    refine ⟨_, _, .double (widen f), by rw [bsonValue], ?_, .f32 (number_widen f), ?_⟩
    · rw [bsonRoom, leBytes_length]
    · intro k rest es hk hes
      exact .double hk (little_leBytes (k := 8) (widen f).isLt) hes
  | .bool b, _, _, _ => by
    refine ⟨_, _, .bool b, by rw [bsonValue], ?_, .bool, ?_⟩
    · rw [bsonRoom]; rfl
    · intro k rest es hk hes
      cases b
      · exact .no hk hes
      · exact .yes hk hes
  | .byte b, _, _, _ => by
    have hb := b.toNat_lt
    have e : (BitVec.ofNat 32 b.toNat).toNat = b.toNat := by
      rw [BitVec.toNat_ofNat, Nat.mod_eq_of_lt (by omega)]
    refine ⟨_, _, .int32 (BitVec.ofNat 32 b.toNat), by rw [bsonValue], ?_, .byte ?_, ?_⟩
    · rw [bsonRoom, leBytes_length]
    · rw [BitVec.toInt_eq_toNat_of_lt (by rw [e]; omega), e]
    · intro k rest es hk hes
      exact .int32 hk (by rw [e]; exact little_leBytes (k := 4) (by omega)) hes
  | .vec2 x y, _, _, _ => by
    obtain ⟨body, h1, h2, h3⟩ := bson_floats [(b!"x", x), (b!"y", y)] (by
      intro kx hkx
      simp only [List.mem_cons, List.not_mem_nil, or_false] at hkx
      rcases hkx with rfl | rfl
      · exact ⟨name_xyz.1, rfl⟩
      · exact ⟨name_xyz.2.1, rfl⟩)
    have h2' : body.length = 22 := h2
    refine ⟨_, _, _, ?_, writes_doc (by omega) h3 (by rw [bsonRoom]; omega) .vec2⟩
    rw [bsonValue, h1, pure_bind, bson_document (by omega), pure_bind]
  | .vec3 x y z, _, _, _ => by
    obtain ⟨body, h1, h2, h3⟩ := bson_floats [(b!"x", x), (b!"y", y), (b!"z", z)] (by
      intro kx hkx
      simp only [List.mem_cons, List.not_mem_nil, or_false] at hkx
      rcases hkx with rfl | rfl | rfl
      · exact ⟨name_xyz.1, rfl⟩
      · exact ⟨name_xyz.2.1, rfl⟩
      · exact ⟨name_xyz.2.2, rfl⟩)
    have h2' : body.length = 33 := h2
    refine ⟨_, _, _, ?_, writes_doc (by omega) h3 (by rw [bsonRoom]; omega) .vec3⟩
    rw [bsonValue, h1, pure_bind, bson_document (by omega), pure_bind]
  | .block kvs, h, hz, hr => by
    rw [bsonRoom] at hr
    rw [zeroFree] at hz
    have h' : (∀ kv ∈ kvs, Utf8 kv.1) ∧ ∀ kv ∈ kvs, BsonReady kv.2 := by cases h with | block a b => exact ⟨a, b⟩
    obtain ⟨body, d, h1, h2, h3, h4, h5⟩ := bson_members kvs h'.1 h'.2 hz (by omega)
    refine ⟨_, _, _, ?_, writes_doc (by omega) h3 (by rw [bsonRoom]; omega) (.block h4 h5)⟩
    rw [bsonValue, h1, pure_bind, bson_document (by omega), pure_bind]
  | .time t, h, _, _ => by
    cases h with
    | time h1 h2 =>
      refine ⟨_, _, .datetime (bsonTime (t * 1000)), by rw [bsonValue], ?_,
        .time (bson_time h1 h2).1 (bson_time h1 h2).2, ?_⟩
      · rw [bsonRoom, leBytes_length]
      · intro k rest es hk hes
        exact .datetime hk (little_leBytes (k := 8) (bsonTime (t * 1000)).isLt) hes
  | .array c props, h, hz, hr => by
    rw [bsonRoom] at hr
    rw [zeroFree] at hz
    have h' : ∀ p ∈ props, BsonReady p := by cases h with | array a => exact a
    obtain ⟨body, d, h1, h2, h3, h4, h5⟩ := bson_items props 0 h' hz (by omega)
    refine ⟨_, _, _, ?_, writes_arr (by omega) h3 (by rw [bsonRoom]; omega) (.array ?_ h5)⟩
    · rw [bsonValue, h1, pure_bind, bson_document (by omega), pure_bind]
    · intro i k hk
      have := h4 i k hk
      rwa [Nat.zero_add] at this
  | .raw base data, h, _, hr => by
    generalize hp : Property.raw base data = p at h
    cases h with
    | binary hb =>
      rename_i b
      rw [Property.newBinaryArray, Property.raw.injEq] at hp
      obtain ⟨rfl, rfl⟩ := hp
      have hl : b.length ≤ (bytesArrayToBytes b).length := by rw [bytesArrayToBytes, List.length_append]; omega
      rw [bsonRoom, if_pos rfl] at hr
      refine ⟨_, _, .bin 0 b, by rw [Property.newBinaryArray, bsonValue, rawBytes_array hb, pure_bind, if_pos rfl], ?_, .binary, ?_⟩
      · rw [Property.newBinaryArray, bsonRoom, if_pos rfl]
        simp only [List.length_append, leBytes_length, List.length_cons]; omega
      · intro k rest es hk hes
        have := BsonElems.bin (sub := 0) hk (by omega) (little_leBytes (k := 4) (n := b.length) (by omega)) hes
        simpa using this
    | bools hb =>
      rename_i bs
      rw [Property.newBoolArray, Property.raw.injEq] at hp
      obtain ⟨rfl, rfl⟩ := hp
      have hl : bs.length ≤ (bytesArrayToBytes (bs.map fun b => if b then 1 else 0)).length := by
        rw [bytesArrayToBytes, List.length_append, List.length_map]; omega
      rw [bsonRoom, if_neg (by decide)] at hr
      obtain ⟨body, d, h1, h2, h3, h4, h5⟩ := bson_bools bs 0 (by omega)
      have e : ((fun c : UInt8 => (c &&& 1 == 1)) ∘ fun b : Bool => if b = true then 1 else 0) = id := by
        funext b
        cases b <;> rfl
      refine ⟨_, _, _, ?_, writes_arr (by omega) h3 (by rw [Property.newBoolArray, bsonRoom, if_neg (by decide)]; omega) (.bools ?_ h5)⟩
      · rw [Property.newBoolArray, bsonValue, rawBytes_array (by rw [List.length_map]; exact hb), pure_bind, if_neg (by decide), if_pos rfl,
          List.map_map, e, List.map_id, h1, pure_bind, bson_document (by omega), pure_bind]
      · intro i k hk
        have := h4 i k hk
        rwa [Nat.zero_add] at this
    | _ => cases hp
  | .nil, _, _, _ => by
    refine ⟨_, _, .null, by rw [bsonValue], Nat.zero_le _, .nil, ?_⟩
    intro k rest es hk hes
    exact .null hk hes

theorem bson_members : ∀ kvs : List (Bytes × Property), (∀ kv ∈ kvs, Utf8 kv.1) → (∀ kv ∈ kvs, BsonReady kv.2) →
    zeroFreeMembers kvs = true → bsonRoomMembers kvs + 5 < 2 ^ 31 → ∃ body d, bsonMembers kvs = pure body ∧
      body.length ≤ bsonRoomMembers kvs ∧ BsonElems body d ∧ kvs.map (·.1) = d.map (·.1) ∧
      List.Forall₂ BsonMeans (kvs.map (·.2)) (d.map (·.2))
  | [], _, _, _, _ => ⟨[], [], by rw [bsonMembers], Nat.zero_le _, .nil, rfl, .nil⟩
  | (k, p) :: kvs, hk, hp, hz, hr => by
    rw [bsonRoomMembers] at hr
    rw [zeroFreeMembers, Bool.and_eq_true, Bool.and_eq_true] at hz
    obtain ⟨ty, v, b, e, w1, w2, w3⟩ := bson_value p (hp _ List.mem_cons_self) hz.1.2 (by omega)
    obtain ⟨body, d, h1, h2, h3, h4, h5⟩ := bson_members kvs (fun kv h => hk kv (List.mem_cons_of_mem _ h))
      (fun kv h => hp kv (List.mem_cons_of_mem _ h)) hz.2 (by omega)
    have h0 : 0 ∉ k := by simpa using hz.1.1
    refine ⟨ty :: (k ++ 0 :: v) ++ body, (k, b) :: d, ?_, ?_, ?_, ?_, ?_⟩
    · rw [bsonMembers, e, pure_bind, bson_element h0, pure_bind, h1, pure_bind]
    · rw [bsonRoomMembers]
      simp only [List.length_append, List.length_cons]; omega
    · have := w3 k body d ⟨hk _ List.mem_cons_self, h0⟩ h3
      simpa using this
    · rw [List.map_cons, List.map_cons, h4]
    · exact .cons w2 h5

theorem bson_items : ∀ (props : List Property) (i : Nat), (∀ p ∈ props, BsonReady p) →
    zeroFreeItems props = true → 12 * i + bsonRoomItems props + 5 < 2 ^ 31 → ∃ body d, bsonItems i props = pure body ∧
      body.length ≤ bsonRoomItems props ∧ BsonElems body d ∧
      (∀ j k, (d.map (·.1))[j]? = some k → IsDecimal k (i + j)) ∧
      List.Forall₂ BsonMeans props (d.map (·.2))
  | [], i, _, _, _ => ⟨[], [], by rw [bsonItems], Nat.zero_le _, .nil, by simp, .nil⟩
  | p :: props, i, hp, hz, hr => by
    rw [bsonRoomItems] at hr
    rw [zeroFreeItems, Bool.and_eq_true] at hz
    obtain ⟨ty, v, b, e, w1, w2, w3⟩ := bson_value p (hp _ List.mem_cons_self) hz.1 (by omega)
    obtain ⟨body, d, h1, h2, h3, h4, h5⟩ := bson_items props (i + 1) (fun q h => hp q (List.mem_cons_of_mem _ h)) hz.2
      (by omega)
    have hn := decimal_name i
    have hl : (V1.decimalNat i).length ≤ 10 := decimalNat_length (by decide) (by omega)
    refine ⟨ty :: (V1.decimalNat i ++ 0 :: v) ++ body, (V1.decimalNat i, b) :: d, ?_, ?_, ?_, ?_, ?_⟩
    · rw [bsonItems, e, pure_bind, bson_element hn.2, pure_bind, h1, pure_bind]
    · rw [bsonRoomItems]
      simp only [List.length_append, List.length_cons]; omega
    · have := w3 _ body d hn h3
      simpa using this
    · intro j k hk
      rcases j with _ | j
      · simp only [List.map_cons, List.getElem?_cons_zero, Option.some.injEq] at hk
        rw [← hk]
        exact (decimalNat_spec i).1
      · rw [show i + (j + 1) = i + 1 + j by omega]
        exact h4 j k (by simpa using hk)
    · exact .cons w2 h5
end

/-! ## One reading -/

theorem name_split : ∀ {k k' x y : Bytes}, 0 ∉ k → 0 ∉ k' → k ++ 0 :: x = k' ++ 0 :: y → k = k' ∧ x = y
  | [], [], _, _, _, _, e => ⟨rfl, (List.cons.inj e).2⟩
  | [], c :: k', _, _, _, h', e => absurd ((List.cons.inj e).1 ▸ List.mem_cons_self) h'
  | c :: k, [], _, _, h, _, e => absurd ((List.cons.inj e).1 ▸ List.mem_cons_self) h
  | c :: k, c' :: k', _, _, h, h', e => by
    obtain ⟨rfl, e1⟩ := List.cons.inj e
    obtain ⟨rfl, r⟩ := name_split (fun m => h (List.mem_cons_of_mem _ m)) (fun m => h' (List.mem_cons_of_mem _ m)) e1
    exact ⟨rfl, r⟩

theorem little_split {t t' x y : Bytes} {k n n' : Nat} (h : Little t k n) (h' : Little t' k n') (e : t ++ x = t' ++ y) :
    n = n' ∧ x = y := by
  obtain ⟨rfl, r⟩ := List.append_inj e (h.1.trans h'.1.symm)
  exact ⟨h.2.symm.trans h'.2, r⟩

theorem sized_split {n n' b b' x y : Bytes} {j : Nat} (h : Little n 4 (b.length + j)) (h' : Little n' 4 (b'.length + j))
    (e : n ++ (b ++ x) = n' ++ (b' ++ y)) : b = b' ∧ x = y := by
  obtain ⟨hl, e⟩ := little_split h h' e
  exact List.append_inj e (by omega)

theorem bson_unique {t : Bytes} {es : List (Bytes × BVal)} (h : BsonElems t es) :
    ∀ {es'}, BsonElems t es' → es = es' := by
  induction h with
  | nil =>
    intro es' h'
    cases h'
    rfl
  | double hk ht _ ih =>
    intro es' h'
    generalize e : (1 : UInt8) :: (_ ++ 0 :: (_ ++ _)) = t at h'
    cases h' with
    | double hk' ht' hr =>
      obtain ⟨rfl, e1⟩ := name_split hk.2 hk'.2 (List.cons.inj e).2
      obtain ⟨hn, rfl⟩ := little_split ht ht' e1
      rw [BitVec.eq_of_toNat_eq hn, ih hr]
    | nil => cases e
    | _ => exact absurd (List.cons.inj e).1 (by decide)
  | string hk _ _ hn _ ih =>
    intro es' h'
    generalize e : (2 : UInt8) :: (_ ++ 0 :: (_ ++ (_ ++ 0 :: _))) = t at h'
    cases h' with
    | string hk' _ _ hn' hr =>
      obtain ⟨rfl, e1⟩ := name_split hk.2 hk'.2 (List.cons.inj e).2
      obtain ⟨rfl, e2⟩ := sized_split hn hn' e1
      obtain ⟨-, rfl⟩ := List.cons.inj e2
      rw [ih hr]
    | nil => cases e
    | _ => exact absurd (List.cons.inj e).1 (by decide)
  | doc hk _ _ hn _ ihb ih =>
    intro es' h'
    generalize e : (3 : UInt8) :: (_ ++ 0 :: (_ ++ (_ ++ 0 :: _))) = t at h'
    cases h' with
    | doc hk' hb _ hn' hr =>
      obtain ⟨rfl, e1⟩ := name_split hk.2 hk'.2 (List.cons.inj e).2
      obtain ⟨rfl, e2⟩ := sized_split hn hn' e1
      obtain ⟨-, rfl⟩ := List.cons.inj e2
      rw [ih hr, ihb hb]
    | nil => cases e
    | _ => exact absurd (List.cons.inj e).1 (by decide)
  | arr hk _ _ hn _ ihb ih =>
    intro es' h'
    generalize e : (4 : UInt8) :: (_ ++ 0 :: (_ ++ (_ ++ 0 :: _))) = t at h'
    cases h' with
    | arr hk' hb _ hn' hr =>
      obtain ⟨rfl, e1⟩ := name_split hk.2 hk'.2 (List.cons.inj e).2
      obtain ⟨rfl, e2⟩ := sized_split hn hn' e1
      obtain ⟨-, rfl⟩ := List.cons.inj e2
      rw [ih hr, ihb hb]
    | nil => cases e
    | _ => exact absurd (List.cons.inj e).1 (by decide)
  | bin hk _ hn _ ih =>
    intro es' h'
    generalize e : (5 : UInt8) :: (_ ++ 0 :: (_ ++ _ :: (_ ++ _))) = t at h'
    cases h' with
    | bin hk' _ hn' hr =>
      obtain ⟨rfl, e1⟩ := name_split hk.2 hk'.2 (List.cons.inj e).2
      obtain ⟨hl, e2⟩ := little_split hn hn' e1
      obtain ⟨rfl, e3⟩ := List.cons.inj e2
      obtain ⟨rfl, rfl⟩ := List.append_inj e3 hl
      rw [ih hr]
    | nil => cases e
    | _ => exact absurd (List.cons.inj e).1 (by decide)
  | no hk _ ih =>
    intro es' h'
    generalize e : (8 : UInt8) :: (_ ++ 0 :: 0 :: _) = t at h'
    cases h' with
    | no hk' hr =>
      obtain ⟨rfl, e1⟩ := name_split hk.2 hk'.2 (List.cons.inj e).2
      obtain ⟨-, rfl⟩ := List.cons.inj e1
      rw [ih hr]
    | yes hk' hr =>
      obtain ⟨rfl, e1⟩ := name_split hk.2 hk'.2 (List.cons.inj e).2
      exact absurd (List.cons.inj e1).1 (by decide)
    | nil => cases e
    | _ => exact absurd (List.cons.inj e).1 (by decide)
  | yes hk _ ih =>
    intro es' h'
    generalize e : (8 : UInt8) :: (_ ++ 0 :: 1 :: _) = t at h'
    cases h' with
    | yes hk' hr =>
      obtain ⟨rfl, e1⟩ := name_split hk.2 hk'.2 (List.cons.inj e).2
      obtain ⟨-, rfl⟩ := List.cons.inj e1
      rw [ih hr]
    | no hk' hr =>
      obtain ⟨rfl, e1⟩ := name_split hk.2 hk'.2 (List.cons.inj e).2
      exact absurd (List.cons.inj e1).1 (by decide)
    | nil => cases e
    | _ => exact absurd (List.cons.inj e).1 (by decide)
  | datetime hk ht _ ih =>
    intro es' h'
    generalize e : (9 : UInt8) :: (_ ++ 0 :: (_ ++ _)) = t at h'
    cases h' with
    | datetime hk' ht' hr =>
      obtain ⟨rfl, e1⟩ := name_split hk.2 hk'.2 (List.cons.inj e).2
      obtain ⟨hn, rfl⟩ := little_split ht ht' e1
      rw [BitVec.eq_of_toNat_eq hn, ih hr]
    | nil => cases e
    | _ => exact absurd (List.cons.inj e).1 (by decide)
  | null hk _ ih =>
    intro es' h'
    generalize e : (10 : UInt8) :: (_ ++ 0 :: _) = t at h'
    cases h' with
    | null hk' hr =>
      obtain ⟨rfl, rfl⟩ := name_split hk.2 hk'.2 (List.cons.inj e).2
      rw [ih hr]
    | nil => cases e
    | _ => exact absurd (List.cons.inj e).1 (by decide)
  | int32 hk ht _ ih =>
    intro es' h'
    generalize e : (16 : UInt8) :: (_ ++ 0 :: (_ ++ _)) = t at h'
    cases h' with
    | int32 hk' ht' hr =>
      obtain ⟨rfl, e1⟩ := name_split hk.2 hk'.2 (List.cons.inj e).2
      obtain ⟨hn, rfl⟩ := little_split ht ht' e1
      rw [BitVec.eq_of_toNat_eq hn, ih hr]
    | nil => cases e
    | _ => exact absurd (List.cons.inj e).1 (by decide)

/-! ## What is refused -/

theorem element_zeroFree {k t : Bytes} {v : UInt8 × Bytes} (h : bsonElement k v = pure t) : 0 ∉ k := by
  intro hk
  rw [bsonElement, if_pos hk] at h
  cases h

theorem document_size {body t : Bytes} (h : bsonDocument body = pure t) : t.length < 2 ^ 31 := by
  rw [bsonDocument] at h
  split at h
  · rw [← GoE.pure_inj.1 h]
    simp only [List.length_append, leBytes_length, List.length_cons, List.length_nil]
    omega
  · cases h

mutual
theorem value_zeroFree : ∀ (p : Property) (v : UInt8 × Bytes), bsonValue p = pure v → zeroFree p = true
  | .block kvs, v, h => by
    rw [bsonValue] at h
    obtain ⟨body, h1, -⟩ := GoE.bind_pure_iff.1 h
    rw [zeroFree]
    exact members_zeroFree kvs body h1
  | .array c props, v, h => by
    rw [bsonValue] at h
    obtain ⟨body, h1, -⟩ := GoE.bind_pure_iff.1 h
    rw [zeroFree]
    exact items_zeroFree props 0 body h1
  | .str _, _, _ => rfl
  | .int32 _, _, _ => rfl
  | .f32 _, _, _ => rfl
  | .bool _, _, _ => rfl
  | .byte _, _, _ => rfl
  | .vec2 .., _, _ => rfl
  | .vec3 .., _, _ => rfl
  | .time _, _, _ => rfl
  | .raw .., _, _ => rfl
  | .nil, _, _ => rfl

theorem members_zeroFree : ∀ (kvs : List (Bytes × Property)) (t : Bytes), bsonMembers kvs = pure t → zeroFreeMembers kvs = true
  | [], _, _ => rfl
  | (k, p) :: kvs, t, h => by
    rw [bsonMembers] at h
    obtain ⟨v, h1, h⟩ := GoE.bind_pure_iff.1 h
    obtain ⟨e, h2, h⟩ := GoE.bind_pure_iff.1 h
    obtain ⟨es, h3, -⟩ := GoE.bind_pure_iff.1 h
    rw [zeroFreeMembers, value_zeroFree p v h1, members_zeroFree kvs es h3]
    simpa using element_zeroFree h2

theorem items_zeroFree : ∀ (props : List Property) (i : Nat) (t : Bytes), bsonItems i props = pure t →
    zeroFreeItems props = true
  | [], _, _, _ => rfl
  | p :: props, i, t, h => by
    rw [bsonItems] at h
    obtain ⟨v, h1, h⟩ := GoE.bind_pure_iff.1 h
    obtain ⟨e, h2, h⟩ := GoE.bind_pure_iff.1 h
    obtain ⟨es, h3, -⟩ := GoE.bind_pure_iff.1 h
    rw [zeroFreeItems, value_zeroFree p v h1, items_zeroFree props (i + 1) es h3]
    rfl
end

end Rap
