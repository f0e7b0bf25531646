import Verif.Spec.Metadata
import Verif.Proof.Binary

/-! # Metadata values survive a write and read -/

namespace Rap

theorem limit_alloc {n : Nat} (h : n ≤ sizeLimit) : n * 16 ≤ maxAlloc := by
  simp only [sizeLimit, maxAlloc] at *; omega

theorem ofNat_leNat_leBytes (w k : Nat) (hw : w = 8 * k) (x : BitVec w) :
    BitVec.ofNat w (leNat (leBytes k x.toNat)) = x := by
  rw [leNat_leBytes]
  apply BitVec.eq_of_toNat_eq
  have hx := x.isLt
  have : 256 ^ k = 2 ^ w := by subst hw; rw [Nat.pow_mul]
  rw [BitVec.toNat_ofNat, this, Nat.mod_mod, Nat.mod_eq_of_lt hx]

theorem clean_readFixed (k n : Nat) (rest : Bytes) :
    (readFixed k).clean (leBytes k n ++ rest) = some (.ok (leNat (leBytes k n)), rest) := by
  rw [readFixed, Prog.clean_readFull _ _ _ _ (leBytes_length k n)]
  rfl

theorem clean_readFixed_bind {α : Type} (k n : Nat) (rest : Bytes) (f : Except Err Nat → Prog α) :
    ((readFixed k).bind f).clean (leBytes k n ++ rest) = (f (.ok (leNat (leBytes k n)))).clean rest :=
  Prog.clean_bind_of (clean_readFixed k n rest)

theorem clean_readFloat64s (l : List F64) (rest : Bytes) :
    (readFloat64s l.length).clean ((l.map fun x => leBytes 8 x.toNat).flatten ++ rest) = some (.ok l, rest) := by
  induction l with
  | nil => rfl
  | cons x l ih =>
    simp only [List.length_cons, readFloat64s, Prog.bind_eq, List.map_cons, List.flatten_cons, List.append_assoc]
    rw [clean_readFixed_bind]
    simp only [Prog.bind_eq]
    rw [Prog.clean_bind_of ih]
    simp only [ofNat_leNat_leBytes 64 8 rfl, Prog.pure_eq, Prog.clean_pure]

theorem timeRoundTrip_eq (v : BitVec 64) : timeRoundTrip v = v := by
  have key : ∀ u : Int, (if u.tmod 1000000 * 1000 < 0
      then (u.tdiv 1000000 - 1) * 1000000 + (u.tmod 1000000 * 1000 + 1000000000).tdiv 1000
      else u.tdiv 1000000 * 1000000 + (u.tmod 1000000 * 1000).tdiv 1000) = u := by
    intro u
    have h1 := Int.tmod_add_mul_tdiv u 1000000
    by_cases h : u.tmod 1000000 * 1000 < 0
    · rw [if_pos h]
      have hlt : -1000000 < u.tmod 1000000 := by
        have := Int.lt_tmod_of_pos u (b := 1000000) (by omega); omega
      have : (u.tmod 1000000 * 1000 + 1000000000).tdiv 1000 = u.tmod 1000000 + 1000000 := by
        rw [Int.tdiv_eq_ediv_of_nonneg (by omega)]; omega
      omega
    · rw [if_neg h]
      have : (u.tmod 1000000 * 1000).tdiv 1000 = u.tmod 1000000 := by
        rw [Int.tdiv_eq_ediv_of_nonneg (by omega)]; omega
      omega
  have := key v.toInt
  unfold timeRoundTrip
  simp only
  split
  · rename_i h; rw [if_pos h] at this; rw [this, BitVec.ofInt_toInt]
  · rename_i h; rw [if_neg h] at this; rw [this, BitVec.ofInt_toInt]

/-- The inductive statement: data and code exist, and reading the data under that code gives the value back. -/
def RT (p : Property) : Prop :=
  ∃ c d, p.code = .ok c ∧ p.data = .ok d ∧
    ∀ fuel, d.length < fuel → d.length ≤ sizeLimit → ∀ rest,
      (readPropData fuel c).clean (d ++ rest) = some (.ok p, rest)

theorem mapSet_append {β : Type} (m : List (Bytes × β)) (k : Bytes) (v : β) (h : k ∉ m.map (·.1)) :
    mapSet m k v = m ++ [(k, v)] := by
  induction m with
  | nil => rfl
  | cons kv m ih =>
    obtain ⟨k', v'⟩ := kv
    simp only [List.map_cons, List.mem_cons, not_or] at h
    simp only [mapSet, if_neg (Ne.symm h.1), ih h.2, List.cons_append]

theorem clean_readPropertyWith (rd : UInt8 → Prog (Except Err Property)) (c : UInt8) (d : Bytes) :
    (readPropertyWith rd).clean (c :: d) = (rd c).clean d := by
  rw [readPropertyWith, Prog.clean_read1]; rfl

theorem block_loop (kvs : Block) (h : ∀ kv ∈ kvs, RT kv.2) (hn : (kvs.map (·.1)).Nodup) :
    ∃ D, Property.dataBlock kvs = .ok D ∧
      ∀ fuel, D.length ≤ fuel → D.length ≤ sizeLimit → ∀ rest acc, (∀ k ∈ kvs.map (·.1), k ∉ acc.map (·.1)) →
        (readBlockLoop (readPropData fuel) (kvs.map (·.1)) acc).clean (D ++ rest) =
          some (.ok (.block (acc ++ kvs)), rest) := by
  induction kvs with
  | nil => exact ⟨[], rfl, fun fuel _ _ rest acc _ => by simp [readBlockLoop]⟩
  | cons kv kvs ih =>
    obtain ⟨k, p⟩ := kv
    obtain ⟨c, d, hc, hd, hr⟩ := h (k, p) (by simp)
    simp only [List.map_cons, List.nodup_cons] at hn
    obtain ⟨D, hD, hloop⟩ := ih (fun kv hkv => h kv (by simp [hkv])) hn.2
    have hc' : p.code = .ok c := hc
    have hd' : p.data = .ok d := hd
    refine ⟨c :: d ++ D, ?_, ?_⟩
    · simp only [Property.dataBlock, hc', hd', hD]; rfl
    · intro fuel hf hl rest acc hacc
      simp only [List.cons_append, List.length_cons, List.length_append] at hf hl
      simp only [List.map_cons, readBlockLoop, Prog.bind_eq, List.cons_append, List.append_assoc]
      have h1 : (readPropertyWith (readPropData fuel)).clean (c :: (d ++ (D ++ rest))) =
          some (.ok p, D ++ rest) := by
        rw [clean_readPropertyWith]
        exact hr fuel (by omega) (by omega) _
      rw [Prog.clean_bind_of h1]
      simp only
      rw [mapSet_append _ _ _ (hacc k (by simp)), hloop fuel (by omega) (by omega)]
      · simp
      · intro k' hk'
        simp only [List.map_append, List.map_cons, List.map_nil, List.mem_append, List.mem_singleton, not_or]
        exact ⟨hacc k' (by simp [hk']), fun he => hn.1 (he ▸ hk')⟩

theorem elem_loop (base : UInt8) (ps : List Property)
    (h : ∀ p ∈ ps, ∃ d, p.data = .ok d ∧
      ∀ fuel, d.length < fuel → d.length ≤ sizeLimit → ∀ rest,
        (readPropData fuel base).clean (d ++ rest) = some (.ok p, rest)) :
    ∃ D, Property.dataList ps = .ok D ∧
      ∀ fuel, D.length < fuel → D.length ≤ sizeLimit → ∀ rest acc,
        (readElemLoop (readPropData fuel base) base ps.length acc).clean (D ++ rest) =
          some (.ok (.array base (acc.reverse ++ ps)), rest) := by
  induction ps with
  | nil => exact ⟨[], rfl, fun fuel _ _ rest acc => by simp [readElemLoop]⟩
  | cons p ps ih =>
    obtain ⟨d, hd, hr⟩ := h p (by simp)
    obtain ⟨D, hD, hloop⟩ := ih (fun q hq => h q (by simp [hq]))
    refine ⟨d ++ D, ?_, ?_⟩
    · simp only [Property.dataList, hd, hD]; rfl
    · intro fuel hf hl rest acc
      simp only [List.length_append] at hf hl
      simp only [List.length_cons, readElemLoop, Prog.bind_eq, List.append_assoc]
      rw [Prog.clean_bind_of (hr fuel (by omega) (by omega) _)]
      simp only
      rw [hloop fuel (by omega) (by omega)]
      simp

/-- Every element of an array takes at least one byte. -/
theorem dataList_length_le (ps : List Property) (D : Bytes) (h : Property.dataList ps = .ok D)
    (hp : ∀ p ∈ ps, ∀ d, p.data = .ok d → 1 ≤ d.length) : ps.length ≤ D.length := by
  induction ps generalizing D with
  | nil => simp
  | cons p ps ih =>
    simp only [Property.dataList] at h
    cases hd : p.data with
    | error e => simp [hd, bind, Except.bind] at h
    | ok d =>
      cases hl : Property.dataList ps with
      | error e => simp [hd, hl, bind, Except.bind] at h
      | ok D' =>
        simp only [hd, hl, bind, Except.bind, Except.ok.injEq] at h
        subst h
        have h1 := hp p (by simp) d hd
        have h2 := ih D' hl fun q hq => hp q (by simp [hq])
        simp only [List.length_cons, List.length_append]; omega

theorem array_RT (base code : UInt8) (ps : List Property) (hcode : 13 + base = code) (hbase : code - 13 = base)
    (hcases : code = 13 ∨ code = 14 ∨ code = 15 ∨ code = 19 ∨ code = 20 ∨ code = 24 ∨ code = 25)
    (hpos : ∀ p ∈ ps, ∀ d, p.data = .ok d → 1 ≤ d.length)
    (h : ∀ p ∈ ps, ∃ d, p.data = .ok d ∧
      ∀ fuel, d.length < fuel → d.length ≤ sizeLimit → ∀ rest,
        (readPropData fuel base).clean (d ++ rest) = some (.ok p, rest)) :
    RT (.array base ps) := by
  obtain ⟨D, hD, hloop⟩ := elem_loop base ps h
  have hlen := dataList_length_le ps D hD hpos
  refine ⟨code, putUvarint (u64 ps.length) ++ D, by simp [Property.code, hcode], ?_, ?_⟩
  · simp only [Property.data, hD]; rfl
  · intro fuel hf hl rest
    have hput := putUvarint_length_pos (u64 ps.length)
    simp only [List.length_append] at hf hl
    cases fuel with
    | zero => omega
    | succ fuel =>
      have hps : ps.length ≤ sizeLimit := by omega
      have h64 : ps.length < 2 ^ 64 := Nat.lt_of_le_of_lt hps (by decide)
      have hne : ∀ x : UInt8, x ∈ ([0, 1, 2, 3, 4, 5, 6, 7, 11, 12, 16, 18] : List UInt8) → code ≠ x := by
        intro x hx heq
        subst heq
        rcases hcases with h | h | h | h | h | h | h <;> (rw [h] at hx; revert hx; decide)
      have hne' : ∀ x : UInt8, x ∈ ([0, 1, 2, 3, 4, 5, 6, 7, 11, 12, 16, 18] : List UInt8) → (code = x) = False :=
        fun x hx => eq_false (hne x hx)
      rw [List.append_assoc]
      simp only [readPropData, hne' 0 (by decide), hne' 1 (by decide), hne' 2 (by decide), hne' 3 (by decide),
        hne' 4 (by decide), hne' 5 (by decide), hne' 6 (by decide), hne' 7 (by decide), hne' 11 (by decide),
        hne' 12 (by decide), hne' 16 (by decide), hne' 18 (by decide), if_false, if_pos hcases, Prog.bind_eq]
      rw [u64_of_lt h64, Prog.clean_bind_of (clean_readUvarint _ _ h64)]
      simp only
      rw [Prog.clean_make _ _ _ _ (limit_alloc hps), hbase, hloop fuel (by omega) (by omega)]
      simp

theorem RT_str (s : Bytes) : RT (.str s) := by
  refine ⟨0, stringToBytes s, rfl, by simp [Property.data], fun fuel hf hl rest => ?_⟩
  cases fuel with
  | zero => omega
  | succ fuel =>
    have : s.length ≤ maxAlloc := by
      have := length_le_stringToBytes s
      simp only [sizeLimit, maxAlloc] at *; omega
    simp only [readPropData, if_true, Prog.bind_eq]
    rw [Prog.clean_bind_of (clean_readString _ _ this)]
    rfl

theorem RT_int (i : Int) : RT (.newInt i) := by
  refine ⟨1, leBytes 4 (BitVec.ofInt 32 i).toNat, rfl, by simp [Property.newInt, Property.data],
    fun fuel hf hl rest => ?_⟩
  cases fuel with
  | zero => omega
  | succ fuel =>
    simp only [readPropData, Prog.bind_eq, show (1 : UInt8) ≠ 0 by decide, if_false, if_true]
    rw [clean_readFixed_bind]
    simp only [ofNat_leNat_leBytes 32 4 rfl, Property.newInt, BitVec.ofInt_toInt, Prog.pure_eq, Prog.clean_pure]

theorem RT_f32 (f : F32) : RT (.f32 f) := by
  refine ⟨2, leBytes 4 f.toNat, rfl, by simp [Property.data], fun fuel hf hl rest => ?_⟩
  cases fuel with
  | zero => omega
  | succ fuel =>
    simp only [readPropData, Prog.bind_eq, show (2 : UInt8) ≠ 0 by decide, show (2 : UInt8) ≠ 1 by decide,
      if_false, if_true]
    rw [clean_readFixed_bind]
    simp only [ofNat_leNat_leBytes 32 4 rfl, Prog.pure_eq, Prog.clean_pure]

theorem RT_time (t : BitVec 64) : RT (.time t) := by
  refine ⟨12, leBytes 8 t.toNat, rfl, by simp [Property.data], fun fuel hf hl rest => ?_⟩
  cases fuel with
  | zero => omega
  | succ fuel =>
    simp (decide := true) only [readPropData, Prog.bind_eq, if_false, if_true]
    rw [clean_readFixed_bind]
    simp only [ofNat_leNat_leBytes 64 8 rfl, timeRoundTrip_eq, Prog.pure_eq, Prog.clean_pure]

theorem RT_vec2 (x y : F64) : RT (.vec2 x y) := by
  refine ⟨6, leBytes 8 x.toNat ++ leBytes 8 y.toNat, rfl, by simp [Property.data], fun fuel hf hl rest => ?_⟩
  cases fuel with
  | zero => omega
  | succ fuel =>
    simp (decide := true) only [readPropData, Prog.bind_eq, if_false, if_true]
    have := clean_readFloat64s [x, y] rest
    simp only [List.length_cons, List.length_nil, List.map_cons, List.map_nil, List.flatten_cons, List.flatten_nil,
      List.append_nil] at this
    rw [Prog.clean_bind_of this]
    rfl

theorem RT_vec3 (x y z : F64) : RT (.vec3 x y z) := by
  refine ⟨7, leBytes 8 x.toNat ++ leBytes 8 y.toNat ++ leBytes 8 z.toNat, rfl, by simp [Property.data],
    fun fuel hf hl rest => ?_⟩
  cases fuel with
  | zero => omega
  | succ fuel =>
    simp (decide := true) only [readPropData, Prog.bind_eq, if_false, if_true]
    have := clean_readFloat64s [x, y, z] rest
    simp only [List.length_cons, List.length_nil, List.map_cons, List.map_nil, List.flatten_cons, List.flatten_nil,
      List.append_nil] at this
    rw [List.append_assoc (leBytes 8 x.toNat), Prog.clean_bind_of this]
    rfl

theorem RT_bool (b : Bool) : RT (.bool b) := by
  refine ⟨if b then 3 else 4, [], rfl, by simp [Property.data], fun fuel hf hl rest => ?_⟩
  cases fuel with
  | zero => omega
  | succ fuel => cases b <;> rfl

theorem RT_byte (b : UInt8) : RT (.byte b) := by
  refine ⟨5, [b], rfl, by simp [Property.data], fun fuel hf hl rest => ?_⟩
  cases fuel with
  | zero => omega
  | succ fuel =>
    simp (decide := true) only [readPropData, if_false, if_true, List.cons_append, List.nil_append]
    rw [Prog.clean_read1]; rfl

theorem RT_raw5 (b : Bytes) : RT (.newBinaryArray b) := by
  refine ⟨18, bytesArrayToBytes b, rfl, by simp [Property.newBinaryArray, Property.data], fun fuel hf hl rest => ?_⟩
  cases fuel with
  | zero => omega
  | succ fuel =>
    have : b.length ≤ maxAlloc := by
      simp only [bytesArrayToBytes, List.length_append] at hl
      simp only [sizeLimit, maxAlloc] at *; omega
    simp (decide := true) only [readPropData, Prog.bind_eq, if_false, if_true]
    rw [Prog.clean_bind_of (clean_readBytesArray _ _ this)]
    rfl

theorem RT_raw3 (b : Bytes) : RT (.raw 3 (bytesArrayToBytes b)) := by
  refine ⟨16, bytesArrayToBytes b, rfl, by simp [Property.data], fun fuel hf hl rest => ?_⟩
  cases fuel with
  | zero => omega
  | succ fuel =>
    have : b.length ≤ maxAlloc := by
      simp only [bytesArrayToBytes, List.length_append] at hl
      simp only [sizeLimit, maxAlloc] at *; omega
    simp (decide := true) only [readPropData, Prog.bind_eq, if_false, if_true]
    rw [Prog.clean_bind_of (clean_readBytesArray _ _ this)]
    rfl

theorem RT_block (kvs : Block) (hn : (kvs.map (·.1)).Nodup) (h : ∀ kv ∈ kvs, RT kv.2) : RT (.block kvs) := by
  obtain ⟨D, hD, hloop⟩ := block_loop kvs h hn
  refine ⟨11, stringArrayToBytes (kvs.map (·.1)) ++ D, rfl, ?_, fun fuel hf hl rest => ?_⟩
  · simp only [Property.data, hD]; rfl
  cases fuel with
  | zero => omega
  | succ fuel =>
    simp only [List.length_append] at hf hl
    simp (decide := true) only [readPropData, Prog.bind_eq, if_false, if_true, List.append_assoc]
    have hk := length_le_stringArray (kvs.map (·.1))
    have h1 : ∀ s ∈ kvs.map (·.1), s.length ≤ maxAlloc := fun s hs => by
      have := mem_le_stringArray hs
      simp only [sizeLimit, maxAlloc] at *; omega
    rw [Prog.clean_bind_of (clean_readStringArray _ _ h1 (limit_alloc (by omega)))]
    simp only
    rw [hloop fuel ?_ (by omega) rest [] (by simp)]
    · simp
    · have : 1 ≤ (stringArrayToBytes (kvs.map (·.1))).length := by
        have := putUvarint_length_pos (u64 (kvs.map (·.1)).length)
        simp only [stringArrayToBytes, List.length_append]; omega
      omega

/-- From `RT` of a value with a known code. -/
theorem RT.elem {p : Property} (h : RT p) (c : UInt8) (hc : p.code = .ok c) :
    ∃ d, p.data = .ok d ∧ ∀ fuel, d.length < fuel → d.length ≤ sizeLimit → ∀ rest,
      (readPropData fuel c).clean (d ++ rest) = some (.ok p, rest) := by
  obtain ⟨c', d, hc', hd, hr⟩ := h
  rw [hc] at hc'
  cases hc'
  exact ⟨d, hd, hr⟩

theorem constructible_RT {p : Property} (h : Constructible p) : RT p := by
  induction h with
  | str s => exact RT_str s
  | int i => exact RT_int i
  | f32 f => exact RT_f32 f
  | bool b => exact RT_bool b
  | byte b => exact RT_byte b
  | vec2 x y => exact RT_vec2 x y
  | vec3 x y z => exact RT_vec3 x y z
  | time t => exact RT_time t
  | block kvs hn h ih => exact RT_block kvs hn ih
  | stringArray l =>
    refine array_RT 0 13 _ rfl rfl (by decide) ?_ ?_
    · intro p hp d hd
      obtain ⟨s, _, rfl⟩ := List.mem_map.1 hp
      simp only [Property.data, Except.ok.injEq] at hd
      rw [← hd]; exact stringToBytes_pos s
    · intro p hp
      obtain ⟨s, _, rfl⟩ := List.mem_map.1 hp
      exact (RT_str s).elem 0 rfl
  | intArray l =>
    refine array_RT 1 14 _ rfl rfl (by decide) ?_ ?_
    · intro p hp d hd
      obtain ⟨s, _, rfl⟩ := List.mem_map.1 hp
      simp only [Property.newInt, Property.data, Except.ok.injEq] at hd
      rw [← hd, leBytes_length]; omega
    · intro p hp
      obtain ⟨s, _, rfl⟩ := List.mem_map.1 hp
      exact (RT_int s).elem 1 rfl
  | float32Array l =>
    refine array_RT 2 15 _ rfl rfl (by decide) ?_ ?_
    · intro p hp d hd
      obtain ⟨s, _, rfl⟩ := List.mem_map.1 hp
      simp only [Property.data, Except.ok.injEq] at hd
      rw [← hd, leBytes_length]; omega
    · intro p hp
      obtain ⟨s, _, rfl⟩ := List.mem_map.1 hp
      exact (RT_f32 s).elem 2 rfl
  | vector2Array l =>
    refine array_RT 6 19 _ rfl rfl (by decide) ?_ ?_
    · intro p hp d hd
      obtain ⟨s, _, rfl⟩ := List.mem_map.1 hp
      simp only [Property.data, Except.ok.injEq] at hd
      rw [← hd, List.length_append, leBytes_length]; omega
    · intro p hp
      obtain ⟨s, _, rfl⟩ := List.mem_map.1 hp
      exact (RT_vec2 _ _).elem 6 rfl
  | vector3Array l =>
    refine array_RT 7 20 _ rfl rfl (by decide) ?_ ?_
    · intro p hp d hd
      obtain ⟨s, _, rfl⟩ := List.mem_map.1 hp
      simp only [Property.data, Except.ok.injEq] at hd
      rw [← hd, List.length_append, List.length_append, leBytes_length]; omega
    · intro p hp
      obtain ⟨s, _, rfl⟩ := List.mem_map.1 hp
      exact (RT_vec3 _ _ _).elem 7 rfl
  | timestampArray l =>
    refine array_RT 12 25 _ rfl rfl (by decide) ?_ ?_
    · intro p hp d hd
      obtain ⟨s, _, rfl⟩ := List.mem_map.1 hp
      simp only [Property.data, Except.ok.injEq] at hd
      rw [← hd, leBytes_length]; omega
    · intro p hp
      obtain ⟨s, _, rfl⟩ := List.mem_map.1 hp
      exact (RT_time s).elem 12 rfl
  | metadataArray l h ih =>
    refine array_RT 11 24 _ rfl rfl (by decide) ?_ ?_
    · intro p hp d hd
      obtain ⟨s, _, rfl⟩ := List.mem_map.1 hp
      simp only [Property.data] at hd
      cases hb : Property.dataBlock s with
      | error e => simp [hb, bind, Except.bind] at hd
      | ok D =>
        simp only [hb, bind, Except.bind, Except.ok.injEq] at hd
        have := putUvarint_length_pos (u64 (s.map (·.1)).length)
        rw [← hd]; simp only [stringArrayToBytes, List.length_append]; omega
    · intro p hp
      obtain ⟨b, hb, rfl⟩ := List.mem_map.1 hp
      exact (ih b hb).elem 11 rfl
  | binaryArray b => exact RT_raw5 b
  | boolArray l => exact RT_raw3 _
  | rawBools b => exact RT_raw3 b

end Rap
