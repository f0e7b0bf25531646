import Verif.Proof.LayoutBasic
import Verif.Proof.WriteOk

/-! # Written files follow the grammar -/

namespace Rap
namespace Layout

/-! ## Metadata -/

theorem code_of_data {p : Property} {d : Bytes} (h : p.data = .ok d) : p.code = .ok (typeCode p) := by
  cases p with
  | nil => simp [Property.data] at h
  | bool b => cases b <;> rfl
  | _ => rfl

theorem metadataValues_eq (kvs : Block) : metadataValues kvs = Property.dataBlock kvs := by
  induction kvs with
  | nil => rfl
  | cons kv kvs ih =>
    obtain ⟨k, p⟩ := kv
    simp only [metadataValues, Property.dataBlock, Property.bytes, ih]
    cases p.code with
    | error e => rfl
    | ok c => cases p.data <;> rfl

/-- What is shown of a value. -/
def Puts (p : Property) : Prop := ∀ d, p.data = .ok d → d.length ≤ sizeLimit → Value p d

theorem values_put (kvs : Block) (h : ∀ kv ∈ kvs, Puts kv.2) (D : Bytes) (hD : Property.dataBlock kvs = .ok D)
    (hl : D.length ≤ sizeLimit) : Values kvs D := by
  induction kvs generalizing D with
  | nil =>
    simp only [Property.dataBlock, Except.ok.injEq] at hD
    subst hD; exact .nil
  | cons kv kvs ih =>
    obtain ⟨k, p⟩ := kv
    simp only [Property.dataBlock] at hD
    cases hd : p.data with
    | error e =>
      cases hc : p.code <;> simp [hc, hd, bind, Except.bind] at hD
    | ok d =>
      cases hr : Property.dataBlock kvs with
      | error e => simp [code_of_data hd, hd, hr, bind, Except.bind] at hD
      | ok D' =>
        simp only [code_of_data hd, hd, hr, bind, Except.bind, Except.ok.injEq] at hD
        subst hD
        simp only [List.cons_append, List.length_cons, List.length_append] at hl
        exact .cons (h (k, p) (by simp) d hd (by omega)) (ih (fun kv hkv => h kv (by simp [hkv])) D' hr (by omega))

theorem elements_put (ps : List Property) (h : ∀ p ∈ ps, Puts p) (D : Bytes) (hD : Property.dataList ps = .ok D)
    (hl : D.length ≤ sizeLimit) : Elements ps D := by
  induction ps generalizing D with
  | nil =>
    simp only [Property.dataList, Except.ok.injEq] at hD
    subst hD; exact .nil
  | cons p ps ih =>
    simp only [Property.dataList] at hD
    cases hd : p.data with
    | error e => simp [hd, bind, Except.bind] at hD
    | ok d =>
      cases hr : Property.dataList ps with
      | error e => simp [hd, hr, bind, Except.bind] at hD
      | ok D' =>
        simp only [hd, hr, bind, Except.bind, Except.ok.injEq] at hD
        subst hD
        simp only [List.length_append] at hl
        exact .cons (h p (by simp) d hd (by omega)) (ih (fun kv hkv => h kv (by simp [hkv])) D' hr (by omega))

theorem counted_length {α : Type} {R : α → Bytes → Prop} {l : List α} {b : Bytes} (h : Counted R l b) : 1 ≤ b.length := by
  cases h with
  | mk h1 _ => have := varint_length h1; simp only [List.length_append]; omega

theorem value_pos {p : Property} {d : Bytes} (h : Value p d)
    (hc : typeCode p ∈ ([0, 1, 2, 6, 7, 11, 12] : List UInt8)) : 1 ≤ d.length := by
  cases h with
  | str h => have := text_length h; omega
  | int h => rw [(fixed_eq h).1, leBytes_length]; omega
  | f32 h => rw [(fixed_eq h).1, leBytes_length]; omega
  | bool x => cases x <;> simp [typeCode] at hc
  | byte c => simp
  | vec2 h _ => rw [(fixed_eq h).1, List.length_append, leBytes_length]; omega
  | vec3 h _ _ => rw [(fixed_eq h).1, List.length_append, leBytes_length]; omega
  | time h => rw [(fixed_eq h).1, leBytes_length]; omega
  | block _ h _ => have := counted_length h; rw [List.length_append]; omega
  | array _ _ h _ => have := varint_length h; rw [List.length_append]; omega
  | raw _ h => have := text_length h; omega

theorem array_put (c : UInt8) (ps : List Property) (hc : c ∈ ([0, 1, 2, 6, 7, 11, 12] : List UInt8))
    (ht : ∀ p ∈ ps, typeCode p = c) (h : ∀ p ∈ ps, Puts p) : Puts (.array c ps) := by
  intro d hd hl
  simp only [Property.data] at hd
  cases hD : Property.dataList ps with
  | error e => simp [hD, bind, Except.bind] at hd
  | ok D =>
    simp only [hD, bind, Except.bind, Except.ok.injEq] at hd
    subst hd
    simp only [List.length_append] at hl
    have hcount := dataList_length_le ps D hD fun p hp d hd => by
      by_cases hdl : d.length ≤ sizeLimit
      · exact value_pos (h p hp d hd hdl) (by rw [ht p hp]; exact hc)
      · simp only [sizeLimit] at hdl; omega
    rw [u64_of_lt (by simp only [sizeLimit] at hl; omega)]
    exact .array hc ht (varint_put _) (elements_put ps h D hD (by omega))

theorem raw_put (c : UInt8) (s : Bytes) (hc : c ∈ ([3, 5] : List UInt8)) : Puts (.raw c (bytesArrayToBytes s)) := by
  intro d hd hl
  simp only [Property.data, Except.ok.injEq] at hd
  subst hd
  refine .raw hc (text_put' s ?_)
  simp only [bytesArrayToBytes, List.length_append, sizeLimit] at hl; omega

theorem block_put (kvs : Block) (hn : (kvs.map (·.1)).Nodup) (h : ∀ kv ∈ kvs, Puts kv.2) : Puts (.block kvs) := by
  intro d hd hl
  simp only [Property.data] at hd
  cases hD : Property.dataBlock kvs with
  | error e => simp [hD, bind, Except.bind] at hd
  | ok D =>
    simp only [hD, bind, Except.bind, Except.ok.injEq] at hd
    subst hd
    simp only [List.length_append] at hl
    exact .block hn (texts_put _ (by omega)) (values_put kvs h D hD (by omega))

theorem puts_of {p : Property} {d : Bytes} (hd : p.data = .ok d) (h : d.length ≤ sizeLimit → Value p d) : Puts p := by
  intro d' hd' hl
  rw [hd, Except.ok.injEq] at hd'
  subst hd'; exact h hl

theorem puts_str (s : Bytes) : Puts (.str s) := puts_of (by simp only [Property.data]) fun hl => .str (text_put s (by
  have := length_le_stringToBytes s
  simp only [sizeLimit] at hl; omega))
theorem puts_int (i : BitVec 32) : Puts (.int32 i) :=
  puts_of (by simp only [Property.data]) fun _ => .int (fixed_le 4 _ i.isLt)
theorem puts_f32 (f : F32) : Puts (.f32 f) := puts_of (by simp only [Property.data]) fun _ => .f32 (single_le f)
theorem puts_time (t : BitVec 64) : Puts (.time t) :=
  puts_of (by simp only [Property.data]) fun _ => .time (fixed_le 8 _ t.isLt)
theorem puts_vec2 (x y : F64) : Puts (.vec2 x y) :=
  puts_of (by simp only [Property.data]) fun _ => .vec2 (double_le x) (double_le y)
theorem puts_vec3 (x y z : F64) : Puts (.vec3 x y z) :=
  puts_of (by simp only [Property.data, List.append_assoc]) fun _ => .vec3 (double_le x) (double_le y) (double_le z)

theorem value_put {p : Property} (h : Constructible p) : Puts p := by
  induction h with
  | str s => exact puts_str s
  | int i => exact puts_int _
  | f32 f => exact puts_f32 f
  | bool b => exact puts_of (by simp only [Property.data]) fun _ => .bool b
  | byte b => exact puts_of (by simp only [Property.data]) fun _ => .byte b
  | vec2 x y => exact puts_vec2 x y
  | vec3 x y z => exact puts_vec3 x y z
  | time t => exact puts_time t
  | block kvs hn h ih => exact block_put kvs hn ih
  | stringArray l =>
    refine array_put 0 _ (by decide) ?_ ?_ <;> (intro p hp; obtain ⟨s, _, rfl⟩ := List.mem_map.1 hp)
    · rfl
    · exact puts_str s
  | intArray l =>
    refine array_put 1 _ (by decide) ?_ ?_ <;> (intro p hp; obtain ⟨s, _, rfl⟩ := List.mem_map.1 hp)
    · rfl
    · exact puts_int _
  | float32Array l =>
    refine array_put 2 _ (by decide) ?_ ?_ <;> (intro p hp; obtain ⟨s, _, rfl⟩ := List.mem_map.1 hp)
    · rfl
    · exact puts_f32 s
  | vector2Array l =>
    refine array_put 6 _ (by decide) ?_ ?_ <;> (intro p hp; obtain ⟨s, _, rfl⟩ := List.mem_map.1 hp)
    · rfl
    · exact puts_vec2 _ _
  | vector3Array l =>
    refine array_put 7 _ (by decide) ?_ ?_ <;> (intro p hp; obtain ⟨s, _, rfl⟩ := List.mem_map.1 hp)
    · rfl
    · exact puts_vec3 _ _ _
  | timestampArray l =>
    refine array_put 12 _ (by decide) ?_ ?_ <;> (intro p hp; obtain ⟨s, _, rfl⟩ := List.mem_map.1 hp)
    · rfl
    · exact puts_time _
  | metadataArray l h ih =>
    refine array_put 11 _ (by decide) ?_ ?_ <;> (intro p hp; obtain ⟨s, hs, rfl⟩ := List.mem_map.1 hp)
    · rfl
    · exact ih s hs
  | binaryArray b => exact raw_put 5 b (by decide)
  | boolArray l => exact raw_put 3 _ (by decide)
  | rawBools b => exact raw_put 3 b (by decide)

/-! ## Times -/

theorem many_length {α : Type} {R : α → Bytes → Prop} {f : α → Bytes} (l : List α) (h : ∀ x, R x (f x)) :
    Many R l (l.map f).flatten := many_map l fun x _ => h x

theorem many_map' {α β : Type} {R : β → Bytes → Prop} {f : α → Bytes} (g : α → β) (l : List α)
    (h : ∀ x ∈ l, R (g x) (f x)) : Many R (l.map g) (l.map f).flatten := by
  induction l with
  | nil => exact .nil
  | cons a l ih => exact .cons (h a (by simp)) (ih fun x hx => h x (by simp [hx]))

theorem single_put (x : F64) : Single (narrow x) (putF32 x) := single_le _

theorem scanl_timeSums (gap cur : F64) (codes : List Bytes) :
    codes.scanl (fun t c => t.add (point 0 gap c)) cur = cur :: timeSums gap cur codes := by
  induction codes generalizing cur with
  | nil => rfl
  | cons c codes ih => rw [List.scanl_cons, ih, timeSums, point_eq]

theorem encTimeLoop_eq (gap total : F64) (ts : List F64) : encTimeLoop gap total ts = (timeCodes gap total ts).flatten := by
  induction ts generalizing total with
  | nil => rfl
  | cons t ts ih => rw [encTimeLoop, timeCodes, List.flatten_cons, ih]

theorem timeCodes_two (gap total : F64) (ts : List F64) : ∀ c ∈ timeCodes gap total ts, c.length = 2 := by
  induction ts generalizing total with
  | nil => simp [timeCodes]
  | cons t ts ih =>
    intro c hc
    rw [timeCodes] at hc
    rcases List.mem_cons.1 hc with rfl | hc
    · exact bstEnc_length _ _ _ _
    · exact ih _ c hc

theorem times_put (tech : Nat) (ht : tech ≤ 2) (ts : List F64) (h : (encTime tech ts).length ≤ sizeLimit) :
    Times (storedTimes tech ts) (encTime tech ts) := by
  have hc := encTime_count tech ht ts
  have h64 : ts.length < 2 ^ 64 := by simp only [sizeLimit] at *; omega
  have h3 : tech = 0 ∨ tech = 1 ∨ tech = 2 := by omega
  rw [encTime, u64_of_lt h64]
  rcases h3 with rfl | rfl | rfl
  · exact .raw64 (varint_put _) (many_map ts fun t _ => double_le t)
  · have := Times.raw32 (fs := ts.map narrow) (varint_put _)
      (many_map' (R := Single) (f := putF32) narrow ts fun t _ => single_put t)
    rw [List.map_map, List.length_map] at this
    exact this
  · match ts with
    | [] => simpa [encTimeBst, storedTimes, bstTimes] using Times.none (varint_put 0)
    | [t] => exact .one (varint_put 1) (single_put _)
    | t :: u :: ts =>
      have := Times.bst (start := narrow (startTime (t :: u :: ts))) (gap := narrow (maxGap (t :: u :: ts)))
        (codes := timeCodes (maxGap (t :: u :: ts)) (startTime (t :: u :: ts)) (u :: ts))
        (by simp [timeCodes]) (timeCodes_two _ _ _) (varint_put _) (single_put _) (single_put _)
      rw [scanl_timeSums, timeCodes_length, ← encTimeLoop_eq] at this
      simp only [storedTimes, bstTimes, encTimeBst, List.append_assoc]
      exact this

/-! ## Captures -/

theorem vec32_put (v : V3) : Vec32 v.near32 (putV32 v) := by
  rw [putV32, List.append_assoc]; exact .mk (single_put _) (single_put _) (single_put _)

theorem scanl_octSums (n : Nat) (lo hi cur : V3) (cells : List (List UInt8)) (hl : ∀ c ∈ cells, c.length = 8 * n)
    (h8 : ∀ c ∈ cells, ∀ x ∈ c, x < 8) :
    (cells.map (octBytes n)).scanl (move lo hi) cur = cur :: octSums lo hi cur cells := by
  induction cells generalizing cur with
  | nil => rfl
  | cons c cells ih =>
    rw [List.map_cons, List.scanl_cons, ih _ (fun c hc => hl c (by simp [hc])) (fun c hc => h8 c (by simp [hc])), octSums,
      move_eq lo hi cur n _ (octBytes_length n c), octCells_octBytes n c (hl c (by simp)) (h8 c (by simp))]

theorem octEncLoop_eq (n : Nat) (lo hi q : V3) (ps : List V3) :
    octEncLoop n lo hi q ps = ((octChoices n lo hi q ps).map (octBytes n)).flatten := by
  induction ps generalizing q with
  | nil => rfl
  | cons p ps ih => rw [octEncLoop, octChoices, List.map_cons, List.flatten_cons, ih]

theorem octChoices_cells (n : Nat) (lo hi q : V3) (ps : List V3) :
    (∀ c ∈ octChoices n lo hi q ps, c.length = 8 * n) ∧ ∀ c ∈ octChoices n lo hi q ps, ∀ x ∈ c, x < 8 := by
  induction ps generalizing q with
  | nil => simp [octChoices]
  | cons p ps ih =>
    rw [octChoices]
    refine ⟨fun c hc => ?_, fun c hc => ?_⟩ <;> rcases List.mem_cons.1 hc with rfl | hc
    · exact cells_length _ _ _ _
    · exact (ih _).1 c hc
    · exact cells_lt _ _ _ _
    · exact (ih _).2 c hc

theorem oct_put (tech : UInt8) (n : Nat) (ht : tech = 2 ∧ n = 2 ∨ tech = 3 ∧ n = 1) (vs : List V3) :
    Positions (octStored n vs) (tech :: encOct n vs) := by
  have h23 : tech = 2 ∨ tech = 3 := by rcases ht with h | h <;> simp [h.1]
  match vs with
  | [] => exact .octNone h23
  | [v] => exact .octOne h23 (vec32_put v)
  | v :: u :: vs =>
    obtain ⟨h1, h2⟩ := octChoices_cells n (octMin (v :: u :: vs)) (octMax (v :: u :: vs)) v (u :: vs)
    have := Positions.oct (tech := tech) (size := 3 * n)
      (codes := (octChoices n (octMin (v :: u :: vs)) (octMax (v :: u :: vs)) v (u :: vs)).map (octBytes n))
      (by rcases ht with ⟨rfl, rfl⟩ | ⟨rfl, rfl⟩ <;> simp) (by simp [octChoices])
      (by intro x hx; obtain ⟨c, _, rfl⟩ := List.mem_map.1 hx; exact octBytes_length n c)
      (vec32_put (octMin (v :: u :: vs))) (vec32_put (octMax (v :: u :: vs))) (vec32_put v)
    rw [scanl_octSums n _ _ _ _ h1 h2, ← octEncLoop_eq] at this
    simp only [octStored, encOct, List.append_assoc]
    exact this

theorem positions_put (t : Fin 4) (vs : List V3) :
    Positions (storedPositions t.val vs) (t.val.toUInt8 ::
        (if t.val = 0 then encRaw64 8 vs else if t.val = 1 then encRaw32 vs
          else if t.val = 2 then encOct 2 vs else if t.val = 3 then encOct 1 vs else [])) := by
  match t with
  | 0 =>
    refine .raw64 (many_map vs fun v _ => ?_)
    have : ∀ x, putRaw64 8 x = leBytes 8 x.toNat := fun x => by simp [putRaw64]
    rw [this, this, this, List.append_assoc]
    exact .mk (double_le _) (double_le _) (double_le _)
  | 1 => exact .raw32 (many_map' V3.near32 vs fun v _ => vec32_put v)
  | 2 => exact oct_put 2 2 (by simp) vs
  | 3 => exact oct_put 3 1 (by simp) vs

theorem rotations_put (t : Fin 3) (vs : List V3) :
    Rotations (storedRotations t.val vs) (t.val.toUInt8 ::
        (if t.val = 0 then encRaw64 10 vs else if t.val = 1 then encRaw32 vs
          else if t.val = 2 then encRaw16 vs else [])) := by
  match t with
  | 0 =>
    refine .raw64 (many_map vs fun v _ => ?_)
    have : ∀ x, putRaw64 10 x = leBytes 8 x.toNat ++ [0, 0] := fun x => by simp [putRaw64]
    rw [this, this, this]
    have := Vec80.mk (a' := [0, 0]) (b' := [0, 0]) (c' := [0, 0]) (double_le v.x) (double_le v.y) (double_le v.z) rfl rfl rfl
    simpa only [List.append_assoc] using this
  | 1 => exact .raw32 (many_map' V3.near32 vs fun v _ => vec32_put v)
  | 2 =>
    have h16 : ∀ vs : List V3, Many Vec16 (vs.map fun v => ⟨angle16 v.x, angle16 v.y, angle16 v.z⟩)
        (vs.map fun v => putAngle v.x ++ putAngle v.y ++ putAngle v.z).flatten := by
      intro vs
      refine many_map' _ vs fun v _ => ?_
      have := Vec16.mk (a := putAngle v.x) (b := putAngle v.y) (c := putAngle v.z) (bstEnc_length _ _ _ _)
        (bstEnc_length _ _ _ _) (bstEnc_length _ _ _ _)
      simp only [point_eq] at this
      rw [List.append_assoc]
      exact this
    match vs with
    | [] => exact .raw16 (by decide) .nil
    | [v] => exact .one (vec32_put _)
    | v :: u :: vs => exact .raw16 (by simp [storedRotations, stored16]) (h16 (v :: u :: vs))

theorem floats_put (t : Fin 3) (vs : List F64) :
    Floats (storedFloats t.val vs) (t.val.toUInt8 ::
      (if t.val = 0 then floatEnc64 vs else if t.val = 1 then floatEnc32 vs else floatEncBst vs)) := by
  match t with
  | 0 => exact .raw64 (many_map vs fun v _ => double_le v)
  | 1 =>
    have := Floats.raw32 (fs := vs.map narrow) (many_map' (R := Single) (f := putF32) narrow vs fun t _ => single_put t)
    rw [List.map_map] at this
    exact this
  | 2 =>
    have := Floats.bst (single_put (vs.foldl fmin F64.inf)) (single_put (vs.foldl fmax F64.ninf))
      (codes := vs.map fun v => bstEnc v (vs.foldl fmin F64.inf) ((vs.foldl fmax F64.ninf).sub (vs.foldl fmin F64.inf)) 2)
      (by intro c hc; obtain ⟨v, _, rfl⟩ := List.mem_map.1 hc; exact bstEnc_length _ _ _ _)
    rw [List.map_map] at this
    have hf : (point (widen (narrow (vs.foldl fmin F64.inf)))
        (widen ((narrow (vs.foldl fmax F64.ninf)).sub (narrow (vs.foldl fmin F64.inf))))) =
        bstDec (widen (narrow (vs.foldl fmin F64.inf)))
        (widen ((narrow (vs.foldl fmax F64.ninf)).sub (narrow (vs.foldl fmin F64.inf)))) := by
      funext c; exact point_eq _ _ _
    rw [hf, ← List.append_assoc] at this
    exact this

/-- Captures of each of the package's encoders, in the form `Decodes` has. -/
def Follows (b : Builtin) : Prop :=
  ∀ (cs : List Coll) (h : Bytes) (bs : List Bytes), (∀ c ∈ cs, GoodColl c) → b.encoder.encode cs = .ok (.ok (h, bs)) →
    h.length ≤ sizeLimit → ∀ (j : Nat) (c : Coll) (d : Bytes), cs[j]? = some c → bs[j]? = some d →
      d.length ≤ sizeLimit → ∀ ts : List F64, ts.length = c.times.length →
        Captures c.name ts b.encoder.sig h (b.stored c ts) d

theorem sig_position : positionSig = sigPosition := by decide +kernel
theorem sig_euler : eulerSig = sigEuler := by decide +kernel
theorem sig_event : eventSig = sigEvent := by decide +kernel
theorem sig_enum : enumSig = sigEnum := by decide +kernel
theorem sig_float : floatSig = sigFloat := by decide +kernel

theorem octSums_length (lo hi cur : V3) (cells : List (List UInt8)) : (octSums lo hi cur cells).length = cells.length := by
  induction cells generalizing cur with
  | nil => rfl
  | cons c cells ih => simp [octSums, ih]

theorem octChoices_length (n : Nat) (lo hi q : V3) (ps : List V3) : (octChoices n lo hi q ps).length = ps.length := by
  induction ps generalizing q with
  | nil => rfl
  | cons c cells ih => simp [octChoices, ih]

theorem octStored_length (n : Nat) (vs : List V3) : (octStored n vs).length = vs.length := by
  match vs with
  | [] => rfl
  | [_] => rfl
  | v :: u :: vs => simp [octStored, octSums_length, octChoices_length]

theorem storedPositions_length (t : Nat) (vs : List V3) : (storedPositions t vs).length = vs.length := by
  unfold storedPositions
  split
  · rfl
  · split
    · simp
    · split <;> exact octStored_length _ vs

theorem storedRotations_length (t : Nat) (vs : List V3) : (storedRotations t vs).length = vs.length := by
  unfold storedRotations
  split
  · rfl
  · split
    · simp
    · match vs with
      | [] => rfl
      | [_] => rfl
      | v :: u :: vs => simp [stored16]

theorem storedFloats_length (t : Nat) (vs : List F64) : (storedFloats t vs).length = vs.length := by
  unfold storedFloats bstFloats
  split
  · rfl
  · split <;> simp

theorem follows_position (t : Fin 4) : Follows (.position t) := by
  intro cs h bs _ henc _ j c d hc hb _ ts hts
  simp only [Builtin.encoder, positionEncoder, positionEncode] at henc
  cases hm : mapGo (positionEncode1 t.val) cs with
  | error x => simp [hm, bind, Except.bind] at henc
  | ok bs' =>
    simp only [hm, bind, Except.bind, Except.ok.injEq, Prod.mk.injEq] at henc
    obtain ⟨rfl, rfl⟩ := henc
    have he := (mapGo_spec hm).2 j c d hc hb
    simp only [positionEncode1] at he
    cases hcast : castPosition c with
    | error x => simp [hcast, bind, Except.bind] at he
    | ok caps =>
      simp only [hcast, bind, Except.bind, Except.ok.injEq] at he
      have hlen := (castPosition_ok hcast).1
      rw [stored_position t c caps hcast, ← he]
      have := Captures.position (name := c.name) (ts := ts) (by rw [storedPositions_length]; simp [hlen, hts])
        (positions_put t (caps.map (·.2)))
      rw [sig_position] at this
      exact this

theorem follows_euler (t : Fin 3) : Follows (.euler t) := by
  intro cs h bs _ henc _ j c d hc hb _ ts hts
  simp only [Builtin.encoder, eulerEncoder, eulerEncode] at henc
  cases hm : mapGo (eulerEncode1 t.val) cs with
  | error x => simp [hm, bind, Except.bind] at henc
  | ok bs' =>
    simp only [hm, bind, Except.bind, Except.ok.injEq, Prod.mk.injEq] at henc
    obtain ⟨rfl, rfl⟩ := henc
    have he := (mapGo_spec hm).2 j c d hc hb
    simp only [eulerEncode1] at he
    cases hcast : castEuler c with
    | error x => simp [hcast, bind, Except.bind] at he
    | ok caps =>
      simp only [hcast, bind, Except.bind, Except.ok.injEq] at he
      have hlen := (castEuler_ok hcast).1
      rw [stored_euler t c caps hcast, ← he]
      have := Captures.euler (name := c.name) (ts := ts) (by rw [storedRotations_length]; simp [hlen, hts])
        (rotations_put t (caps.map (·.2)))
      rw [sig_euler] at this
      exact this

theorem follows_float (t : Fin 3) : Follows (.float t) := by
  intro cs h bs _ henc _ j c d hc hb _ ts hts
  simp only [Builtin.encoder, floatEncoder, floatEncode] at henc
  cases hm : floatStreams t.val cs with
  | error x => simp [hm] at henc
  | ok bs' =>
    simp only [hm, Except.ok.injEq, Prod.mk.injEq] at henc
    obtain ⟨rfl, rfl⟩ := henc
    have he := (floatStreams_spec hm).2 j c d hc hb
    simp only [floatEncode1, if_pos (show t.val ≤ 2 by omega)] at he
    cases hcast : castFloat c with
    | error x => simp [hcast] at he
    | ok vs =>
      simp only [hcast, Except.ok.injEq] at he
      have hlen := (castFloat_ok hcast).1
      rw [stored_float t c vs hcast, ← he]
      have := Captures.float (name := c.name) (ts := ts) (by rw [storedFloats_length]; omega) (floats_put t vs)
      rw [sig_float] at this
      exact this

theorem ref_put {table : List Bytes} {i : Nat} {s : Bytes} (h : table[i]? = some s) : Ref table s (putUvarint i) :=
  .mk h (varint_put i)

theorem refs_put {table : List Bytes} {is : List Nat} {ss : List Bytes} (h : Finds table is ss)
    (hl : (uvarintArrayToBytes is).length ≤ sizeLimit) (ht : table.length ≤ sizeLimit) :
    Counted (Ref table) ss (uvarintArrayToBytes is) := by
  have hc := length_le_uvarintArray is
  have hlen := h.length_eq
  rw [uvarintArrayToBytes, u64_of_lt (by simp only [sizeLimit] at hl; omega), hlen]
  refine .mk (varint_put _) ?_
  clear hc hlen hl
  induction h with
  | nil => exact .nil
  | cons h1 _ ih =>
    rw [List.map_cons, List.flatten_cons, u64_of_lt (by have := lt_of_get h1; simp only [sizeLimit] at ht; omega)]
    exact .cons (ref_put h1) ih

theorem follows_enum : Follows .enum := by
  intro cs h bs _ henc hh j c d hc hb hd ts hts
  simp only [Builtin.encoder, enumEncoder, enumEncode] at henc
  cases hs : enumStreams [] cs with
  | error x => simp [hs, bind, Except.bind] at henc
  | ok r =>
    obtain ⟨dict, blocks⟩ := r
    simp only [hs, bind, Except.bind, Except.ok.injEq, Prod.mk.injEq] at henc
    obtain ⟨rfl, rfl⟩ := henc
    obtain ⟨n, ms, caps, idx, rfl, hf, rfl⟩ := (enumStreams_spec hs).2.2 j c d hc hb
    simp only [List.length_append] at hd
    have l1 := length_le_stringArray dict
    have := Captures.enum (name := n) (ts := ts) (ms := ms) (vs := caps.map (·.2))
      (by simpa [Coll.times] using hts) (texts_put dict hh) (refs_put hf (by omega) (by omega))
      (b := (caps.map fun c => putUvarint c.2.toNat).flatten) (many_map' _ caps fun c _ => varint_put _)
    rw [sig_enum] at this
    exact this

/-! ### event -/

theorem finds_block {table : List Bytes} {is : List Nat} {kvs : Block} (h : Finds table is (kvs.map (·.1))) :
    List.Forall₂ (fun i (kv : Bytes × Property) => table[i]? = some kv.1) is kvs := by
  unfold Finds at h
  rwa [List.forall₂_map_right_iff] at h

theorem eventKeys_data {keys keys' : List Bytes} {kvs : Block} {is : List Nat} {bytes : Bytes}
    (h : eventKeys keys kvs = .ok (keys', is, bytes)) : Property.dataBlock kvs = .ok bytes := by
  induction kvs generalizing keys keys' is bytes with
  | nil =>
    simp only [eventKeys, Except.ok.injEq, Prod.mk.injEq] at h
    rw [← h.2.2]; rfl
  | cons kv kvs ih =>
    obtain ⟨k, v⟩ := kv
    simp only [eventKeys, bind, Except.bind] at h
    simp only [Property.dataBlock, bind, Except.bind]
    cases hc : v.code with
    | error e => simp [hc] at h
    | ok c =>
      cases hd : v.data with
      | error e => simp [hc, hd] at h
      | ok d =>
        simp only [hc, hd] at h
        cases hk : eventKeys (dictAdd keys k).1 kvs with
        | error x => simp [hk] at h
        | ok r =>
          obtain ⟨keys2, is2, bytes2⟩ := r
          simp only [hk, Except.ok.injEq, Prod.mk.injEq] at h
          rw [ih hk, ← h.2.2]

theorem meta_put {K : List Bytes} {is : List Nat} {md : Block} {v : Bytes} (hg : GoodBlock md)
    (hf : Finds K is (md.map (·.1))) (hK : K.length ≤ sizeLimit) (hv : Property.dataBlock md = .ok v)
    (hl : (uvarintArrayToBytes is).length + v.length ≤ sizeLimit) : Meta K md (uvarintArrayToBytes is ++ v) :=
  .mk hg.1 (finds_block hf) (varints_put is (by omega) fun i hi => by
      have := hf.lt i hi
      simp only [sizeLimit] at hK; omega)
    (values_put md (fun kv hkv => value_put (hg.2 kv hkv)) v hv (by omega))

theorem eventCaps_put {names keys names' keys' : List Bytes} {caps : List (F64 × Bytes × Block)} {bytes : Bytes}
    (h : eventCaps names keys caps = .ok (names', keys', bytes)) (hg : ∀ cap ∈ caps, GoodBlock cap.2.2) :
    names <+: names' ∧ keys <+: keys' ∧
      ∀ N K, names' <+: N → keys' <+: K → K.length ≤ sizeLimit → bytes.length ≤ sizeLimit →
        Many (Event N K) (caps.map (·.2)) bytes := by
  induction caps generalizing names keys names' keys' bytes with
  | nil =>
    simp only [eventCaps, Except.ok.injEq, Prod.mk.injEq] at h
    obtain ⟨rfl, rfl, rfl⟩ := h
    exact ⟨List.prefix_rfl, List.prefix_rfl, fun N K _ _ _ _ => .nil⟩
  | cons cap caps ih =>
    obtain ⟨t0, name, md⟩ := cap
    have hmd : GoodBlock md := hg (t0, name, md) (by simp)
    simp only [eventCaps, bind, Except.bind] at h
    obtain ⟨h1, h2⟩ := dictAdd_spec names name
    cases hk : eventKeys keys md with
    | error x => simp [hk] at h
    | ok r =>
      obtain ⟨keys1, is, values⟩ := r
      simp only [hk] at h
      cases hc : eventCaps (dictAdd names name).1 keys1 caps with
      | error x => simp [hc] at h
      | ok r =>
        obtain ⟨names2, keys2, more⟩ := r
        simp only [hc, Except.ok.injEq, Prod.mk.injEq] at h
        obtain ⟨rfl, rfl, rfl⟩ := h
        obtain ⟨k1, k2, k3, -⟩ := eventKeys_spec hk (fun kv hkv => constructible_RT (hmd.2 kv hkv)) hmd.1
        obtain ⟨c1, c2, c3⟩ := ih hc (fun cap hcap => hg cap (by simp [hcap]))
        refine ⟨h1.trans c1, k1.trans c2, fun N K hN hK hKl hl => ?_⟩
        simp only [List.length_append] at hl
        have hname : N[(dictAdd names name).2]? = some name := prefix_get hN (prefix_get c1 h2)
        have hm := meta_put hmd ((k3.mono c2).mono hK) hKl (eventKeys_data hk) (by omega)
        have := Many.cons (Event.mk (e := (name, md)) (ref_put hname) hm) (c3 N K hN hK hKl (by omega))
        rw [List.map_cons, List.append_assoc (putUvarint _)]
        exact this

theorem eventStreams_put {names keys names' keys' : List Bytes} {cs : List Coll} {bs : List Bytes}
    (h : eventStreams names keys cs = .ok (.ok (names', keys', bs))) (hg : ∀ c ∈ cs, GoodColl c) :
    names <+: names' ∧ keys <+: keys' ∧
      ∀ (j : Nat) (c : Coll) (b : Bytes), cs[j]? = some c → bs[j]? = some b →
      ∀ N K, names' <+: N → keys' <+: K → K.length ≤ sizeLimit → b.length ≤ sizeLimit →
        Many (Event N K) ((eventVals c).map (·.2)) b := by
  induction cs generalizing names keys names' keys' bs with
  | nil =>
    simp only [eventStreams, Except.ok.injEq, Prod.mk.injEq] at h
    obtain ⟨rfl, rfl, rfl⟩ := h
    simp
  | cons c cs ih =>
    obtain ⟨names1, keys1, block, blocks, hc, hs, rfl, hcase⟩ := eventStreams_cons h
    obtain ⟨c1, c2, c3⟩ := eventCaps_put hc (eventVals_good (hg c (by simp)))
    obtain ⟨s1, s2, s3⟩ := ih hs (fun c hc => hg c (by simp [hc]))
    refine ⟨c1.trans s1, c2.trans s2, fun j c' b' hc' hb' => ?_⟩
    cases j with
    | zero =>
      simp only [List.getElem?_cons_zero, Option.some.injEq] at hc' hb'
      subst hc' hb'
      exact fun N K hN hK => c3 N K (s1.trans hN) (s2.trans hK)
    | succ j => simp only [List.getElem?_cons_succ] at hc' hb'; exact s3 j c' b' hc' hb'

theorem follows_event : Follows .event := by
  intro cs h bs hg henc hh j c d hc hb hd ts hts
  simp only [Builtin.encoder, eventEncoder, eventEncode] at henc
  cases hs : eventStreams [] [] cs with
  | error x => simp [hs, bind, Except.bind] at henc
  | ok r =>
    cases r with
    | error e => simp [hs, bind, Except.bind] at henc
    | ok r =>
      obtain ⟨names, keys, blocks⟩ := r
      simp only [hs, bind, Except.bind, Except.ok.injEq, Prod.mk.injEq] at henc
      obtain ⟨rfl, rfl⟩ := henc
      obtain ⟨h3, h4, -⟩ := (eventStreams_spec hs hg).2.2.2 j c d hc hb
      simp only [List.length_append] at hh
      have l2 := length_le_stringArray keys
      have hmany := (eventStreams_put hs hg).2.2 j c d hc hb names keys List.prefix_rfl List.prefix_rfl (by omega) hd
      rw [h4]
      have := Captures.event (name := c.name) (ts := ts) (by simp; omega) (texts_put names (by omega))
        (texts_put keys (by omega)) hmany
      rw [sig_event] at this
      exact this

theorem follows (b : Builtin) : Follows b := by
  cases b with
  | event => exact follows_event
  | enum => exact follows_enum
  | position t => exact follows_position t
  | euler t => exact follows_euler t
  | float t => exact follows_float t

/-! ## The tree -/

open WProg (Emits)

theorem md_put (keys : List Bytes) (hkeys : keys.length ≤ sizeLimit) (block : Block) (hg : GoodBlock block)
    (hk : ∀ kv ∈ block, kv.1 ∈ keys) :
    ∃ d, Emits (writeMetadata keys block) () d ∧ (d.length ≤ sizeLimit → Meta keys block d) := by
  obtain ⟨D, hD, -⟩ := metadataValues_spec keys block (fun kv hkv => constructible_RT (hg.2 kv hkv)) hg.1 hk
  refine ⟨uvarintArrayToBytes (block.map fun kv => keyIndex keys kv.1) ++ D, ?_, fun hl => ?_⟩
  · have h1 : Emits (WProg.put D |>.bind fun _ => (WProg.pure () : WProg Unit)) () D := by
      have := Emits.bind (Emits.put D) (f := fun _ => (WProg.pure () : WProg Unit)) (Emits.pure ())
      simpa using this
    exact Emits.ofGo_bind hD (Emits.bind (Emits.put _) h1)
  · rw [List.length_append] at hl
    refine meta_put hg ?_ hkeys (by rw [← metadataValues_eq]; exact hD) hl
    unfold Finds
    rw [List.forall₂_map_left_iff, List.forall₂_map_right_iff, List.forall₂_same]
    intro kv hkv
    have hmem := hk kv hkv
    rw [keyIndex, if_pos hmem, List.getElem?_eq_some_iff]
    exact ⟨List.idxOf_lt_length_of_mem hmem, List.getElem_idxOf _⟩

/-- Stream `i` of the writer's tables holds `view c`, for the collection `c`. -/
def StreamPut (T : Tables) (encs : List (Bytes × Bytes)) (view : Coll → Coll) (i : Nat) (c : Coll) : Prop :=
  ∃ k b sig h, T.encIdx[i]? = some k ∧ k < 2 ^ 64 ∧ T.blocks[i]? = some b ∧ encs[k]? = some (sig, h) ∧
    (view c).name = c.name ∧
    (b.length ≤ sizeLimit → Captures c.name (storedTimes T.tech c.times) sig h (view c) b)

theorem streams_put (T : Tables) (encs : List (Bytes × Bytes)) (view : Coll → Coll) (ht : T.tech ≤ 2) (cs : List Coll)
    (off : Nat) (h : ∀ i c, cs[i]? = some c → StreamPut T encs view (off + i) c) :
    ∃ d, Emits (writeStreams T off (cs.map some)) () d ∧ cs.length ≤ d.length ∧
      (d.length ≤ sizeLimit → Many (Stream encs) (cs.map view) d) := by
  induction cs generalizing off with
  | nil => exact ⟨[], Emits.pure (), by simp, fun _ => .nil⟩
  | cons c cs ih =>
    obtain ⟨k, b, sig, hd, h1, h2, h3, h4, h6, h5⟩ := h 0 c rfl
    rw [Nat.add_zero] at h1 h3
    obtain ⟨d, hd1, hd2, hd3⟩ := ih (off + 1) (fun i c' hc' => by
      have := h (i + 1) c' (by simpa using hc')
      rwa [show off + 1 + i = off + (i + 1) by omega])
    refine ⟨putUvarint (u64 k) ++ (stringToBytes c.name ++ (encTime T.tech c.times ++ (bytesArrayToBytes b ++ d))),
      ?_, ?_, ?_⟩
    · have hg1 : goGet T.encIdx off = .ok k := by rw [goGet, h1]
      have hg2 : goGet T.blocks off = .ok b := by rw [goGet, h3]
      have e1 : Emits (do let _ ← WProg.put (bytesArrayToBytes b); writeStreams T (off + 1) (cs.map some)) ()
          (bytesArrayToBytes b ++ d) := Emits.bind (Emits.put _) hd1
      exact Emits.ofGo_bind hg1 (Emits.bind (Emits.put _) (Emits.bind (Emits.put _)
        (Emits.bind (Emits.put _) (Emits.ofGo_bind hg2 e1))))
    · have := putUvarint_length_pos (u64 k)
      simp only [List.length_append, List.length_cons]; omega
    · intro hl
      simp only [List.length_append] at hl
      have hb : b.length ≤ sizeLimit := by
        simp only [bytesArrayToBytes, List.length_append] at hl; omega
      have hn : c.name.length ≤ sizeLimit := by
        have := length_le_stringToBytes c.name; omega
      have hs : Stream encs (view c) _ := .mk (i := k) (ts := storedTimes T.tech c.times) h4 (varint_put k)
        (text_put (view c).name (by rw [h6]; simp only [sizeLimit] at hn; omega))
        (times_put T.tech ht c.times (by omega))
        (text_put' b (by simp only [sizeLimit] at hb; omega)) (by rw [h6]; exact h5 hb)
      rw [h6] at hs
      have := Many.cons hs (hd3 (by omega))
      rw [u64_of_lt h2]
      simpa only [List.append_assoc, List.map_cons] using this

theorem references_put (T : Tables) (hkl : T.keys.length ≤ sizeLimit)
    (refs : List BinRef) (hg : ∀ r ∈ refs, GoodRef r) (hk : ∀ r ∈ refs, ∀ kv ∈ r.md, kv.1 ∈ T.keys) :
    ∃ d, Emits (writeRefs T (refs.map some)) () d ∧ refs.length ≤ d.length ∧
      (d.length ≤ sizeLimit → Many (Reference T.keys) refs d) := by
  induction refs with
  | nil => exact ⟨[], Emits.pure (), by simp, fun _ => .nil⟩
  | cons r refs ih =>
    obtain ⟨d, hd1, hd2, hd3⟩ := ih (fun r hr => hg r (by simp [hr])) (fun r hr => hk r (by simp [hr]))
    obtain ⟨m, hm1, hm2⟩ := md_put T.keys hkl r.md (hg r (by simp)).1 (hk r (by simp))
    have h2 := (hg r (by simp)).2
    refine ⟨stringToBytes r.name ++ (stringToBytes r.uri ++ (putUvarint (u64 r.size) ++ (m ++ d))), ?_, ?_, ?_⟩
    · exact Emits.bind (Emits.put _) (Emits.bind (Emits.put _) (Emits.bind (Emits.put _) (Emits.bind hm1 hd1)))
    · have := putUvarint_length_pos (u64 r.size)
      simp only [List.length_append, List.length_cons]; omega
    · intro hl
      simp only [List.length_append] at hl
      have l1 := length_le_stringToBytes r.name
      have l2 := length_le_stringToBytes r.uri
      have hlim := hl
      simp only [sizeLimit] at hlim
      have hr : Reference T.keys r _ := .mk h2 (text_put r.name (by omega)) (text_put r.uri (by omega))
        (varint_put r.size) (hm2 (by omega))
      have := Many.cons hr (hd3 (by omega))
      rw [u64_of_lt h2]
      simpa only [List.append_assoc] using this

theorem binaries_put (T : Tables) (hkl : T.keys.length ≤ sizeLimit)
    (bins : List Bin) (hg : ∀ b ∈ bins, GoodBin b) (hk : ∀ b ∈ bins, ∀ kv ∈ b.md, kv.1 ∈ T.keys) :
    ∃ d, Emits (writeBins T (bins.map some)) () d ∧ bins.length ≤ d.length ∧
      (d.length ≤ sizeLimit → Many (Binary T.keys) bins d) := by
  induction bins with
  | nil => exact ⟨[], Emits.pure (), by simp, fun _ => .nil⟩
  | cons r bins ih =>
    obtain ⟨d, hd1, hd2, hd3⟩ := ih (fun r hr => hg r (by simp [hr])) (fun r hr => hk r (by simp [hr]))
    obtain ⟨m, hm1, hm2⟩ := md_put T.keys hkl r.md (hg r (by simp)).1 (hk r (by simp))
    have h2 : r.size = r.data.length := (hg r (by simp)).2
    refine ⟨stringToBytes r.name ++ (putUvarint (u64 r.size) ++ (m ++ (r.data ++ d))), ?_, ?_, ?_⟩
    · have hc : Emits (ioCopy r.data) r.size r.data := by
        unfold ioCopy
        split
        · rename_i he
          rw [List.isEmpty_iff] at he
          rw [h2, he]; exact Emits.pure 0
        · have := Emits.bind (Emits.put r.data) (f := fun x => (WProg.pure x.1 : WProg Nat)) (Emits.pure _)
          rw [List.append_nil] at this
          rw [h2]; exact this
      have hrest : Emits (if r.size ≠ r.size then WProg.panic .message else writeBins T (bins.map some)) () d := by
        rw [if_neg (by simp)]; exact hd1
      exact Emits.bind (Emits.put _) (Emits.bind (Emits.put _) (Emits.bind hm1 (Emits.bind hc hrest)))
    · have := putUvarint_length_pos (u64 r.size)
      simp only [List.length_append, List.length_cons]; omega
    · intro hl
      simp only [List.length_append] at hl
      have l1 := length_le_stringToBytes r.name
      have hlim := hl
      simp only [sizeLimit] at hlim
      have hr : Binary T.keys r _ := .mk h2 (text_put r.name (by omega)) (varint_put r.size) (hm2 (by omega))
      have := Many.cons hr (hd3 (by omega))
      rw [u64_of_lt (by omega)]
      simpa only [List.append_assoc] using this

/-- What is to be shown of one recording. -/
def RecPut (T : Tables) (encs : List (Bytes × Bytes)) (view : Coll → Coll) (rec : Rec) : Prop :=
  ∀ off, (∀ b ∈ visitedBlocks rec, ∀ kv ∈ b, kv.1 ∈ T.keys) →
    (∀ i c, rec.flat[i]? = some c → StreamPut T encs view (off + i) c) →
    ∃ d, Emits (recurseWrite T rec off) (.ok (off + rec.flat.length)) d ∧ 1 ≤ d.length ∧
      (d.length ≤ sizeLimit → Recording T.keys encs (rec.mapColls view) d)

theorem mapCollsList_length (view : Coll → Coll) (recs : List Rec) : (Rec.mapCollsList view recs).length = recs.length := by
  induction recs with
  | nil => rfl
  | cons r rs ih => simp [Rec.mapCollsList, ih]

theorem children_put (T : Tables) (encs : List (Bytes × Bytes)) (view : Coll → Coll) (recs : List Rec)
    (ih : ∀ r ∈ recs, RecPut T encs view r) (off : Nat)
    (hk : ∀ b ∈ visitedBlocksList recs, ∀ kv ∈ b, kv.1 ∈ T.keys)
    (hs : ∀ i c, (Rec.flatList recs)[i]? = some c → StreamPut T encs view (off + i) c) :
    ∃ d, Emits (recurseWriteList T recs off) (.ok (off + (Rec.flatList recs).length)) d ∧ recs.length ≤ d.length ∧
      (d.length ≤ sizeLimit → Children T.keys encs (Rec.mapCollsList view recs) d) := by
  induction recs generalizing off with
  | nil => exact ⟨[], Emits.pure _, by simp, fun _ => .nil⟩
  | cons r rs ihl =>
    obtain ⟨d1, h1, h2, h3⟩ := ih r (by simp) off (fun b hb => hk b (by simp [visitedBlocksList, hb])) (fun i c hc => by
      refine hs i c ?_
      have := lt_of_get hc
      rw [Rec.flatList, List.getElem?_append_left this, hc])
    obtain ⟨d2, g1, g2, g3⟩ := ihl (fun r hr => ih r (by simp [hr])) (off + r.flat.length)
      (fun b hb => hk b (by simp [visitedBlocksList, hb])) (fun i c hc => by
      have := hs (r.flat.length + i) c (by
        rw [Rec.flatList, List.getElem?_append_right (by omega)]; simpa using hc)
      rwa [← Nat.add_assoc] at this)
    refine ⟨d1 ++ d2, ?_, ?_, ?_⟩
    · have : off + (Rec.flatList (r :: rs)).length = off + r.flat.length + (Rec.flatList rs).length := by
        rw [Rec.flatList, List.length_append]; omega
      rw [this, recurseWriteList]
      exact Emits.bind h1 g1
    · simp only [List.length_append, List.length_cons]; omega
    · intro hl
      simp only [List.length_append] at hl
      rw [Rec.mapCollsList]
      exact .cons (h3 (by omega)) (g3 (by omega))

theorem recording_put (T : Tables) (encs : List (Bytes × Bytes)) (view : Coll → Coll) (ht : T.tech ≤ 2)
    (hkl : T.keys.length ≤ sizeLimit) (rec : Rec) (hg : GoodRec rec) : RecPut T encs view rec := by
  induction hg with
  | mk id name colls recs md bins refs hc hr hm hb href ih =>
    intro off hk hs
    obtain ⟨dm, m1, m2⟩ := md_put T.keys hkl md hm (hk md (by simp [visitedBlocks]))
    obtain ⟨dc, c1, c2, c3⟩ := streams_put T encs view ht colls off (fun i c hic => hs i c (by
      have := lt_of_get hic
      rw [Rec.flat, flat_some, List.getElem?_append_left this, hic]))
    obtain ⟨dr, r1, r2, r3⟩ := references_put T hkl refs href (fun r hr => hk r.md (by
      simp only [visitedBlocks, optBlocks_some, List.mem_cons, List.mem_append, List.mem_map]
      exact Or.inr (Or.inl (Or.inl ⟨r, hr, rfl⟩))))
    obtain ⟨db, b1, b2, b3⟩ := binaries_put T hkl bins hb (fun b hb => hk b.md (by
      simp only [visitedBlocks, optBlocks_some, List.mem_cons, List.mem_append, List.mem_map]
      exact Or.inr (Or.inl (Or.inr ⟨b, hb, rfl⟩))))
    obtain ⟨dk, k1, k2, k3⟩ := children_put T encs view recs ih (off + colls.length)
      (fun b hb => hk b (by simp [visitedBlocks, hb])) (fun i c hic => by
      have := hs (colls.length + i) c (by
        rw [Rec.flat, flat_some, List.getElem?_append_right (by omega)]; simpa using hic)
      rwa [← Nat.add_assoc] at this)
    have hfl : off + (Rec.flat (.mk id name (colls.map some) recs md (bins.map some) (refs.map some))).length =
        off + colls.length + (Rec.flatList recs).length := by
      rw [Rec.flat, flat_some, List.length_append]; omega
    rw [hfl]
    refine ⟨stringToBytes id ++ (stringToBytes name ++ (dm ++ (putUvarint (u64 colls.length) ++ (dc ++
      (putUvarint (u64 refs.length) ++ (dr ++ (putUvarint (u64 bins.length) ++ (db ++
      (putUvarint (u64 recs.length) ++ dk))))))))), ?_, ?_, ?_⟩
    · have hlast : Emits ((recurseWriteList T recs (off + colls.length)).bind fun x => match x with
          | .error e => (WProg.pure (.error e) : WProg (Except Err Nat))
          | .ok newOffset => .err fun e => match e with
            | some e => .pure (.error e)
            | none => .pure (.ok newOffset)) (.ok (off + colls.length + (Rec.flatList recs).length)) dk := by
        exact Emits.bind_silent k1 (Emits.err (Emits.pure _))
      simp only [recurseWrite, List.length_map]
      exact Emits.bind (Emits.put _) (Emits.bind (Emits.put _) (Emits.bind m1 (Emits.bind (Emits.put _)
        (Emits.bind c1 (Emits.bind (Emits.put _) (Emits.bind r1 (Emits.bind (Emits.put _) (Emits.bind b1
        (Emits.bind (Emits.put _) hlast)))))))))
    · have := stringToBytes_pos id
      simp only [List.length_append]; omega
    · intro hl
      simp only [List.length_append] at hl
      have hlim := hl
      simp only [sizeLimit] at hlim
      have l1 := length_le_stringToBytes id
      have l2 := length_le_stringToBytes name
      have hs : Counted (Stream encs) (colls.map view) (putUvarint colls.length ++ dc) := by
        refine .mk ?_ (c3 (by omega))
        rw [List.length_map]; exact varint_put _
      have := Recording.mk (text_put id (by omega)) (text_put name (by omega)) (m2 (by omega)) hs
        (Counted.mk (varint_put refs.length) (r3 (by omega))) (Counted.mk (varint_put bins.length) (b3 (by omega)))
        (varint_put _) (k3 (by omega))
      rw [mapCollsList_length] at this
      rw [u64_of_lt (show colls.length < 2 ^ 64 by omega), u64_of_lt (show refs.length < 2 ^ 64 by omega),
        u64_of_lt (show bins.length < 2 ^ 64 by omega), u64_of_lt (show recs.length < 2 ^ 64 by omega)]
      simpa only [Rec.mapColls, List.map_map, Function.comp_def, Option.map_some, List.append_assoc] using this

/-! ## Files -/

theorem stored_name (b : Builtin) (c : Coll) (ts : List F64) : (b.stored c ts).name = c.name := by
  cases b <;> cases c <;> rfl

theorem chosen_builtin {ws : List Builtin} {c : Coll} {e : Encoder} (h : chosen (ws.map Builtin.encoder) c = some e) :
    ∃ b, Builtin.chosen ws c = some b ∧ e = b.encoder := by
  rw [chosen_map] at h
  cases hb : Builtin.chosen ws c with
  | none => simp [hb] at h
  | some b =>
    simp only [hb, Option.map_some, Option.some.injEq] at h
    exact ⟨b, rfl, h.symm⟩

theorem sig_mem (b : Builtin) : b.encoder.sig ∈ signatures := by
  simp only [signatures, sig_position, sig_euler, sig_event, sig_enum, sig_float]
  cases b <;> simp [Builtin.encoder, eventEncoder, positionEncoder, eulerEncoder, enumEncoder, floatEncoder]

theorem file_put (F : Flate) (hF : F.Lawful) (ws : List Builtin) (tech : Nat) (ht : tech ≤ 2) (compress : Bool)
    (orders : List (List Bytes)) (rec : Rec) (hg : GoodRec rec) (hko : KeyOrders rec orders) (out out' : Buf) (n : Nat)
    (h : write F ⟨ws.map Builtin.encoder, tech, compress⟩ orders rec out = .ok (n, none, out')) (hn : n ≤ sizeLimit) :
    ∃ file, out'.bytes = out.bytes ++ file ∧
      File F (rec.mapColls fun c => storedColl ws c (storedTimes tech c.times)) n file := by
  obtain ⟨ms, off, hs, blocks, idx, x, wr, h1, h2, h3, h4, h5⟩ := write_shape F _ orders rec out out' n h
  obtain ⟨-, i1, i2, i3⟩ := evaluate_inv (builtin_sigDetermines ws) rec 0 ms off h1
  have hbuilt : ∀ m ∈ ms, ∃ b : Builtin, m.encoder = b.encoder := by
    intro m hm
    obtain ⟨l1, l2, l3⟩ := i2 m hm
    obtain ⟨c, hc⟩ := List.exists_mem_of_ne_nil _ l2
    obtain ⟨b, -, hb⟩ := chosen_builtin (l3 c hc)
    exact ⟨b, hb⟩
  have hnodup : (ms.flatMap Mapping.order).Nodup := by
    have hmap : (ms.flatMap Mapping.pairs).map (·.2) = ms.flatMap Mapping.order := by
      clear i1 i3 hbuilt h1 h2 h4 h5
      induction ms with
      | nil => rfl
      | cons m ms ih =>
        rw [List.flatMap_cons, List.map_append, List.flatMap_cons, ih (fun m hm => i2 m (by simp [hm]))]
        congr 1
        rw [Mapping.pairs, List.map_snd_zip]
        exact Nat.le_of_eq (i2 m (by simp)).1.symm
    rw [← hmap]
    refine (i3.map (·.2)).nodup_iff.2 ?_
    show (List.map Prod.snd _).Nodup
    rw [List.zipIdx_map_snd]
    exact List.nodup_range'
  obtain ⟨a1, -, a3⟩ := encodeAll_spec ms 0 _ _ hs h2 hnodup
  have hl' : (prelude ms 0).length + (bodyWrites orders hs wr).flatten.length ≤ sizeLimit := by omega
  have hpre : (prelude ms 0).length ≤ sizeLimit := by omega
  simp only [bodyWrites, List.flatten_append, List.flatten_cons, List.length_append] at hl'
  simp only [prelude, List.length_cons, List.length_append] at hpre
  have hmslen := length_le_stringArray (ms.map fun m => m.encoder.sig)
  rw [List.length_map] at hmslen
  have hsize : ∀ hd ∈ hs, hd.length ≤ sizeLimit := by
    intro hd hmem
    have h5 := mem_length_le_flatten bytesArrayToBytes hs hmem
    have h6 : hd.length ≤ (bytesArrayToBytes hd).length := by simp [bytesArrayToBytes]
    omega
  have hkl := length_le_stringArray (accumulateKeys orders)
  -- the recording
  have htree := recording_put ⟨accumulateKeys orders, blocks, idx, tech⟩ ((ms.map fun m => m.encoder.sig).zip hs)
    (fun c => storedColl ws c (storedTimes tech c.times)) ht (by show (accumulateKeys orders).length ≤ _; omega) rec hg 0
    (keys_cover hko) (by
      intro i c hic
      rw [Nat.zero_add]
      have hp : (c, i) ∈ rec.flat.zipIdx 0 := by
        rw [List.mem_zipIdx_iff_getElem?]; exact hic
      rw [← i3.mem_iff, List.mem_flatMap] at hp
      obtain ⟨m, hm, hmp⟩ := hp
      obtain ⟨j, hj, rfl⟩ := List.getElem_of_mem hm
      have hj' : ms[j]? = some ms[j] := List.getElem?_eq_getElem hj
      obtain ⟨t, htt, hte⟩ := List.getElem_of_mem hmp
      have ht1 : ms[j].colls[t]? = some c := by
        simp only [Mapping.pairs, List.getElem_zip, Prod.mk.injEq] at hte
        simp only [Mapping.pairs, List.length_zip] at htt
        rw [← hte.1]; exact List.getElem?_eq_getElem (by omega)
      have ht2 : ms[j].order[t]? = some i := by
        simp only [Mapping.pairs, List.getElem_zip, Prod.mk.injEq] at hte
        simp only [Mapping.pairs, List.length_zip] at htt
        rw [← hte.2]; exact List.getElem?_eq_getElem (by omega)
      obtain ⟨hd, bs, g1, g2, g3⟩ := a3 j ms[j] hj'
      obtain ⟨b, b1, b2, b3⟩ := g3 t i ht2
      rw [Nat.zero_add] at b3
      obtain ⟨w, hw, hwe⟩ := chosen_builtin ((i2 ms[j] hm).2.2 c (List.mem_of_getElem? ht1))
      have hst : ∀ ts, storedColl ws c ts = w.stored c ts := by intro ts; rw [storedColl, hw]
      rw [hwe] at g2
      refine ⟨j, b, ms[j].encoder.sig, hd, b3, ?_, b2, ?_, ?_, fun hbl => ?_⟩
      · simp only [sizeLimit] at hpre; omega
      · rw [List.getElem?_zip_eq_some]
        exact ⟨by rw [List.getElem?_map, hj']; rfl, g1⟩
      · simp only [hst, stored_name]
      · have hgc : ∀ c ∈ ms[j].colls, GoodColl c := by
          intro c' hc'
          obtain ⟨t', htt', rfl⟩ := List.getElem_of_mem hc'
          have l1 := (i2 ms[j] hm).1
          have hp : (ms[j].colls[t'], ms[j].order[t']'(l1 ▸ htt')) ∈ ms.flatMap Mapping.pairs :=
            List.mem_flatMap.2 ⟨ms[j], hm, by
              rw [Mapping.pairs, List.mem_iff_getElem]; exact ⟨t', by simp [← l1, htt'], by simp⟩⟩
          rw [i3.mem_iff] at hp
          have := List.mem_zipIdx hp
          rw [this.2.2]; exact flat_good hg _ (List.getElem_mem _)
        simp only [hst]
        rw [hwe]
        exact follows w ms[j].colls hd bs hgc g2 (hsize hd (List.mem_of_getElem? g1)) t c b ht1 b1 hbl _
          (storedTimes_length _ _))
  obtain ⟨d, d1, -, d3⟩ := htree
  have hd : d = wr.flatten := by
    obtain ⟨_, hdd⟩ := WProg.Emits.det d1 ⟨wr, h3, rfl⟩
    exact hdd
  subst hd
  have hbody : Body (ms.map fun m => m.encoder.sig) (rec.mapColls fun c => storedColl ws c (storedTimes tech c.times))
      (bodyWrites orders hs wr).flatten := by
    have := Body.mk (sigs := ms.map fun m => m.encoder.sig) (by rw [List.length_map]; exact a1)
      (many_map hs fun hd hmem => text_put' hd (by have := hsize hd hmem; simp only [sizeLimit] at this; omega))
      (texts_put (accumulateKeys orders) (by omega)) (d3 (by omega))
    simpa only [bodyWrites, List.flatten_append, List.flatten_cons] using this
  have hhead : ∀ f, ∃ h, Head (ms.map fun m => m.encoder.sig) h ∧ prelude ms f = h ++ [f] := by
    intro f
    refine ⟨_, .mk ?_ (texts_put (ms.map fun m => m.encoder.sig) (by omega))
      (v := (ms.map fun m => putUvarint (u64 m.encoder.version)).flatten) ?_, ?_⟩
    · intro x hx
      obtain ⟨m, hm, rfl⟩ := List.mem_map.1 hx
      obtain ⟨b, hb⟩ := hbuilt m hm
      rw [hb]; exact sig_mem b
    · rw [List.map_map]
      refine many_map' _ ms fun m hm => ?_
      obtain ⟨b, hb⟩ := hbuilt m hm
      rw [hb, builtin_version]
      exact varint_put 0
    · simp [prelude]
  refine ⟨_, h5, ?_⟩
  cases compress with
  | false =>
    obtain ⟨hd, k1, k2⟩ := hhead 0
    have := File.plain (F := F) k1 hbody
    simp only [Bool.false_eq_true, if_false, h4, k2, List.append_assoc, List.singleton_append, List.length_append,
      List.length_cons, List.length_nil] at this ⊢
    convert this using 1
    omega
  | true =>
    obtain ⟨hd, k1, k2⟩ := hhead 1
    obtain ⟨hd', -, k2'⟩ := hhead 0
    have hpl : (prelude ms 0).length = (prelude ms 1).length := by simp [prelude]
    have hz := hF (bodyWrites orders hs wr) [] .eof
    rw [List.append_nil] at hz
    have := File.packed (F := F) k1 hbody hz
    simp only [if_true, h4, hpl, k2, List.append_assoc, List.singleton_append, List.length_append,
      List.length_cons, List.length_nil] at this ⊢
    convert this using 1
    omega

end Layout
end Rap
