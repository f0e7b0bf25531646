import Verif.Spec.Stored
import Verif.Proof.Metadata
import Verif.Proof.Bits

/-! # Encoders: decoding what was encoded -/

namespace Rap

variable {α β : Type}

theorem onBytes_of_clean {p : Prog α} {d rest : Bytes} {a : α} (h : p.clean d = some (a, rest)) :
    p.onBytes d = .ok a := by
  unfold Prog.onBytes; rw [Prog.clean_flat .eof h]; rfl

theorem onErrReader_of_clean {p : Prog α} {d rest : Bytes} {a : α} (h : p.clean d = some (a, rest)) :
    p.onErrReader d = .ok (a, none) := by
  unfold Prog.onErrReader
  rw [ER.new, Prog.clean_er .eof 0 h]; rfl

theorem mapGo_spec {f : α → Go β} {as : List α} {bs : List β} (h : mapGo f as = .ok bs) :
    bs.length = as.length ∧ ∀ (j : Nat) (a : α) (b : β), as[j]? = some a → bs[j]? = some b → f a = .ok b := by
  induction as generalizing bs with
  | nil => simp only [mapGo, Except.ok.injEq] at h; subst h; simp
  | cons a as ih =>
    simp only [mapGo] at h
    cases hf : f a with
    | error x => simp [hf, bind, Except.bind] at h
    | ok b =>
      cases hm : mapGo f as with
      | error x => simp [hf, hm, bind, Except.bind] at h
      | ok bs' =>
        simp only [hf, hm, bind, Except.bind, Except.ok.injEq] at h
        subst h
        obtain ⟨h1, h2⟩ := ih hm
        refine ⟨by simp [h1], fun j a' b' ha hb => ?_⟩
        cases j with
        | zero => simp only [List.getElem?_cons_zero, Option.some.injEq] at ha hb; rw [← ha, ← hb, hf]
        | succ j => simp only [List.getElem?_cons_succ] at ha hb; exact h2 j a' b' ha hb

/-! ## Pieces -/

theorem clean_readInto (buf b rest : Bytes) (h : b.length = buf.length) (hp : 0 < buf.length) :
    (readInto buf).clean (b ++ rest) = some ((b, none), rest) := by
  rw [readInto, Prog.clean_read _ _ _ _ h hp]
  simp [h]

theorem putF32_length (x : F64) : (putF32 x).length = 4 := leBytes_length 4 _

theorem clean_readF32 (old : F32) (x : F64) (rest : Bytes) :
    (readF32 old).clean (putF32 x ++ rest) = some ((narrow x, none), rest) := by
  rw [readF32, Prog.clean_readFull _ _ _ _ (putF32_length x)]
  simp only [putF32, ofNat_leNat_leBytes 32 4 rfl, Prog.clean_pure]

theorem clean_readV32 (v : V3) (rest : Bytes) :
    readV32.clean (putV32 v ++ rest) = some ((v.near32, none), rest) := by
  simp only [readV32, putV32, Prog.bind_eq, List.append_assoc]
  rw [Prog.clean_bind_of (clean_readF32 _ _ _)]
  simp only [Prog.bind_eq]
  rw [Prog.clean_bind_of (clean_readF32 _ _ _)]
  simp only [Prog.bind_eq]
  rw [Prog.clean_bind_of (clean_readF32 _ _ _)]
  rfl

theorem putRaw64_length (w : Nat) (hw : 8 ≤ w) (x : F64) : (putRaw64 w x).length = w := by
  simp [putRaw64, leBytes_length]; omega

theorem bufF64_putRaw64 (w : Nat) (x : F64) : bufF64 (putRaw64 w x) = x := by
  unfold bufF64 putRaw64
  rw [List.take_append_of_le_length (by rw [leBytes_length]; omega), List.take_of_length_le (by rw [leBytes_length]; omega)]
  exact ofNat_leNat_leBytes 64 8 rfl x

theorem clean_decRaw64 (w : Nat) (hw : 8 ≤ w) (ts : List F64) (vs : List V3) (buf rest : Bytes)
    (hl : ts.length = vs.length) (hb : buf.length = w) :
    (decRaw64 ts buf).clean (encRaw64 w vs ++ rest) = some (.ok (ts.zip vs), rest) := by
  induction ts generalizing vs buf with
  | nil =>
    cases vs with
    | nil => rfl
    | cons v vs => simp at hl
  | cons t ts ih =>
    cases vs with
    | nil => simp at hl
    | cons v vs =>
      simp only [encRaw64, List.map_cons, List.flatten_cons, List.append_assoc, decRaw64, Prog.bind_eq]
      have hlx := putRaw64_length w hw v.x
      have hly := putRaw64_length w hw v.y
      have hlz := putRaw64_length w hw v.z
      rw [Prog.clean_bind_of (clean_readInto buf _ _ (by omega) (by omega))]
      simp only [Prog.bind_eq]
      rw [Prog.clean_bind_of (clean_readInto _ _ _ (by omega) (by omega))]
      simp only [Prog.bind_eq]
      rw [Prog.clean_bind_of (clean_readInto _ _ _ (by omega) (by omega))]
      simp only [Prog.bind_eq]
      have := ih vs (putRaw64 w v.z) (by simpa using hl) hlz
      simp only [encRaw64, List.append_assoc] at this
      rw [Prog.clean_bind_of this]
      simp only [bufF64_putRaw64, Prog.pure_eq, Prog.clean_pure, List.zip_cons_cons]

theorem clean_decRaw32 (stale : Bool) (ts : List F64) (vs : List V3) (x y z : F32) (rest : Bytes)
    (hl : ts.length = vs.length) :
    (decRaw32 stale ts x y z).clean (encRaw32 vs ++ rest) = some (ts.zip (vs.map V3.near32), rest) := by
  induction ts generalizing vs x y z with
  | nil =>
    cases vs with
    | nil => rfl
    | cons v vs => simp at hl
  | cons t ts ih =>
    cases vs with
    | nil => simp at hl
    | cons v vs =>
      simp only [encRaw32, List.map_cons, List.flatten_cons, putV32, List.append_assoc, decRaw32, Prog.bind_eq]
      rw [Prog.clean_bind_of (clean_readF32 _ _ _)]
      simp only [Prog.bind_eq]
      rw [Prog.clean_bind_of (clean_readF32 _ _ _)]
      simp only [Prog.bind_eq]
      rw [Prog.clean_bind_of (clean_readF32 _ _ _)]
      simp only [Prog.bind_eq]
      have := ih vs (narrow v.x) (narrow v.y) (narrow v.z) (by simpa using hl)
      simp only [encRaw32] at this
      rw [Prog.clean_bind_of this]
      rfl

theorem bstEnc_length (v s d : F64) (n : Nat) : (bstEnc v s d n).length = n := packBits_length _ _

theorem clean_decRaw16Loop (ts : List F64) (vs : List V3) (buf rest : Bytes) (hl : ts.length = vs.length)
    (hb : buf.length = 2) :
    (decRaw16Loop ts buf).clean
        ((vs.map fun v => putAngle v.x ++ putAngle v.y ++ putAngle v.z).flatten ++ rest) =
      some (ts.zip (vs.map fun v => ⟨angle16 v.x, angle16 v.y, angle16 v.z⟩), rest) := by
  induction ts generalizing vs buf with
  | nil =>
    cases vs with
    | nil => rfl
    | cons v vs => simp at hl
  | cons t ts ih =>
    cases vs with
    | nil => simp at hl
    | cons v vs =>
      simp only [List.map_cons, List.flatten_cons, List.append_assoc, decRaw16Loop, Prog.bind_eq]
      have hp : ∀ a, (putAngle a).length = 2 := fun a => bstEnc_length _ _ _ _
      rw [Prog.clean_bind_of (clean_readInto buf _ _ (by rw [hp, hb]) (by omega))]
      simp only [Prog.bind_eq]
      rw [Prog.clean_bind_of (clean_readInto _ _ _ (by rw [hp, hp]) (by rw [hp]; omega))]
      simp only [Prog.bind_eq]
      rw [Prog.clean_bind_of (clean_readInto _ _ _ (by rw [hp, hp]) (by rw [hp]; omega))]
      simp only [Prog.bind_eq]
      have := ih vs (putAngle v.z) (by simpa using hl) (hp _)
      simp only [List.append_assoc] at this
      rw [Prog.clean_bind_of this]
      rfl

theorem clean_decRaw16 (ts : List F64) (vs : List V3) (rest : Bytes) (hl : ts.length = vs.length) :
    (decRaw16 ts).clean (encRaw16 vs ++ rest) = some (.ok (ts.zip (stored16 vs)), rest) := by
  match ts, vs, hl with
  | [], [], _ => rfl
  | [t], [v], _ =>
    simp only [decRaw16, encRaw16, stored16, Prog.bind_eq]
    rw [Prog.clean_bind_of (clean_readV32 _ _)]
    rfl
  | t1 :: t2 :: ts, v1 :: v2 :: vs, hl =>
    simp only [decRaw16, encRaw16, stored16, Prog.bind_eq]
    rw [Prog.clean_bind_of (clean_decRaw16Loop (t1 :: t2 :: ts) (v1 :: v2 :: vs) _ _ hl rfl)]
    rfl

/-! ## Oct-tree -/

theorem cells_lt (v : V3) (k : Nat) (c i : V3) : ∀ x ∈ octCellsLoop v k c i, x < 8 := by
  induction k generalizing c i with
  | zero => simp [octCellsLoop]
  | succ k ih =>
    intro x hx
    simp only [octCellsLoop, List.mem_cons] at hx
    rcases hx with rfl | hx
    · cases v.y.lt c.y <;> cases v.x.lt c.x <;> cases v.z.lt c.z <;> decide
    · exact ih _ _ x hx

theorem cells_length (v : V3) (k : Nat) (c i : V3) : (octCellsLoop v k c i).length = k := by
  induction k generalizing c i with
  | zero => rfl
  | succ k ih => simp [octCellsLoop, ih]

theorem clean_octDecodeLoop (n : Nat) (hn : 0 < n) (min max min' max' : V3) (ts : List F64) (ps : List V3) (q cur : V3)
    (buf rest : Bytes) (hl : ts.length = ps.length) (hb : buf.length = 3 * n) :
    (octDecodeLoop min' max' ts cur buf).clean (octEncLoop n min max q ps ++ rest) =
      some (ts.zip (octSums min' max' cur (octChoices n min max q ps)), rest) := by
  induction ts generalizing ps q cur buf with
  | nil =>
    cases ps with
    | nil => rfl
    | cons v vs => simp at hl
  | cons t ts ih =>
    cases ps with
    | nil => simp at hl
    | cons p ps =>
      simp only [octEncLoop, octDecodeLoop, octChoices, octSums, Prog.bind_eq, List.append_assoc]
      have hbl := octBytes_length n (vec3ToOctCells (p.sub q) min max (8 * n))
      rw [Prog.clean_bind_of (clean_readInto buf _ _ (by rw [hbl, hb]) (by omega))]
      simp only [Prog.bind_eq]
      rw [octCells_octBytes n (vec3ToOctCells (p.sub q) min max (8 * n)) (cells_length _ _ _ _) (cells_lt _ _ _ _)]
      rw [Prog.clean_bind_of (ih ps _ _ _ (by simpa using hl) hbl)]
      rfl

theorem clean_decOct (n : Nat) (hn : 0 < n) (ts : List F64) (vs : List V3) (rest : Bytes)
    (hl : ts.length = vs.length) :
    (decOct n ts).clean (encOct n vs ++ rest) = some (.ok (ts.zip (octStored n vs)), rest) := by
  match ts, vs, hl with
  | [], [], _ => rfl
  | [t], [v], _ =>
    simp only [decOct, encOct, octStored, Prog.bind_eq]
    rw [Prog.clean_bind_of (clean_readV32 _ _)]
    rfl
  | t1 :: t2 :: ts, v1 :: v2 :: vs, hl =>
    simp only [decOct, encOct, octStored, Prog.bind_eq, List.append_assoc]
    rw [Prog.clean_bind_of (clean_readV32 _ _)]
    simp only [Prog.bind_eq]
    rw [Prog.clean_bind_of (clean_readV32 _ _)]
    simp only [Prog.bind_eq]
    rw [Prog.clean_bind_of (clean_readV32 _ _)]
    simp only [Prog.bind_eq]
    rw [Prog.clean_bind_of (clean_octDecodeLoop n hn _ _ _ _ (t2 :: ts) (v2 :: vs) _ _ _ _ (by simpa using hl) (by simp))]
    rfl

/-! ## position and euler -/

theorem castPosition_ok {c : Coll} {caps : List (F64 × V3)} (h : castPosition c = .ok caps) :
    caps.length = c.times.length ∧ ((∃ n, c = .position n caps) ∨ (caps = [] ∧ ∀ n cs, c ≠ .position n cs)) := by
  cases c with
  | position n cs => simp only [castPosition, Except.ok.injEq] at h; subst h; simp [Coll.times]
  | _ =>
    simp only [castPosition] at h
    split at h
    · rename_i he
      simp only [Except.ok.injEq] at h; subst h
      rw [List.isEmpty_iff] at he; rw [he]; simp
    · cases h

theorem castEuler_ok {c : Coll} {caps : List (F64 × V3)} (h : castEuler c = .ok caps) :
    caps.length = c.times.length ∧ ((∃ n, c = .euler n caps) ∨ (caps = [] ∧ ∀ n cs, c ≠ .euler n cs)) := by
  cases c with
  | euler n cs => simp only [castEuler, Except.ok.injEq] at h; subst h; simp [Coll.times]
  | _ =>
    simp only [castEuler] at h
    split at h
    · rename_i he
      simp only [Except.ok.injEq] at h; subst h
      rw [List.isEmpty_iff] at he; rw [he]; simp
    · cases h

theorem stored_position (t : Fin 4) (c : Coll) (caps : List (F64 × V3)) (h : castPosition c = .ok caps) (ts : List F64) :
    Builtin.stored (.position t) c ts = .position c.name (ts.zip (storedPositions t.val (caps.map (·.2)))) := by
  obtain ⟨_, ⟨n, rfl⟩ | ⟨rfl, hne⟩⟩ := castPosition_ok h
  · rfl
  · have h0 : storedPositions t.val ([] : List V3) = [] := by
      unfold storedPositions octStored; simp
    rw [List.map_nil, h0, List.zip_nil_right]
    cases c with
    | position n cs => exact absurd rfl (hne n cs)
    | _ => rfl

theorem stored_euler (t : Fin 3) (c : Coll) (caps : List (F64 × V3)) (h : castEuler c = .ok caps) (ts : List F64) :
    Builtin.stored (.euler t) c ts = .euler c.name (ts.zip (storedRotations t.val (caps.map (·.2)))) := by
  obtain ⟨_, ⟨n, rfl⟩ | ⟨rfl, hne⟩⟩ := castEuler_ok h
  · rfl
  · have h0 : storedRotations t.val ([] : List V3) = [] := by
      unfold storedRotations stored16; simp
    rw [List.map_nil, h0, List.zip_nil_right]
    cases c with
    | euler n cs => exact absurd rfl (hne n cs)
    | _ => rfl

theorem clean_positionCaptures (t : Fin 4) (ts : List F64) (vs : List V3) (hl : ts.length = vs.length) :
    (positionCaptures ts).clean (t.val.toUInt8 ::
        (if t.val = 0 then encRaw64 8 vs else if t.val = 1 then encRaw32 vs
          else if t.val = 2 then encOct 2 vs else if t.val = 3 then encOct 1 vs else [])) =
      some (.ok (ts.zip (storedPositions t.val vs)), []) := by
  rw [positionCaptures, Prog.clean_read1]
  match t with
  | 0 =>
    have := clean_decRaw64 8 (by omega) ts vs (List.replicate 8 0) [] hl (by simp)
    simpa [storedPositions] using this
  | 1 =>
    have := clean_decRaw32 false ts vs 0 0 0 [] hl
    simp only [List.append_nil] at this
    show ((decRaw32 false ts 0 0 0).bind _).clean (encRaw32 vs) = _
    rw [Prog.clean_bind_of this]
    rfl
  | 2 =>
    have := clean_decOct 2 (by omega) ts vs [] hl
    rw [List.append_nil] at this
    exact this
  | 3 =>
    have := clean_decOct 1 (by omega) ts vs [] hl
    rw [List.append_nil] at this
    exact this

theorem clean_eulerCaptures (t : Fin 3) (ts : List F64) (vs : List V3) (hl : ts.length = vs.length) :
    (eulerCaptures ts).clean (t.val.toUInt8 ::
        (if t.val = 0 then encRaw64 10 vs else if t.val = 1 then encRaw32 vs
          else if t.val = 2 then encRaw16 vs else [])) =
      some (.ok (ts.zip (storedRotations t.val vs)), []) := by
  rw [eulerCaptures, Prog.clean_read1]
  match t with
  | 0 =>
    have := clean_decRaw64 10 (by omega) ts vs (List.replicate 10 0) [] hl (by simp)
    rw [List.append_nil] at this
    exact this
  | 1 =>
    have := clean_decRaw32 true ts vs 0 0 0 [] hl
    simp only [List.append_nil] at this
    show ((decRaw32 true ts 0 0 0).bind _).clean (encRaw32 vs) = _
    rw [Prog.clean_bind_of this]
    rfl
  | 2 =>
    have := clean_decRaw16 ts vs [] hl
    rw [List.append_nil] at this
    exact this

theorem decodes_position (t t' : Fin 4) :
    Decodes (positionEncoder t.val) (positionEncoder t'.val) (Builtin.stored (.position t)) := by
  intro cs h bs _ henc _
  simp only [positionEncoder, positionEncode] at henc
  cases hm : mapGo (positionEncode1 t.val) cs with
  | error x => simp [hm, bind, Except.bind] at henc
  | ok bs' =>
    simp only [hm, bind, Except.bind, Except.ok.injEq, Prod.mk.injEq] at henc
    obtain ⟨rfl, rfl⟩ := henc
    obtain ⟨h1, h2⟩ := mapGo_spec hm
    refine ⟨h1, fun j c b hc hb hb' ts hts => ?_⟩
    have he := h2 j c b hc hb
    simp only [positionEncode1] at he
    cases hcast : castPosition c with
    | error x => simp [hcast, bind, Except.bind] at he
    | ok caps =>
      simp only [hcast, bind, Except.bind, Except.ok.injEq] at he
      have hlen := (castPosition_ok hcast).1
      have := clean_positionCaptures t ts (caps.map (·.2)) (by simp [hlen, hts])
      rw [he] at this
      simp only [positionEncoder, positionDecode, onBytes_of_clean this, bind, Except.bind]
      rw [stored_position t c caps hcast]

theorem decodes_euler (t t' : Fin 3) :
    Decodes (eulerEncoder t.val) (eulerEncoder t'.val) (Builtin.stored (.euler t)) := by
  intro cs h bs _ henc _
  simp only [eulerEncoder, eulerEncode] at henc
  cases hm : mapGo (eulerEncode1 t.val) cs with
  | error x => simp [hm, bind, Except.bind] at henc
  | ok bs' =>
    simp only [hm, bind, Except.bind, Except.ok.injEq, Prod.mk.injEq] at henc
    obtain ⟨rfl, rfl⟩ := henc
    obtain ⟨h1, h2⟩ := mapGo_spec hm
    refine ⟨h1, fun j c b hc hb hb' ts hts => ?_⟩
    have he := h2 j c b hc hb
    simp only [eulerEncode1] at he
    cases hcast : castEuler c with
    | error x => simp [hcast, bind, Except.bind] at he
    | ok caps =>
      simp only [hcast, bind, Except.bind, Except.ok.injEq] at he
      have hlen := (castEuler_ok hcast).1
      have := clean_eulerCaptures t ts (caps.map (·.2)) (by simp [hlen, hts])
      rw [he] at this
      simp only [eulerEncoder, eulerDecode, onBytes_of_clean this, bind, Except.bind]
      rw [stored_euler t c caps hcast]

/-! ## float -/

theorem castFloat_ok {c : Coll} {vs : List F64} (h : castFloat c = .ok vs) :
    vs.length = c.times.length ∧
      ((∃ n caps, c = .float n caps ∧ vs = caps.map (·.2)) ∨ (vs = [] ∧ ∀ n cs, c ≠ .float n cs)) := by
  cases c with
  | float n cs => simp only [castFloat, Except.ok.injEq] at h; subst h; simp [Coll.times]
  | _ =>
    simp only [castFloat] at h
    split at h
    · rename_i he
      simp only [Except.ok.injEq] at h; subst h
      rw [List.isEmpty_iff] at he; rw [he]; simp
    · cases h

theorem stored_float (t : Fin 3) (c : Coll) (vs : List F64) (h : castFloat c = .ok vs) (ts : List F64) :
    Builtin.stored (.float t) c ts = .float c.name (ts.zip (storedFloats t.val vs)) := by
  obtain ⟨_, ⟨n, caps, rfl, rfl⟩ | ⟨rfl, hne⟩⟩ := castFloat_ok h
  · rfl
  · have h0 : storedFloats t.val ([] : List F64) = [] := by
      unfold storedFloats bstFloats; simp
    rw [h0, List.zip_nil_right]
    cases c with
    | float n cs => exact absurd rfl (hne n cs)
    | _ => rfl

theorem clean_floatDec64 (ts vs : List F64) (v : F64) (rest : Bytes) (hl : ts.length = vs.length) :
    (floatDec64 ts v).clean (floatEnc64 vs ++ rest) = some (ts.zip vs, rest) := by
  induction ts generalizing vs v with
  | nil =>
    cases vs with
    | nil => rfl
    | cons v vs => simp at hl
  | cons t ts ih =>
    cases vs with
    | nil => simp at hl
    | cons x vs =>
      simp only [floatEnc64, List.map_cons, List.flatten_cons, List.append_assoc, floatDec64]
      rw [Prog.clean_readFull _ _ _ _ (leBytes_length 8 _)]
      simp only [Option.isSome_none, Bool.false_eq_true, if_false, ofNat_leNat_leBytes 64 8 rfl, Prog.bind_eq]
      have := ih vs x (by simpa using hl)
      simp only [floatEnc64] at this
      rw [Prog.clean_bind_of this]
      rfl

theorem clean_floatDec32 (ts vs : List F64) (v : F32) (rest : Bytes) (hl : ts.length = vs.length) :
    (floatDec32 ts v).clean (floatEnc32 vs ++ rest) = some (ts.zip (vs.map near32), rest) := by
  induction ts generalizing vs v with
  | nil =>
    cases vs with
    | nil => rfl
    | cons v vs => simp at hl
  | cons t ts ih =>
    cases vs with
    | nil => simp at hl
    | cons x vs =>
      simp only [floatEnc32, List.map_cons, List.flatten_cons, List.append_assoc, floatDec32, Prog.bind_eq]
      rw [Prog.clean_bind_of (clean_readF32 _ _ _)]
      simp only [Prog.bind_eq]
      have := ih vs (narrow x) (by simpa using hl)
      simp only [floatEnc32] at this
      rw [Prog.clean_bind_of this]
      rfl

theorem clean_floatDecBstLoop (min max : F32) (f : F64 → Bytes) (hf : ∀ v, (f v).length = 2) (ts vs : List F64)
    (buf rest : Bytes) (hl : ts.length = vs.length) (hb : buf.length = 2) :
    (floatDecBstLoop min max ts buf).clean ((vs.map f).flatten ++ rest) =
      some (ts.zip (vs.map fun v => bstDec (widen min) (widen (max.sub min)) (f v)), rest) := by
  induction ts generalizing vs buf with
  | nil =>
    cases vs with
    | nil => rfl
    | cons v vs => simp at hl
  | cons t ts ih =>
    cases vs with
    | nil => simp at hl
    | cons x vs =>
      simp only [List.map_cons, List.flatten_cons, List.append_assoc, floatDecBstLoop, Prog.bind_eq]
      rw [Prog.clean_bind_of (clean_readInto buf _ _ (by rw [hf, hb]) (by omega))]
      simp only [Prog.bind_eq]
      rw [Prog.clean_bind_of (ih vs (f x) (by simpa using hl) (hf x))]
      rfl

theorem clean_floatDecBst (ts vs : List F64) (rest : Bytes) (hl : ts.length = vs.length) :
    (floatDecBst ts).clean (floatEncBst vs ++ rest) = some (ts.zip (bstFloats vs), rest) := by
  simp only [floatDecBst, floatEncBst, List.append_assoc, Prog.bind_eq]
  rw [Prog.clean_bind_of (clean_readF32 _ _ _)]
  simp only [Prog.bind_eq]
  rw [Prog.clean_bind_of (clean_readF32 _ _ _)]
  simp only
  rw [clean_floatDecBstLoop _ _ _ (fun v => bstEnc_length _ _ _ _) ts vs _ _ hl rfl]
  rfl

theorem floatStreams_spec {t : Nat} {cs : List Coll} {bs : List Bytes} (h : floatStreams t cs = .ok bs) :
    bs.length = cs.length ∧ ∀ (j : Nat) (c : Coll) (b : Bytes), cs[j]? = some c → bs[j]? = some b →
      floatEncode1 t c = .ok b := by
  induction cs generalizing bs with
  | nil => simp only [floatStreams, Except.ok.injEq] at h; subst h; simp
  | cons c cs ih =>
    simp only [floatStreams] at h
    cases hf : floatEncode1 t c with
    | error x => simp [hf] at h
    | ok b =>
      cases hm : floatStreams t cs with
      | error x => simp [hf, hm] at h
      | ok bs' =>
        simp only [hf, hm, Except.ok.injEq] at h
        subst h
        obtain ⟨h1, h2⟩ := ih hm
        refine ⟨by simp [h1], fun j a' b' ha hb => ?_⟩
        cases j with
        | zero => simp only [List.getElem?_cons_zero, Option.some.injEq] at ha hb; rw [← ha, ← hb, hf]
        | succ j => simp only [List.getElem?_cons_succ] at ha hb; exact h2 j a' b' ha hb

theorem decodes_float (t t' : Fin 3) :
    Decodes (floatEncoder t.val) (floatEncoder t'.val) (Builtin.stored (.float t)) := by
  intro cs h bs _ henc _
  simp only [floatEncoder, floatEncode] at henc
  cases hm : floatStreams t.val cs with
  | error x => simp [hm] at henc
  | ok bs' =>
    simp only [hm, Except.ok.injEq, Prod.mk.injEq] at henc
    obtain ⟨rfl, rfl⟩ := henc
    obtain ⟨h1, h2⟩ := floatStreams_spec hm
    refine ⟨h1, fun j c b hc hb hb' ts hts => ?_⟩
    have he := h2 j c b hc hb
    simp only [floatEncode1, if_pos (show t.val ≤ 2 by omega)] at he
    cases hcast : castFloat c with
    | error x => simp [hcast] at he
    | ok vs =>
      simp only [hcast, Except.ok.injEq] at he
      have hlen := (castFloat_ok hcast).1
      rw [stored_float t c vs hcast]
      subst he
      simp only [floatEncoder, floatDecode]
      have hl : ts.length = vs.length := by omega
      match t with
      | 0 =>
        have := clean_floatDec64 ts vs 0 [] hl
        rw [List.append_nil] at this
        have h := onErrReader_of_clean this
        show (do let x ← (floatDec64 ts 0).onErrReader (floatEnc64 vs); _) = _
        rw [h]; rfl
      | 1 =>
        have := clean_floatDec32 ts vs 0 [] hl
        rw [List.append_nil] at this
        have h := onErrReader_of_clean this
        show (do let x ← (floatDec32 ts 0).onErrReader (floatEnc32 vs); _) = _
        rw [h]; rfl
      | 2 =>
        have := clean_floatDecBst ts vs [] hl
        rw [List.append_nil] at this
        have h := onErrReader_of_clean this
        show (do let x ← (floatDecBst ts).onErrReader (floatEncBst vs); _) = _
        rw [h]; rfl

/-! ## Dictionaries -/

theorem prefix_get {d d' : List α} (h : d <+: d') {i : Nat} {x : α} (hx : d[i]? = some x) : d'[i]? = some x := by
  obtain ⟨t, rfl⟩ := h
  have hi : i < d.length := by
    rw [List.getElem?_eq_some_iff] at hx; exact hx.1
  rw [List.getElem?_append_left hi, hx]

theorem lt_of_get {d : List α} {i : Nat} {x : α} (hx : d[i]? = some x) : i < d.length := by
  rw [List.getElem?_eq_some_iff] at hx; exact hx.1

theorem dictAdd_spec (d : List Bytes) (k : Bytes) :
    d <+: (dictAdd d k).1 ∧ (dictAdd d k).1[(dictAdd d k).2]? = some k := by
  unfold dictAdd
  split
  · rename_i h
    refine ⟨List.prefix_rfl, ?_⟩
    show d[d.idxOf k]? = some k
    rw [List.getElem?_eq_some_iff]
    exact ⟨List.idxOf_lt_length_of_mem h, List.getElem_idxOf _⟩
  · exact ⟨List.prefix_append _ _, by simp⟩

/-- Every index finds its string. -/
abbrev Finds (d : List Bytes) (is : List Nat) (ks : List Bytes) : Prop :=
  List.Forall₂ (fun i k => d[i]? = some k) is ks

theorem Finds.mono {d d' : List Bytes} (h : d <+: d') {is : List Nat} {ks : List Bytes} (hf : Finds d is ks) :
    Finds d' is ks := List.Forall₂.imp (fun _ _ hx => prefix_get h hx) hf

theorem Finds.lt {d : List Bytes} {is : List Nat} {ks : List Bytes} (hf : Finds d is ks) :
    ∀ i ∈ is, i < d.length := by
  induction hf with
  | nil => simp
  | cons h _ ih =>
    intro i hi
    rcases List.mem_cons.1 hi with rfl | hi
    · exact lt_of_get h
    · exact ih i hi

theorem dictAddAll_spec (d ks : List Bytes) :
    d <+: (dictAddAll d ks).1 ∧ Finds (dictAddAll d ks).1 (dictAddAll d ks).2 ks := by
  induction ks generalizing d with
  | nil => exact ⟨List.prefix_rfl, .nil⟩
  | cons k ks ih =>
    obtain ⟨h1, h2⟩ := dictAdd_spec d k
    obtain ⟨h3, h4⟩ := ih (dictAdd d k).1
    exact ⟨h1.trans h3, .cons (prefix_get h3 h2) h4⟩

theorem lookupAll_finds {table : List Bytes} {is : List Nat} {ks : List Bytes} (h : Finds table is ks) :
    lookupAll table is = .ok ks := by
  induction h with
  | nil => rfl
  | cons h _ ih => simp only [lookupAll, h, ih]; rfl

/-! ## enum -/

theorem enumStreams_spec {d d' : List Bytes} {cs : List Coll} {bs : List Bytes}
    (h : enumStreams d cs = .ok (d', bs)) :
    d <+: d' ∧ bs.length = cs.length ∧ ∀ (j : Nat) (c : Coll) (b : Bytes), cs[j]? = some c → bs[j]? = some b →
      ∃ n ms caps idx, c = .enum n ms caps ∧ Finds d' idx ms ∧
        b = uvarintArrayToBytes idx ++ (caps.map fun c => putUvarint c.2.toNat).flatten := by
  induction cs generalizing d d' bs with
  | nil =>
    simp only [enumStreams, Except.ok.injEq, Prod.mk.injEq] at h
    obtain ⟨rfl, rfl⟩ := h
    simp
  | cons c cs ih =>
    cases c with
    | enum n ms caps =>
      simp only [enumStreams] at h
      obtain ⟨h1, h2⟩ := dictAddAll_spec d ms
      cases hr : enumStreams (dictAddAll d ms).1 cs with
      | error x => simp [hr, bind, Except.bind] at h
      | ok r =>
        obtain ⟨d2, blocks⟩ := r
        simp only [hr, bind, Except.bind, Except.ok.injEq, Prod.mk.injEq] at h
        obtain ⟨rfl, rfl⟩ := h
        obtain ⟨h3, h4, h5⟩ := ih hr
        refine ⟨h1.trans h3, by simp [h4], fun j c b hc hb => ?_⟩
        cases j with
        | zero =>
          simp only [List.getElem?_cons_zero, Option.some.injEq] at hc hb
          exact ⟨n, ms, caps, (dictAddAll d ms).2, hc.symm, h2.mono h3, hb.symm⟩
        | succ j => simp only [List.getElem?_cons_succ] at hc hb; exact h5 j c b hc hb
    | _ => simp [enumStreams] at h

theorem clean_enumCaptures (ts : List F64) (vs : List (BitVec 64)) (rest : Bytes) (hl : ts.length = vs.length) :
    (enumCaptures ts).clean ((vs.map fun c => putUvarint c.toNat).flatten ++ rest) = some (ts.zip vs, rest) := by
  induction ts generalizing vs with
  | nil =>
    cases vs with
    | nil => rfl
    | cons v vs => simp at hl
  | cons t ts ih =>
    cases vs with
    | nil => simp at hl
    | cons v vs =>
      simp only [List.map_cons, List.flatten_cons, List.append_assoc, enumCaptures, Prog.bind_eq]
      rw [Prog.clean_bind_of (clean_readUvarint _ _ v.isLt)]
      simp only [Prog.bind_eq]
      rw [Prog.clean_bind_of (ih vs (by simpa using hl))]
      simp

theorem clean_stringArray_limit (strs : List Bytes) (rest : Bytes)
    (h : (stringArrayToBytes strs).length ≤ sizeLimit) :
    readStringArray.clean (stringArrayToBytes strs ++ rest) =
      some ((strs, (stringArrayToBytes strs).length, none), rest) := by
  refine clean_readStringArray _ _ (fun s hs => ?_) (limit_alloc ?_)
  · have := mem_le_stringArray hs
    simp only [sizeLimit, maxAlloc] at *; omega
  · have := length_le_stringArray strs; omega

theorem clean_uvarintArray_limit (is : List Nat) (rest : Bytes) (h : (uvarintArrayToBytes is).length ≤ sizeLimit)
    (h64 : ∀ i ∈ is, i < 2 ^ 64) :
    readUvarIntArray.clean (uvarintArrayToBytes is ++ rest) =
      some ((is, (uvarintArrayToBytes is).length, none), rest) := by
  refine clean_readUvarIntArray _ _ h64 ?_
  have := length_le_uvarintArray is
  simp only [sizeLimit, maxAlloc] at *; omega

theorem decodes_enum : Decodes enumEncoder enumEncoder (Builtin.stored .enum) := by
  intro cs h bs _ henc hh
  simp only [enumEncoder, enumEncode] at henc
  cases hs : enumStreams [] cs with
  | error x => simp [hs, bind, Except.bind] at henc
  | ok r =>
    obtain ⟨d, blocks⟩ := r
    simp only [hs, bind, Except.bind, Except.ok.injEq, Prod.mk.injEq] at henc
    obtain ⟨rfl, rfl⟩ := henc
    obtain ⟨-, h1, h2⟩ := enumStreams_spec hs
    refine ⟨h1, fun j c b hc hb hb' ts hts => ?_⟩
    obtain ⟨n, ms, caps, idx, rfl, hf, rfl⟩ := h2 j c b hc hb
    have hd := clean_stringArray_limit d [] hh
    rw [List.append_nil] at hd
    have hi : ∀ i ∈ idx, i < 2 ^ 64 := fun i hi => by
      have h1 := hf.lt i hi
      have h2 := length_le_stringArray d
      simp only [sizeLimit] at hh; omega
    simp only [List.length_append] at hb'
    have hcl : (readUvarIntArray.bind fun (x : List Nat × Nat × Option Err) =>
        (Prog.ofGo (lookupAll d x.1)).bind fun ms => (enumCaptures ts).bind fun caps =>
          (Prog.pure (ms, caps) : Prog _)).clean
        (uvarintArrayToBytes idx ++ (caps.map fun c => putUvarint c.2.toNat).flatten) =
          some ((ms, ts.zip (caps.map (·.2))), []) := by
      rw [Prog.clean_bind_of (clean_uvarintArray_limit idx _ (by omega) hi)]
      simp only [lookupAll_finds hf]
      have := clean_enumCaptures ts (caps.map (·.2)) [] (by simpa [Coll.times] using hts)
      simp only [List.map_map, List.append_nil] at this
      simp only [Prog.ofGo, Prog.pure_bind', Function.comp_def] at this ⊢
      rw [Prog.clean_bind_of this]
      rfl
    simp only [enumEncoder, enumDecode, onBytes_of_clean hd, bind, Except.bind]
    have := onErrReader_of_clean hcl
    simp only [Prog.pure_eq, this]
    rfl

/-! ## event -/

theorem eventKeys_spec {keys keys' : List Bytes} {kvs : Block} {is : List Nat} {bytes : Bytes}
    (h : eventKeys keys kvs = .ok (keys', is, bytes)) (hrt : ∀ kv ∈ kvs, RT kv.2)
    (hn : (kvs.map (·.1)).Nodup) :
    keys <+: keys' ∧ is.length = kvs.length ∧ Finds keys' is (kvs.map (·.1)) ∧
      ∀ K, keys' <+: K → ∀ fuel, bytes.length ≤ fuel → bytes.length ≤ sizeLimit → ∀ rest acc,
        (∀ k ∈ kvs.map (·.1), k ∉ acc.map (·.1)) →
        (eventBlock fuel K is acc).clean (bytes ++ rest) = some (.ok (acc ++ kvs), rest) := by
  induction kvs generalizing keys keys' is bytes with
  | nil =>
    simp only [eventKeys, Except.ok.injEq, Prod.mk.injEq] at h
    obtain ⟨rfl, rfl, rfl⟩ := h
    refine ⟨List.prefix_rfl, rfl, .nil, fun K _ fuel _ _ rest acc _ => by simp [eventBlock]⟩
  | cons kv kvs ih =>
    obtain ⟨k, v⟩ := kv
    obtain ⟨c, d, hc, hd, hr⟩ := hrt (k, v) (by simp)
    have hc' : v.code = .ok c := hc
    have hd' : v.data = .ok d := hd
    simp only [List.map_cons, List.nodup_cons] at hn
    simp only [eventKeys, hc', hd', bind, Except.bind] at h
    obtain ⟨h1, h2⟩ := dictAdd_spec keys k
    cases hk : eventKeys (dictAdd keys k).1 kvs with
    | error x => simp [hk] at h
    | ok r =>
      obtain ⟨keys2, is2, bytes2⟩ := r
      simp only [hk, Except.ok.injEq, Prod.mk.injEq] at h
      obtain ⟨rfl, rfl, rfl⟩ := h
      obtain ⟨h3, h4, h5, h6⟩ := ih hk (fun kv hkv => hrt kv (by simp [hkv])) hn.2
      refine ⟨h1.trans h3, by simp [h4], .cons (prefix_get h3 h2) h5, fun K hK fuel hf hl rest acc hacc => ?_⟩
      simp only [List.cons_append, List.length_cons, List.length_append] at hf hl
      simp only [eventBlock, Prog.bind_eq, List.cons_append, List.append_assoc]
      have h7 : (readProperty fuel).clean (c :: (d ++ (bytes2 ++ rest))) = some (.ok v, bytes2 ++ rest) := by
        rw [readProperty, clean_readPropertyWith]
        exact hr fuel (by omega) (by omega) _
      rw [Prog.clean_bind_of h7]
      simp only [prefix_get hK (prefix_get h3 h2)]
      rw [mapSet_append _ _ _ (hacc k (by simp)), h6 K hK fuel (by omega) (by omega)]
      · simp
      · intro k' hk'
        simp only [List.map_append, List.map_cons, List.map_nil, List.mem_append, List.mem_singleton, not_or]
        exact ⟨hacc k' (by simp [hk']), fun he => hn.1 (he ▸ hk')⟩

theorem eventCaps_spec {names keys names' keys' : List Bytes} {caps : List (F64 × Bytes × Block)} {bytes : Bytes}
    (h : eventCaps names keys caps = .ok (names', keys', bytes)) (hg : ∀ cap ∈ caps, GoodBlock cap.2.2) :
    names <+: names' ∧ keys <+: keys' ∧
      ∀ N K, names' <+: N → keys' <+: K → N.length ≤ sizeLimit → K.length ≤ sizeLimit →
        ∀ fuel, bytes.length ≤ fuel → bytes.length ≤ sizeLimit → ∀ ts : List F64, ts.length = caps.length → ∀ rest,
        (eventCaptures fuel N K ts).clean (bytes ++ rest) = some (.ok (ts.zip (caps.map (·.2))), rest) := by
  induction caps generalizing names keys names' keys' bytes with
  | nil =>
    simp only [eventCaps, Except.ok.injEq, Prod.mk.injEq] at h
    obtain ⟨rfl, rfl, rfl⟩ := h
    refine ⟨List.prefix_rfl, List.prefix_rfl, fun N K _ _ _ _ fuel _ _ ts hts rest => ?_⟩
    cases ts with
    | nil => rfl
    | cons t ts => simp at hts
  | cons cap caps ih =>
    obtain ⟨t0, name, md⟩ := cap
    have hmd : GoodBlock md := hg (t0, name, md) (by simp)
    simp only [eventCaps, bind, Except.bind] at h
    obtain ⟨h1, h2⟩ := dictAdd_spec names name
    cases hk : eventKeys keys md with
    | error x => simp [hk] at h
    | ok r =>
      obtain ⟨keys1, is, values⟩ := r
      simp only [hk] at h
      cases hc : eventCaps (dictAdd names name).1 keys1 caps with
      | error x => simp [hc] at h
      | ok r =>
        obtain ⟨names2, keys2, more⟩ := r
        simp only [hc, Except.ok.injEq, Prod.mk.injEq] at h
        obtain ⟨rfl, rfl, rfl⟩ := h
        obtain ⟨k1, k2, k3, k4⟩ := eventKeys_spec hk (fun kv hkv => constructible_RT (hmd.2 kv hkv)) hmd.1
        obtain ⟨c1, c2, c3⟩ := ih hc (fun cap hcap => hg cap (by simp [hcap]))
        refine ⟨h1.trans c1, k1.trans c2, fun N K hN hK hNl hKl fuel hf hl ts hts rest => ?_⟩
        cases ts with
        | nil => simp at hts
        | cons t ts =>
          simp only [List.length_append] at hf hl
          simp only [eventCaptures, Prog.bind_eq, List.append_assoc]
          have hname : N[(dictAdd names name).2]? = some name := prefix_get hN (prefix_get c1 h2)
          have hi := lt_of_get hname
          simp only [sizeLimit] at hNl hKl
          rw [Prog.clean_bind_of (clean_readUvarint _ _ (by omega))]
          simp only [Prog.bind_eq]
          have hKf : Finds K is (md.map (·.1)) := (k3.mono c2).mono hK
          rw [Prog.clean_bind_of (clean_uvarintArray_limit is _ (by omega) fun i hi => by have := hKf.lt i hi; omega)]
          simp only [Prog.bind_eq]
          rw [Prog.clean_bind_of (k4 K (c2.trans hK) fuel (by omega) (by omega) _ [] (by simp))]
          simp only [hname, Prog.bind_eq, List.nil_append]
          rw [Prog.clean_bind_of (c3 N K hN hK hNl hKl fuel (by omega) (by omega) ts (by simpa using hts) rest)]
          rfl

/-- The captures the event encoder sees. -/
def eventVals : Coll → List (F64 × Bytes × Block)
  | .event _ caps => caps
  | _ => []

theorem eventVals_good {c : Coll} (h : GoodColl c) : ∀ cap ∈ eventVals c, GoodBlock cap.2.2 := by
  cases c with
  | event n caps => exact h
  | _ => simp [eventVals]

theorem eventStreams_cons {names keys names' keys' : List Bytes} {c : Coll} {cs : List Coll} {bs : List Bytes}
    (h : eventStreams names keys (c :: cs) = .ok (.ok (names', keys', bs))) :
    ∃ names1 keys1 block blocks, eventCaps names keys (eventVals c) = .ok (names1, keys1, block) ∧
      eventStreams names1 keys1 cs = .ok (.ok (names', keys', blocks)) ∧ bs = block :: blocks ∧
      ((∃ n caps, c = .event n caps) ∨ c.times = []) := by
  have aux : ∀ names1 keys1 block, (do
      match ← eventStreams names1 keys1 cs with
      | .error e => .ok (.error e)
      | .ok (names2, keys2, blocks) => .ok (.ok (names2, keys2, block :: blocks)) :
        Go (Except Err (List Bytes × List Bytes × List Bytes))) = .ok (.ok (names', keys', bs)) →
      ∃ blocks, eventStreams names1 keys1 cs = .ok (.ok (names', keys', blocks)) ∧ bs = block :: blocks := by
    intro names1 keys1 block h
    cases hs : eventStreams names1 keys1 cs with
    | error x => simp [hs, bind, Except.bind] at h
    | ok r =>
      cases r with
      | error e => simp [hs, bind, Except.bind] at h
      | ok r =>
        obtain ⟨names2, keys2, blocks⟩ := r
        simp only [hs, bind, Except.bind, Except.ok.injEq, Prod.mk.injEq] at h
        obtain ⟨rfl, rfl, rfl⟩ := h
        exact ⟨blocks, rfl, rfl⟩
  have other : (∀ n caps, c ≠ .event n caps) → ∃ names1 keys1 block blocks,
      eventCaps names keys (eventVals c) = .ok (names1, keys1, block) ∧
      eventStreams names1 keys1 cs = .ok (.ok (names', keys', blocks)) ∧ bs = block :: blocks ∧
      ((∃ n caps, c = .event n caps) ∨ c.times = []) := by
    intro hne
    have h0 : eventVals c = [] := by
      cases c with
      | event n caps => exact absurd rfl (hne n caps)
      | _ => rfl
    rw [eventStreams] at h
    · split at h
      · rename_i ht
        obtain ⟨blocks, h1, h2⟩ := aux _ _ _ h
        exact ⟨_, _, _, blocks, by rw [h0]; rfl, h1, h2, Or.inr (List.isEmpty_iff.1 ht)⟩
      · simp at h
    · exact hne
  cases c with
  | event n caps =>
    simp only [eventStreams] at h
    cases hc : eventCaps names keys caps with
    | error x => simp [hc, bind, Except.bind] at h
    | ok r =>
      obtain ⟨names1, keys1, block⟩ := r
      rw [hc] at h
      obtain ⟨blocks, h1, h2⟩ := aux _ _ _ h
      exact ⟨_, _, _, blocks, hc, h1, h2, Or.inl ⟨n, caps, rfl⟩⟩
  | _ => exact other (by simp)

theorem eventStreams_spec {names keys names' keys' : List Bytes} {cs : List Coll} {bs : List Bytes}
    (h : eventStreams names keys cs = .ok (.ok (names', keys', bs))) (hg : ∀ c ∈ cs, GoodColl c) :
    names <+: names' ∧ keys <+: keys' ∧ bs.length = cs.length ∧
      ∀ (j : Nat) (c : Coll) (b : Bytes), cs[j]? = some c → bs[j]? = some b →
        (eventVals c).length = c.times.length ∧
        (∀ ts, Builtin.stored .event c ts = .event c.name (ts.zip ((eventVals c).map (·.2)))) ∧
      ∀ N K, names' <+: N → keys' <+: K → N.length ≤ sizeLimit → K.length ≤ sizeLimit →
        ∀ fuel, b.length ≤ fuel → b.length ≤ sizeLimit → ∀ ts : List F64, ts.length = (eventVals c).length → ∀ rest,
        (eventCaptures fuel N K ts).clean (b ++ rest) = some (.ok (ts.zip ((eventVals c).map (·.2))), rest) := by
  induction cs generalizing names keys names' keys' bs with
  | nil =>
    simp only [eventStreams, Except.ok.injEq, Prod.mk.injEq] at h
    obtain ⟨rfl, rfl, rfl⟩ := h
    simp
  | cons c cs ih =>
    obtain ⟨names1, keys1, block, blocks, hc, hs, rfl, hcase⟩ := eventStreams_cons h
    obtain ⟨c1, c2, c3⟩ := eventCaps_spec hc (eventVals_good (hg c (by simp)))
    obtain ⟨s1, s2, s3, s4⟩ := ih hs (fun c hc => hg c (by simp [hc]))
    refine ⟨c1.trans s1, c2.trans s2, by simp [s3], fun j c' b' hc' hb' => ?_⟩
    cases j with
    | zero =>
      simp only [List.getElem?_cons_zero, Option.some.injEq] at hc' hb'
      subst hc' hb'
      refine ⟨?_, ?_, fun N K hN hK => c3 N K (s1.trans hN) (s2.trans hK)⟩
      · rcases hcase with ⟨n, caps, rfl⟩ | ht
        · simp [eventVals, Coll.times]
        · rw [ht]
          cases c with
          | event n caps => simpa [Coll.times, eventVals] using ht
          | _ => rfl
      · intro ts
        cases c with
        | event n caps => rfl
        | _ => simp [eventVals, Builtin.stored]
    | succ j => simp only [List.getElem?_cons_succ] at hc' hb'; exact s4 j c' b' hc' hb'

theorem decodes_event : Decodes eventEncoder eventEncoder (Builtin.stored .event) := by
  intro cs h bs hg henc hh
  simp only [eventEncoder, eventEncode] at henc
  cases hs : eventStreams [] [] cs with
  | error x => simp [hs, bind, Except.bind] at henc
  | ok r =>
    cases r with
    | error e => simp [hs, bind, Except.bind] at henc
    | ok r =>
      obtain ⟨names, keys, blocks⟩ := r
      simp only [hs, bind, Except.bind, Except.ok.injEq, Prod.mk.injEq] at henc
      obtain ⟨rfl, rfl⟩ := henc
      obtain ⟨-, -, h1, h2⟩ := eventStreams_spec hs hg
      refine ⟨h1, fun j c b hc hb hb' ts hts => ?_⟩
      obtain ⟨h3, h4, h5⟩ := h2 j c b hc hb
      simp only [List.length_append] at hh
      have hn := clean_stringArray_limit names (stringArrayToBytes keys) (by omega)
      have hk := clean_stringArray_limit keys [] (by omega)
      rw [List.append_nil] at hk
      have hhead : eventHeader.clean (stringArrayToBytes names ++ stringArrayToBytes keys) =
          some ((names, keys, none), []) := by
        simp only [eventHeader, Prog.bind_eq]
        rw [Prog.clean_bind_of hn]
        simp only [Prog.bind_eq]
        rw [Prog.clean_bind_of hk]
        rfl
      have l1 := length_le_stringArray names
      have l2 := length_le_stringArray keys
      have hcap := h5 names keys List.prefix_rfl List.prefix_rfl (by omega) (by omega) (b.length + 1) (by omega) hb'
        ts (by omega) []
      rw [List.append_nil] at hcap
      simp only [eventEncoder, eventDecode, onBytes_of_clean hhead, bind, Except.bind]
      rw [onBytes_of_clean hcap, h4]

/-- Encoders of the same kind read each other's data. -/
theorem builtin_decodes (b b' : Builtin) (h : b.encoder.sig = b'.encoder.sig) :
    Decodes b.encoder b'.encoder b.stored := by
  cases b <;> cases b' <;> first
    | exact decodes_event
    | exact decodes_enum
    | exact decodes_position _ _
    | exact decodes_euler _ _
    | exact decodes_float _ _
    | exact absurd h (by simp only [Builtin.encoder, eventEncoder, enumEncoder, positionEncoder, eulerEncoder, floatEncoder]; decide)

end Rap
