import Verif.Proof.TimeError

/-!
# Error of positions stored as oct-tree cells
-/

namespace Rap

/-! ## One axis -/

/-- The decisions for one axis. -/
def axisCodes (k : Nat) (C I : F64) : (total : F64) → List F64 → List (List Bool)
  | _, [] => []
  | total, t :: ts =>
    bstEncBits (t.sub total) k C I ::
      axisCodes k C I (total.add (bstDecBits (bstEncBits (t.sub total) k C I) C I)) ts

/-- Adding up the decoded differences of one axis. -/
def axisSums (C I : F64) : (cur : F64) → List (List Bool) → List F64
  | _, [] => []
  | cur, b :: bs => cur.add (bstDecBits b C I) :: axisSums C I (cur.add (bstDecBits b C I)) bs

/-- The range of one axis. -/
def axisMin (ts : List F64) : F64 := (timeGaps ts).foldl fmin F64.inf
def axisMax (ts : List F64) : F64 := (timeGaps ts).foldl fmax F64.ninf
def axisCenter (lo hi : F64) : F64 := (lo.add hi).div f2
def axisInc (lo hi : F64) : F64 := (hi.sub lo).div f4

/-- One axis of the stored positions. -/
def axisStored (k : Nat) : List F64 → List F64
  | [] => []
  | [t] => [near32 t]
  | t :: ts =>
    near32 t :: axisSums (axisCenter (near32 (axisMin (t :: ts))) (near32 (axisMax (t :: ts))))
      (axisInc (near32 (axisMin (t :: ts))) (near32 (axisMax (t :: ts)))) (near32 t)
      (axisCodes k (axisCenter (axisMin (t :: ts)) (axisMax (t :: ts)))
        (axisInc (axisMin (t :: ts)) (axisMax (t :: ts))) t ts)

/-! ## The three axes are independent -/

/-- An axis: a component of vectors and the bit of a cell that decides it. -/
structure Axis where
  get : V3 → F64
  mask : UInt8
  near : ∀ v, get v.near32 = near32 (get v)
  add : ∀ a b, get (a.add b) = (get a).add (get b)
  sub : ∀ a b, get (a.sub b) = (get a).sub (get b)
  center : ∀ lo hi, get (octCenter lo hi) = axisCenter (get lo) (get hi)
  inc : ∀ lo hi, get (octInc lo hi) = axisInc (get lo) (get hi)
  min : ∀ (ds : List V3) (m : V3), get (ds.foldl (fun m d : V3 => (⟨fmin m.x d.x, fmin m.y d.y, fmin m.z d.z⟩ : V3)) m) = (ds.map get).foldl fmin (get m)
  max : ∀ (ds : List V3) (m : V3), get (ds.foldl (fun m d : V3 => (⟨fmax m.x d.x, fmax m.y d.y, fmax m.z d.z⟩ : V3)) m) = (ds.map get).foldl fmax (get m)
  inf : get ⟨F64.inf, F64.inf, F64.inf⟩ = F64.inf
  ninf : get ⟨F64.ninf, F64.ninf, F64.ninf⟩ = F64.ninf
  enc : ∀ v k c i, (octCellsLoop v k c i).map (fun cell => cell &&& mask == 0) = bstEncBits (get v) k (get c) (get i)
  dec : ∀ cells c i, get (octDecLoop cells c i) =
    bstDecBits (cells.map fun cell => cell &&& mask == 0) (get c) (get i)

theorem octCell_bits (a b c : Bool) :
    let cell : UInt8 := (if a then (1 : UInt8) else 0) <<< 2 ||| (if b then (1 : UInt8) else 0) <<< 1 ||| (if c then 1 else 0)
    (cell &&& 4 == 0) = !a ∧ (cell &&& 2 == 0) = !b ∧ (cell &&& 1 == 0) = !c := by
  revert a b c; decide

def axisX : Axis where
  get := V3.x
  mask := 2
  near _ := rfl
  add _ _ := rfl
  sub _ _ := rfl
  center _ _ := rfl
  inc _ _ := rfl
  min ds := by induction ds with
    | nil => intro m; rfl
    | cons d ds ih => intro m; rw [List.foldl_cons, ih]; rfl
  max ds := by induction ds with
    | nil => intro m; rfl
    | cons d ds ih => intro m; rw [List.foldl_cons, ih]; rfl
  inf := rfl
  ninf := rfl
  enc v k := by
    induction k with
    | zero => intro c i; rfl
    | succ k ih =>
      intro c i
      simp only [octCellsLoop, List.map_cons, ih, bstEncBits]
      rw [(octCell_bits (v.y.lt c.y) (v.x.lt c.x) (v.z.lt c.z)).2.1]
      cases v.x.lt c.x <;> rfl
  dec cells := by
    induction cells with
    | nil => intro c i; rfl
    | cons cell cells ih =>
      intro c i
      simp only [octDecLoop, ih, List.map_cons]
      by_cases h : cell &&& 2 = 0
      · simp only [h, if_true, beq_self_eq_true]; rfl
      · simp only [h, if_false, beq_eq_false_iff_ne.2 h]; rfl

def axisY : Axis where
  get := V3.y
  mask := 4
  near _ := rfl
  add _ _ := rfl
  sub _ _ := rfl
  center _ _ := rfl
  inc _ _ := rfl
  min ds := by induction ds with
    | nil => intro m; rfl
    | cons d ds ih => intro m; rw [List.foldl_cons, ih]; rfl
  max ds := by induction ds with
    | nil => intro m; rfl
    | cons d ds ih => intro m; rw [List.foldl_cons, ih]; rfl
  inf := rfl
  ninf := rfl
  enc v k := by
    induction k with
    | zero => intro c i; rfl
    | succ k ih =>
      intro c i
      simp only [octCellsLoop, List.map_cons, ih, bstEncBits]
      rw [(octCell_bits (v.y.lt c.y) (v.x.lt c.x) (v.z.lt c.z)).1]
      cases v.y.lt c.y <;> rfl
  dec cells := by
    induction cells with
    | nil => intro c i; rfl
    | cons cell cells ih =>
      intro c i
      simp only [octDecLoop, ih, List.map_cons]
      by_cases h : cell &&& 4 = 0
      · simp only [h, if_true, beq_self_eq_true]; rfl
      · simp only [h, if_false, beq_eq_false_iff_ne.2 h]; rfl

def axisZ : Axis where
  get := V3.z
  mask := 1
  near _ := rfl
  add _ _ := rfl
  sub _ _ := rfl
  center _ _ := rfl
  inc _ _ := rfl
  min ds := by induction ds with
    | nil => intro m; rfl
    | cons d ds ih => intro m; rw [List.foldl_cons, ih]; rfl
  max ds := by induction ds with
    | nil => intro m; rfl
    | cons d ds ih => intro m; rw [List.foldl_cons, ih]; rfl
  inf := rfl
  ninf := rfl
  enc v k := by
    induction k with
    | zero => intro c i; rfl
    | succ k ih =>
      intro c i
      simp only [octCellsLoop, List.map_cons, ih, bstEncBits]
      rw [(octCell_bits (v.y.lt c.y) (v.x.lt c.x) (v.z.lt c.z)).2.2]
      cases v.z.lt c.z <;> rfl
  dec cells := by
    induction cells with
    | nil => intro c i; rfl
    | cons cell cells ih =>
      intro c i
      simp only [octDecLoop, ih, List.map_cons]
      by_cases h : cell &&& 1 = 0
      · simp only [h, if_true, beq_self_eq_true]; rfl
      · simp only [h, if_false, beq_eq_false_iff_ne.2 h]; rfl

namespace Axis
variable (A : Axis)

theorem deltas_map (vs : List V3) : (deltas vs).map A.get = timeGaps (vs.map A.get) := by
  induction vs with
  | nil => rfl
  | cons a vs ih =>
    cases vs with
    | nil => rfl
    | cons b vs => rw [deltas, List.map_cons, ih, A.sub]; rfl

theorem octMin_get (vs : List V3) : A.get (octMin vs) = axisMin (vs.map A.get) := by
  rw [octMin, A.min, A.deltas_map, A.inf]; rfl

theorem octMax_get (vs : List V3) : A.get (octMax vs) = axisMax (vs.map A.get) := by
  rw [octMax, A.max, A.deltas_map, A.ninf]; rfl

theorem choices (n : Nat) (lo hi : V3) (ps : List V3) (q : V3) :
    (octChoices n lo hi q ps).map (fun cells => cells.map fun c => c &&& A.mask == 0) =
      axisCodes (8 * n) (axisCenter (A.get lo) (A.get hi)) (axisInc (A.get lo) (A.get hi)) (A.get q) (ps.map A.get) := by
  induction ps generalizing q with
  | nil => rfl
  | cons p ps ih =>
    simp only [octChoices, List.map_cons, axisCodes]
    rw [ih, A.add, octCellsToVec3, A.dec, vec3ToOctCells, A.enc, A.sub, A.center, A.inc]

theorem sums (lo hi : V3) (cs : List (List UInt8)) (cur : V3) :
    (octSums lo hi cur cs).map A.get = axisSums (axisCenter (A.get lo) (A.get hi)) (axisInc (A.get lo) (A.get hi))
      (A.get cur) (cs.map fun cells => cells.map fun c => c &&& A.mask == 0) := by
  induction cs generalizing cur with
  | nil => rfl
  | cons c cs ih =>
    simp only [octSums, List.map_cons, axisSums]
    rw [ih, A.add, octCellsToVec3, A.dec, A.center, A.inc]

theorem stored (n : Nat) (vs : List V3) : (octStored n vs).map A.get = axisStored (8 * n) (vs.map A.get) := by
  match vs with
  | [] => rfl
  | [p] => simp only [octStored, List.map_cons, List.map_nil, axisStored, A.near]
  | p :: q :: ps =>
    simp only [octStored, List.map_cons, axisStored]
    rw [A.near, A.sums, A.choices, A.near, A.near, A.near, A.octMin_get, A.octMax_get]
    simp only [List.map_cons]

end Axis

/-! ## The walk along one axis -/

/-- Quantities of the walk: the ranges of the encoder and of the decoder and their bounds. -/
structure Walk (k : Nat) (lo hi lo' hi' : ℚ) (C I C' I' : F64) (B s dE dF : ℚ) : Prop where
  enc : Starts lo hi (2 * stepErr (2 * B)) C I
  dec : Starts lo' hi' (2 * stepErr (2 * B)) C' I'
  kle : k ≤ 16
  big : B ≤ big / 8
  small : 40 * tiny ≤ B
  lob : |lo| ≤ B
  hib : |hi| ≤ B
  lob' : |lo'| ≤ B
  hib' : |hi'| ≤ B
  s0 : 0 ≤ s
  e : s + (hi - lo) / 2 ^ (k + 1) + 46 * B / 2 ^ 53 + 36 * tiny ≤ dE
  f : max |lo' - lo| |hi' - hi| + 80 * B / 2 ^ 53 + 36 * tiny ≤ dF

theorem Walk.nonneg {k : Nat} {lo hi lo' hi' : ℚ} {C I C' I' : F64} {B s dE dF : ℚ}
    (h : Walk k lo hi lo' hi' C I C' I' B s dE dF) : 0 ≤ dE ∧ 0 ≤ dF ∧ 0 ≤ B := by
  have ht := tiny_pos
  have hB : 0 ≤ B := le_trans (abs_nonneg _) h.lob
  have hr : 0 ≤ (hi - lo) / 2 ^ (k + 1) := div_nonneg (by linarith [h.enc.range]) (by positivity)
  have a4 : 0 ≤ 46 * B / 2 ^ 53 := by positivity
  have a5 : 0 ≤ 80 * B / 2 ^ 53 := by positivity
  have a6 : 0 ≤ max |lo' - lo| |hi' - hi| := le_trans (abs_nonneg _) (le_max_left _ _)
  exact ⟨by linarith [h.e, h.s0], by linarith [h.f], hB⟩

theorem Walk.fits {k : Nat} {lo hi lo' hi' : ℚ} {C I C' I' : F64} {B s dE dF : ℚ}
    (h : Walk k lo hi lo' hi' C I C' I' B s dE dF) {j : Nat} (hj : j = k) :
    max |lo| |hi| + 2 * stepErr (2 * B) + j * stepErr (2 * B) ≤ 2 * B ∧
      max |lo'| |hi'| + 2 * stepErr (2 * B) + j * stepErr (2 * B) ≤ 2 * B ∧ 0 ≤ stepErr (2 * B) ∧
      j * stepErr (2 * B) ≤ 16 * stepErr (2 * B) := by
  have ht := tiny_pos
  obtain ⟨-, -, hB⟩ := h.nonneg
  have hk : (j : ℚ) ≤ 16 := by rw [hj]; exact_mod_cast h.kle
  have hse : stepErr (2 * B) = 2 * B / 2 ^ 53 + tiny := rfl
  have hse0 : 0 ≤ stepErr (2 * B) := by rw [hse]; positivity
  have h1 : (j : ℚ) * stepErr (2 * B) ≤ 16 * stepErr (2 * B) := mul_le_mul_of_nonneg_right hk hse0
  have h2 : 18 * stepErr (2 * B) ≤ B := by
    have := h.small
    rw [hse]; norm_num; linarith
  have m1 := max_le h.lob h.hib
  have m2 := max_le h.lob' h.hib'
  exact ⟨by linarith, by linarith, hse0, h1⟩

/-- One step of encoder and decoder. `d` bounds how far the difference is outside the range. -/
theorem Walk.step {k : Nat} {lo hi lo' hi' : ℚ} {C I C' I' : F64} {B s dE dF : ℚ}
    (h : Walk k lo hi lo' hi' C I C' I' B s dE dF) {t total cur : F64} {f d : ℚ}
    (ht : t.isFinite = true) (hto : total.isFinite = true) (hc : cur.isFinite = true)
    (hf : |cur.toRat - total.toRat| ≤ f) (hd0 : 0 ≤ d)
    (hd1 : t.toRat - total.toRat ≤ hi + s + d) (hd2 : lo - s - d ≤ t.toRat - total.toRat)
    (b1 : |total.toRat| ≤ B) (b2 : |t.toRat| ≤ B) (b3 : |cur.toRat| ≤ B) (bits : List Bool)
    (hbe : bits = bstEncBits (t.sub total) k C I) :
    (total.add (bstDecBits bits C I)).isFinite = true ∧ (cur.add (bstDecBits bits C' I')).isFinite = true ∧
      |(total.add (bstDecBits bits C I)).toRat - t.toRat| ≤ d + dE ∧
      |(cur.add (bstDecBits bits C' I')).toRat - (total.add (bstDecBits bits C I)).toRat| ≤ f + dF := by
  have htp := tiny_pos
  have hbp := big_pos
  obtain ⟨n1, n2, n3⟩ := h.nonneg
  have hbig := h.big
  have hs := h.s0
  have hl : bits.length = k := by rw [hbe]; exact bstEncBits_length ..
  obtain ⟨f1, f2, f3, f4⟩ := h.fits (j := k) rfl
  have hse : stepErr (2 * B) = 2 * B / 2 ^ 53 + tiny := rfl
  have hy : |t.toRat - total.toRat| ≤ 2 * B := by
    have := abs_sub t.toRat total.toRat; linarith
  obtain ⟨s1, s2⟩ := sub_mod ht hto (by linarith)
  obtain ⟨e1, e2⟩ := h.enc.enc (by linarith : (0 : ℚ) ≤ 2 * B) (by linarith) f1 s1
  rw [← hbe] at e1 e2
  obtain ⟨-, g2⟩ := h.enc.dec (by linarith : (0 : ℚ) ≤ 2 * B) (by linarith) bits (by rw [hl]; exact f1)
  obtain ⟨g3, g4⟩ := h.dec.dec (by linarith : (0 : ℚ) ≤ 2 * B) (by linarith) bits (by rw [hl]; exact f2)
  rw [hl] at g2 g4
  have gd := frac_diff bits (le_max_left |lo' - lo| |hi' - hi|) (le_max_right |lo' - lo| |hi' - hi|)
  obtain ⟨p1, p2⟩ := frac_pos bits
  have q1 : |lo' * (1 - frac bits) + hi' * frac bits| ≤ B := by
    have a1 := h.lob'
    have a2 := h.hib'
    refine le_trans (abs_add_le _ _) ?_
    rw [abs_mul, abs_mul, abs_of_pos p1, abs_of_pos (by linarith : (0 : ℚ) < 1 - frac bits)]
    have c1 := mul_le_mul_of_nonneg_right a1 (by linarith : (0 : ℚ) ≤ 1 - frac bits)
    have c2 := mul_le_mul_of_nonneg_right a2 p1.le
    linarith
  have hff := h.f
  generalize lo' * (1 - frac bits) + hi' * frac bits = X' at *
  generalize lo * (1 - frac bits) + hi * frac bits = X at *
  generalize max |lo' - lo| |hi' - hi| = m at *
  generalize bstDecBits bits C I = δ at *
  generalize bstDecBits bits C' I' = δ' at *
  have hkt : (k : ℚ) * tiny ≤ 16 * tiny := by
    have hk : (k : ℚ) ≤ 16 := by exact_mod_cast h.kle
    exact mul_le_mul_of_nonneg_right hk htp.le
  have e3 : |δ.toRat - clamp lo hi (t.sub total).toRat| ≤ (hi - lo) / 2 ^ (k + 1) + 40 * B / 2 ^ 53 + 36 * tiny := by
    refine le_trans e2 ?_
    rw [mul_add]
    rw [hse] at f4 ⊢
    norm_num at f4 ⊢
    linarith
  have hcl : |clamp lo hi (t.sub total).toRat - (t.toRat - total.toRat)| ≤ d + s + 2 * B / 2 ^ 53 := by
    have a1 : |t.toRat - total.toRat| / 2 ^ 53 ≤ 2 * B / 2 ^ 53 := by gcongr
    have a2 := abs_le.1 (le_trans s2 a1)
    have hp : 0 ≤ 2 * B / 2 ^ 53 := by positivity
    have hr := h.enc.range
    unfold clamp
    rw [abs_le]
    rcases le_total (t.sub total).toRat hi with c | c
    · rw [min_eq_left c]
      rcases le_total lo (t.sub total).toRat with k | k
      · rw [max_eq_right k]; constructor <;> linarith
      · rw [max_eq_left k]; constructor <;> linarith
    · rw [min_eq_right c, max_eq_right hr]; constructor <;> linarith
  have hδ : |δ.toRat| ≤ 3 * B := by
    have c1 : lo ≤ clamp lo hi (t.sub total).toRat := le_max_left _ _
    have c2 : clamp lo hi (t.sub total).toRat ≤ hi := max_le h.enc.range (min_le_right _ _)
    have u := abs_le.1 e3
    have v1 := abs_le.1 h.lob
    have v2 := abs_le.1 h.hib
    have hsm := h.small
    have hr0 : 0 ≤ hi - lo := by linarith [h.enc.range]
    have hr : (hi - lo) / 2 ^ (k + 1) ≤ (hi - lo) / 2 := by
      rw [pow_succ]
      have : (1 : ℚ) ≤ 2 ^ k := one_le_pow₀ (by norm_num)
      exact div_le_div_of_nonneg_left hr0 (by norm_num) (by linarith)
    norm_num at u
    rw [abs_le]; constructor <;> linarith
  have hδ' : |δ'.toRat| ≤ 3 * B := by
    have u := abs_le.1 g4
    have v := abs_le.1 q1
    have hsm := h.small
    have := h.fits (j := k) rfl
    have w : 2 * stepErr (2 * B) + k * stepErr (2 * B) ≤ 2 * B := by
      have := le_trans (abs_nonneg lo) (le_max_left |lo| |hi|)
      linarith
    rw [abs_le]; constructor <;> linarith
  have hsum : |total.toRat + δ.toRat| ≤ 4 * B := by
    have := abs_add_le total.toRat δ.toRat; linarith
  have hsum' : |cur.toRat + δ'.toRat| ≤ 4 * B := by
    have := abs_add_le cur.toRat δ'.toRat; linarith
  obtain ⟨t1, t2⟩ := add_mod hto e1 (by linarith)
  obtain ⟨c1, c2⟩ := add_mod hc g3 (by linarith)
  have t3 : |(total.add δ).toRat - (total.toRat + δ.toRat)| ≤ 4 * B / 2 ^ 53 := le_trans t2 (by gcongr)
  have c3 : |(cur.add δ').toRat - (cur.toRat + δ'.toRat)| ≤ 4 * B / 2 ^ 53 := le_trans c2 (by gcongr)
  have u1 := abs_le.1 t3
  have u2 := abs_le.1 e3
  have u3 := abs_le.1 hcl
  have u4 := abs_le.1 c3
  have u5 := abs_le.1 g2
  have u6 := abs_le.1 g4
  have u7 := abs_le.1 gd
  have u8 := abs_le.1 hf
  have he := h.e
  have hsum18 : 2 * stepErr (2 * B) + k * stepErr (2 * B) ≤ 36 * B / 2 ^ 53 + 18 * tiny := by
    rw [hse] at f4 ⊢
    norm_num at f4 ⊢
    linarith
  refine ⟨t1, c1, ?_, ?_⟩
  · rw [abs_le]
    constructor
    · norm_num at *; linarith
    · norm_num at *; linarith
  · rw [abs_le]
    constructor
    · norm_num at u1 u4 hff hsum18; linarith
    · norm_num at u1 u4 hff hsum18; linarith

/-- Errors grow by at most `dE + dF` per position. -/
theorem axis_walk {k : Nat} {lo hi lo' hi' : ℚ} {C I C' I' : F64} {B s dE dF P : ℚ}
    (h : Walk k lo hi lo' hi' C I C' I' B s dE dF) (ts : List F64) {prev total cur : F64}
    {e f : ℚ} (hp : prev.isFinite = true) (hto : total.isFinite = true) (hc : cur.isFinite = true)
    (hts : ∀ t ∈ prev :: ts, t.isFinite = true ∧ |t.toRat| ≤ P)
    (hgap : (prev :: ts).IsChain fun a b => lo - s ≤ b.toRat - a.toRat ∧ b.toRat - a.toRat ≤ hi + s)
    (he : |total.toRat - prev.toRat| ≤ e) (hf : |cur.toRat - total.toRat| ≤ f)
    (hB : P + e + f + ts.length * (dE + dF) ≤ B) :
    (∀ t ∈ axisSums C' I' cur (axisCodes k C I total ts), t.isFinite = true) ∧
      (axisSums C' I' cur (axisCodes k C I total ts)).length = ts.length ∧
      ∀ (i : Nat) (a b : F64), ts[i]? = some a → (axisSums C' I' cur (axisCodes k C I total ts))[i]? = some b →
        |b.toRat - a.toRat| ≤ e + f + (i + 1) * (dE + dF) := by
  induction ts generalizing prev total cur e f with
  | nil => simp [axisCodes, axisSums]
  | cons t ts ih =>
    obtain ⟨n1, n2, n3⟩ := h.nonneg
    have hlen : ((t :: ts).length : ℚ) = ts.length + 1 := by simp
    rw [hlen] at hB
    have hl0 : (0 : ℚ) ≤ ts.length := by positivity
    have hmul : (0 : ℚ) ≤ ts.length * (dE + dF) := mul_nonneg hl0 (by linarith)
    have he0 := le_trans (abs_nonneg _) he
    have hf0 := le_trans (abs_nonneg _) hf
    obtain ⟨g1, g2⟩ := List.isChain_cons_cons.1 hgap
    have ht := hts t (by simp)
    have hpT := abs_le.1 (hts prev (by simp)).2
    have he' := abs_le.1 he
    have hf' := abs_le.1 hf
    obtain ⟨r1, r2, r3, r4⟩ := h.step (d := e) ht.1 hto hc hf he0 (by linarith) (by linarith)
      (by rw [abs_le]; constructor <;> linarith) (by linarith [ht.2]) (by rw [abs_le]; constructor <;> linarith) _ rfl
    obtain ⟨i1, i3, i4⟩ := ih ht.1 r1 r2 (fun x hx => hts x (by simp [hx])) g2 r3 r4 (by linarith)
    simp only [axisCodes, axisSums]
    refine ⟨?_, by rw [List.length_cons, List.length_cons, i3], ?_⟩
    · intro x hx
      rcases List.mem_cons.1 hx with rfl | hx
      · exact r2
      · exact i1 x hx
    · intro i a b ha hb
      cases i with
      | zero =>
        simp only [List.getElem?_cons_zero, Option.some.injEq] at ha hb
        subst ha hb
        have u1 := abs_le.1 r3
        have u2 := abs_le.1 r4
        rw [Nat.cast_zero, zero_add, one_mul, abs_le]
        constructor <;> linarith
      | succ i =>
        simp only [List.getElem?_cons_succ] at ha hb
        have := i4 i a b ha hb
        rw [Nat.cast_succ]
        linarith

/-! ## The ranges of encoder and decoder -/

theorem starts_axis {a b : F64} (ha : a.isFinite = true) (hb : b.isFinite = true) (hab : a.toRat ≤ b.toRat) {B : ℚ}
    (h1 : |a.toRat| ≤ B) (h2 : |b.toRat| ≤ B) (hB : B ≤ big / 8) :
    Starts a.toRat b.toRat (2 * stepErr (2 * B)) (axisCenter a b) (axisInc a b) := by
  have ht := tiny_pos
  have hbp := big_pos
  have hB0 : 0 ≤ B := le_trans (abs_nonneg _) h1
  have hse : stepErr (2 * B) = 2 * B / 2 ^ 53 + tiny := rfl
  have u1 : |a.toRat + b.toRat| ≤ 2 * B := by have := abs_add_le a.toRat b.toRat; linarith
  have u2 : |b.toRat - a.toRat| ≤ 2 * B := by have := abs_sub b.toRat a.toRat; linarith
  obtain ⟨a1, a2⟩ := add_mod ha hb (by linarith)
  obtain ⟨s1, s2⟩ := sub_mod hb ha (by linarith)
  obtain ⟨g1, g2, g3, g4⟩ := half_spec a1
  obtain ⟨q1, q2, q3, q4⟩ := quarter_spec s1
  have a3 : |(a.add b).toRat - (a.toRat + b.toRat)| ≤ 2 * B / 2 ^ 53 := le_trans a2 (by gcongr)
  have s3 : |(b.sub a).toRat - (b.toRat - a.toRat)| ≤ 2 * B / 2 ^ 53 := le_trans s2 (by gcongr)
  have s4 : 0 ≤ (b.sub a).toRat := by
    rw [abs_of_nonneg (by linarith : 0 ≤ b.toRat - a.toRat)] at s2
    have : (b.toRat - a.toRat) / 2 ^ 53 ≤ b.toRat - a.toRat :=
      div_le_self (by linarith) (one_le_pow₀ (by norm_num))
    have := abs_le.1 s2
    linarith
  refine ⟨hab, g1, q1, q4 s4, ?_⟩
  have e1 : (axisCenter a b).toRat - (a.toRat + b.toRat) / 2 =
      ((a.add b).div f2).toRat - (a.add b).toRat / 2 + ((a.add b).toRat - (a.toRat + b.toRat)) / 2 := by
    rw [axisCenter]; ring
  have e2 : (axisInc a b).toRat - (b.toRat - a.toRat) / 4 =
      ((b.sub a).div f4).toRat - (b.sub a).toRat / 4 + ((b.sub a).toRat - (b.toRat - a.toRat)) / 4 := by
    rw [axisInc]; ring
  rw [e1, e2]
  have r1 := abs_add_le (((a.add b).div f2).toRat - (a.add b).toRat / 2) (((a.add b).toRat - (a.toRat + b.toRat)) / 2)
  have r2 := abs_add_le (((b.sub a).div f4).toRat - (b.sub a).toRat / 4) (((b.sub a).toRat - (b.toRat - a.toRat)) / 4)
  rw [abs_div _ (2 : ℚ), abs_of_pos (by norm_num : (0 : ℚ) < 2)] at r1
  rw [abs_div _ (4 : ℚ), abs_of_pos (by norm_num : (0 : ℚ) < 4)] at r2
  have hp : 0 ≤ 2 * B / 2 ^ 53 := by positivity
  linarith

/-- The range of one axis. -/
theorem axis_range {ts : List F64} {P lo hi D : ℚ} (hl : 2 ≤ ts.length) (hP : P ≤ 2 ^ 126)
    (hD1 : |lo| ≤ D) (hD2 : |hi| ≤ D) (hts : ∀ t ∈ ts, t.isFinite = true ∧ |t.toRat| ≤ P)
    (hch : ts.IsChain fun a b => lo ≤ b.toRat - a.toRat ∧ b.toRat - a.toRat ≤ hi) :
    (axisMin ts).isFinite = true ∧ (axisMax ts).isFinite = true ∧ (axisMin ts).toRat ≤ (axisMax ts).toRat ∧
      lo - D / 2 ^ 53 ≤ (axisMin ts).toRat ∧ (axisMax ts).toRat ≤ hi + D / 2 ^ 53 ∧
      ts.IsChain fun a b => (axisMin ts).toRat - D / 2 ^ 53 ≤ b.toRat - a.toRat ∧
        b.toRat - a.toRat ≤ (axisMax ts).toRat + D / 2 ^ 53 := by
  have hbig : (2 : ℚ) ^ 127 ≤ big := by
    unfold big; exact pow_le_pow_right₀ (by norm_num) (by norm_num)
  have l1 := abs_le.1 hD1
  have l2 := abs_le.1 hD2
  have hgap : ∀ (i : Nat) (a b : F64), ts[i]? = some a → ts[i + 1]? = some b →
      (b.sub a).isFinite = true ∧ |(b.sub a).toRat - (b.toRat - a.toRat)| ≤ D / 2 ^ 53 ∧
        lo ≤ b.toRat - a.toRat ∧ b.toRat - a.toRat ≤ hi := by
    intro i a b ha hb
    obtain ⟨fa, ba⟩ := hts a (List.mem_of_getElem? ha)
    obtain ⟨fb, bb⟩ := hts b (List.mem_of_getElem? hb)
    have hab : lo ≤ b.toRat - a.toRat ∧ b.toRat - a.toRat ≤ hi := by
      have h1 := List.isChain_iff_getElem.1 hch i (by
        have := (List.getElem?_eq_some_iff.1 hb).1; omega)
      rw [(List.getElem?_eq_some_iff.1 ha).2, (List.getElem?_eq_some_iff.1 hb).2] at h1
      exact h1
    have h2 : |b.toRat - a.toRat| ≤ 2 * P := by
      have := abs_sub b.toRat a.toRat; linarith
    obtain ⟨s1, s2⟩ := sub_mod fb fa (by
      refine le_trans h2 ?_
      have : (2 : ℚ) ^ 127 = 2 * 2 ^ 126 := by norm_num
      linarith)
    have h3 : |b.toRat - a.toRat| ≤ D := abs_le.2 ⟨by linarith, by linarith⟩
    exact ⟨s1, le_trans s2 (by gcongr), hab⟩
  have hfin : ∀ g ∈ timeGaps ts, g.isFinite = true := by
    intro g hg
    obtain ⟨i, a, b, h1, h2, rfl⟩ := mem_timeGaps hg
    exact (hgap i a b h1 h2).1
  have hne : timeGaps ts ≠ [] := by
    match ts, hl with
    | a :: b :: l, _ => simp [timeGaps]
  obtain ⟨m1, m2⟩ := fmax_spec hne hfin
  change axisMax ts ∈ timeGaps ts at m1
  change ∀ x ∈ timeGaps ts, x.toRat ≤ (axisMax ts).toRat at m2
  obtain ⟨n1, n2⟩ := fmin_spec hne hfin
  change axisMin ts ∈ timeGaps ts at n1
  change ∀ x ∈ timeGaps ts, (axisMin ts).toRat ≤ x.toRat at n2
  refine ⟨hfin _ n1, hfin _ m1, n2 _ m1, ?_, ?_, ?_⟩
  · obtain ⟨i, a, b, h1, h2, h3⟩ := mem_timeGaps n1
    obtain ⟨g1, g2, g3, g4⟩ := hgap i a b h1 h2
    have := abs_le.1 g2
    rw [h3]; linarith
  · obtain ⟨i, a, b, h1, h2, h3⟩ := mem_timeGaps m1
    obtain ⟨g1, g2, g3, g4⟩ := hgap i a b h1 h2
    have := abs_le.1 g2
    rw [h3]; linarith
  · rw [List.isChain_iff_getElem] at hch ⊢
    intro j hj
    have e1 : ts[j]? = some ts[j] := List.getElem?_eq_getElem (by omega)
    have e2 : ts[j + 1]? = some ts[j + 1] := List.getElem?_eq_getElem hj
    obtain ⟨k1, k2, k3, k4⟩ := hgap j _ _ e1 e2
    have k5 := m2 _ (timeGaps_mem e1 e2)
    have k6 := n2 _ (timeGaps_mem e1 e2)
    have k7 := abs_le.1 k2
    constructor <;> linarith

theorem near32_le {a b : F64} (ha : a.isFinite = true) (hb : b.isFinite = true) (h : a.toRat ≤ b.toRat)
    (h1 : |a.toRat| < 2 ^ 128 - 2 ^ 103) (h2 : |b.toRat| < 2 ^ 128 - 2 ^ 103) :
    (near32 a).toRat ≤ (near32 b).toRat := by
  rw [(near32_err ha h1).2.1, (near32_err hb h2).2.1]
  exact rn_mono (by decide) h

theorem near32_close {a : F64} {P : ℚ} (ha : a.isFinite = true) (h : |a.toRat| ≤ P) (hP : P ≤ 2 ^ 127) :
    (near32 a).isFinite = true ∧ |(near32 a).toRat - a.toRat| ≤ P / 2 ^ 24 + 1 / 2 ^ 150 := by
  obtain ⟨n1, n2, n3⟩ := near32_err ha (lt_of_le_of_lt (le_trans h hP) (by norm_num))
  refine ⟨n1, le_trans n3 (max_le ?_ ?_)⟩
  · have : 0 ≤ P / 2 ^ 24 := div_nonneg (le_trans (abs_nonneg _) h) (by norm_num)
    linarith
  · have : (0 : ℚ) ≤ 1 / 2 ^ 150 := by positivity
    have : |a.toRat| / 2 ^ 24 ≤ P / 2 ^ 24 := by gcongr
    linarith

/-- The error of one axis of positions stored as oct-tree cells. -/
theorem axisStored_error {ts : List F64} {k : Nat} {P lo hi D : ℚ} (hk1 : 8 ≤ k) (hk2 : k ≤ 16) (hP0 : 0 ≤ P)
    (hP : P ≤ 2 ^ 126) (hD : D ≤ 2 ^ 126) (hD1 : |lo| ≤ D) (hD2 : |hi| ≤ D) (hl : ts.length ≤ 2 ^ 40)
    (hts : ∀ t ∈ ts, t.isFinite = true ∧ |t.toRat| ≤ P)
    (hch : ts.IsChain fun a b => lo ≤ b.toRat - a.toRat ∧ b.toRat - a.toRat ≤ hi) :
    (∀ t ∈ axisStored k ts, t.isFinite = true) ∧ (axisStored k ts).length = ts.length ∧
      ∀ (i : Nat) (a b : F64), ts[i]? = some a → (axisStored k ts)[i]? = some b →
        |b.toRat - a.toRat| ≤ i * ((hi - lo) / 2 ^ (k + 1) + D / 2 ^ 24 + (P + ts.length * D) / 2 ^ 45 + 1 / 2 ^ 149) +
          (P / 2 ^ 24 + 1 / 2 ^ 150) := by
  match ts with
  | [] => simp [axisStored]
  | [t] =>
    obtain ⟨f, b⟩ := hts t (by simp)
    obtain ⟨n1, n2⟩ := near32_close f b (le_trans hP (by norm_num))
    refine ⟨by simpa [axisStored] using n1, rfl, ?_⟩
    intro i a b ha hb
    cases i with
    | zero =>
      simp only [axisStored, List.getElem?_cons_zero, Option.some.injEq] at ha hb
      rw [← ha, ← hb, Nat.cast_zero, zero_mul, zero_add]; exact n2
    | succ i => simp at ha
  | t :: u :: us =>
    have htp := tiny_pos
    have htl := tiny_le'
    have hbig : (2 : ℚ) ^ 200 ≤ big := by
      unfold big; exact pow_le_pow_right₀ (by norm_num) (by norm_num)
    have hD0 : 0 ≤ D := le_trans (abs_nonneg _) hD1
    obtain ⟨m1, m2, m3, m4, m5, m6⟩ := axis_range (by simp) hP hD1 hD2 hts hch
    have hst : axisStored k (t :: u :: us) =
      near32 t :: axisSums (axisCenter (near32 (axisMin (t :: u :: us))) (near32 (axisMax (t :: u :: us))))
      (axisInc (near32 (axisMin (t :: u :: us))) (near32 (axisMax (t :: u :: us)))) (near32 t)
      (axisCodes k (axisCenter (axisMin (t :: u :: us)) (axisMax (t :: u :: us)))
        (axisInc (axisMin (t :: u :: us)) (axisMax (t :: u :: us))) t (u :: us)) := rfl
    rw [hst]
    generalize axisMin (t :: u :: us) = mn at *
    generalize axisMax (t :: u :: us) = mx at *
    obtain ⟨ft, bt⟩ := hts t (by simp)
    obtain ⟨n1, n2⟩ := near32_close ft bt (le_trans hP (by norm_num))
    have l1 := abs_le.1 hD1
    have l2 := abs_le.1 hD2
    have d53 : D / 2 ^ 53 ≤ D := div_le_self hD0 (one_le_pow₀ (by norm_num))
    have bmn : |mn.toRat| ≤ D + D / 2 ^ 53 := abs_le.2 ⟨by linarith, by linarith⟩
    have bmx : |mx.toRat| ≤ D + D / 2 ^ 53 := abs_le.2 ⟨by linarith, by linarith⟩
    have b127 : D + D / 2 ^ 53 ≤ 2 ^ 127 := by
      have : (2 : ℚ) ^ 127 = 2 ^ 126 + 2 ^ 126 := by norm_num
      linarith
    obtain ⟨c1, c2⟩ := near32_close m1 bmn b127
    obtain ⟨c3, c4⟩ := near32_close m2 bmx b127
    have hlt : (2 : ℚ) ^ 127 < 2 ^ 128 - 2 ^ 103 := by norm_num
    have c5 := near32_le m1 m2 m3 (lt_of_le_of_lt (le_trans bmn b127) hlt) (lt_of_le_of_lt (le_trans bmx b127) hlt)
    have hN : (2 : ℚ) ≤ ((t :: u :: us).length : ℚ) := by
      have : 2 ≤ (t :: u :: us).length := by simp
      exact_mod_cast this
    have hN' : ((t :: u :: us).length : ℚ) ≤ 2 ^ 40 := by exact_mod_cast hl
    have hlen : ((u :: us).length : ℚ) = (t :: u :: us).length - 1 := by
      rw [List.length_cons (a := t), Nat.cast_succ]; ring
    generalize ((t :: u :: us).length : ℚ) = N at *
    have hND : 2 * D ≤ N * D := mul_le_mul_of_nonneg_right hN hD0
    have hND' : N * D ≤ 2 ^ 40 * 2 ^ 126 := mul_le_mul hN' hD hD0 (by norm_num)
    have hR : 0 ≤ hi - lo := by
      obtain ⟨g1, -⟩ := List.isChain_cons_cons.1 hch
      linarith [g1.1, g1.2]
    obtain ⟨B, hBd⟩ : ∃ B, B = 2 * (P + N * D) + 1 / 2 ^ 105 := ⟨_, rfl⟩
    have hB0 : 0 ≤ B := by
      rw [hBd]
      have : (0 : ℚ) ≤ 1 / 2 ^ 105 := by positivity
      linarith
    have hBbig : B ≤ big / 8 := by
      rw [hBd]
      norm_num at hP hND' hbig ⊢
      linarith
    have hBs : 40 * tiny ≤ B := by
      rw [hBd]
      norm_num at htl ⊢
      linarith
    have hDB : 2 * (D + D / 2 ^ 53) ≤ B + D := by
      rw [hBd]
      have : (0 : ℚ) ≤ 1 / 2 ^ 105 := by positivity
      norm_num at d53 this ⊢; linarith
    have bn : |mn.toRat| ≤ B := by linarith
    have bx : |mx.toRat| ≤ B := by linarith
    have v1 := abs_le.1 c2
    have v2 := abs_le.1 c4
    have v3 := abs_le.1 bmn
    have v4 := abs_le.1 bmx
    have hnB : D + D / 2 ^ 53 + ((D + D / 2 ^ 53) / 2 ^ 24 + 1 / 2 ^ 150) ≤ B := by
      rw [hBd]; norm_num; linarith
    have bn' : |(near32 mn).toRat| ≤ B := abs_le.2 ⟨by linarith, by linarith⟩
    have bx' : |(near32 mx).toRat| ≤ B := abs_le.2 ⟨by linarith, by linarith⟩
    have hkp : (2 : ℚ) ^ 9 ≤ 2 ^ (k + 1) := pow_le_pow_right₀ (by norm_num) (by omega)
    have hcell : (mx.toRat - mn.toRat) / 2 ^ (k + 1) ≤ (hi - lo) / 2 ^ (k + 1) + D / 2 ^ 61 := by
      have h1 : (mx.toRat - mn.toRat) / 2 ^ (k + 1) ≤ (hi - lo + 2 * D / 2 ^ 53) / 2 ^ (k + 1) := by
        gcongr
        have : 2 * D / 2 ^ 53 = D / 2 ^ 53 + D / 2 ^ 53 := by ring
        linarith
      have h2 : 2 * D / 2 ^ 53 / 2 ^ (k + 1) ≤ 2 * D / 2 ^ 53 / 2 ^ 9 := by
        gcongr
      have h3 : 2 * D / 2 ^ 53 / 2 ^ 9 = D / 2 ^ 61 := by norm_num; ring
      rw [add_div] at h1
      linarith
    have hcell0 : (hi - lo) / 2 ^ (k + 1) ≤ (hi - lo) / 2 ^ 9 := by gcongr
    have hcellp : 0 ≤ (hi - lo) / 2 ^ (k + 1) := div_nonneg hR (by positivity)
    have hW : Walk k mn.toRat mx.toRat (near32 mn).toRat (near32 mx).toRat (axisCenter mn mx) (axisInc mn mx)
        (axisCenter (near32 mn) (near32 mx)) (axisInc (near32 mn) (near32 mx)) B (D / 2 ^ 53)
        (D / 2 ^ 53 + ((hi - lo) / 2 ^ (k + 1) + D / 2 ^ 61) + 46 * B / 2 ^ 53 + 36 * tiny)
        (((D + D / 2 ^ 53) / 2 ^ 24 + 1 / 2 ^ 150) + 80 * B / 2 ^ 53 + 36 * tiny) :=
      ⟨starts_axis m1 m2 m3 bn bx hBbig, starts_axis c1 c3 c5 bn' bx' hBbig, hk2, hBbig, hBs, bn, bx, bn', bx',
        by positivity, by linarith, by linarith [max_le c2 c4]⟩
    have hstep : D / 2 ^ 53 + ((hi - lo) / 2 ^ (k + 1) + D / 2 ^ 61) + 46 * B / 2 ^ 53 + 36 * tiny +
        (((D + D / 2 ^ 53) / 2 ^ 24 + 1 / 2 ^ 150) + 80 * B / 2 ^ 53 + 36 * tiny) ≤
        (hi - lo) / 2 ^ (k + 1) + D / 2 ^ 24 + (P + N * D) / 2 ^ 45 + 1 / 2 ^ 149 := by
      rw [hBd]
      generalize (hi - lo) / 2 ^ (k + 1) = c at *
      norm_num at htl ⊢
      linarith
    have hstep0 : 0 ≤ D / 2 ^ 53 + ((hi - lo) / 2 ^ (k + 1) + D / 2 ^ 61) + 46 * B / 2 ^ 53 + 36 * tiny +
        (((D + D / 2 ^ 53) / 2 ^ 24 + 1 / 2 ^ 150) + 80 * B / 2 ^ 53 + 36 * tiny) := by
      have := hW.nonneg; linarith [this.1, this.2.1]
    have hfit : P + 0 + (P / 2 ^ 24 + 1 / 2 ^ 150) + ((u :: us).length : ℚ) *
        (D / 2 ^ 53 + ((hi - lo) / 2 ^ (k + 1) + D / 2 ^ 61) + 46 * B / 2 ^ 53 + 36 * tiny +
        (((D + D / 2 ^ 53) / 2 ^ 24 + 1 / 2 ^ 150) + 80 * B / 2 ^ 53 + 36 * tiny)) ≤ B := by
      rw [hlen]
      generalize D / 2 ^ 53 + ((hi - lo) / 2 ^ (k + 1) + D / 2 ^ 61) + 46 * B / 2 ^ 53 + 36 * tiny +
        (((D + D / 2 ^ 53) / 2 ^ 24 + 1 / 2 ^ 150) + 80 * B / 2 ^ 53 + 36 * tiny) = w at *
      have h1 : (N - 1) * w ≤ N * w := by linarith
      have h2 : N * w ≤ N * (2 * D / 2 ^ 9 + D / 2 ^ 24 + (P + N * D) / 2 ^ 45 + 1 / 2 ^ 149) := by
        refine mul_le_mul_of_nonneg_left (le_trans hstep ?_) (by linarith)
        have : (hi - lo) / 2 ^ 9 ≤ 2 * D / 2 ^ 9 := by gcongr; linarith
        linarith
      have h3 : N * (P + N * D) ≤ 2 ^ 40 * (P + N * D) := mul_le_mul_of_nonneg_right hN' (by linarith)
      have h4 : N * (2 * D / 2 ^ 9 + D / 2 ^ 24 + (P + N * D) / 2 ^ 45 + 1 / 2 ^ 149) =
        N * D * (2 / 2 ^ 9 + 1 / 2 ^ 24) + N * (P + N * D) / 2 ^ 45 + N / 2 ^ 149 := by ring
      rw [h4] at h2
      rw [hBd]
      generalize N * (P + N * D) = z at *
      norm_num at h1 h2 h3 hN' ⊢
      linarith
    obtain ⟨w1, w3, w4⟩ := axis_walk hW (u :: us) (prev := t) (total := t) (cur := near32 t) (e := 0)
      (f := P / 2 ^ 24 + 1 / 2 ^ 150) (P := P) ft ft n1 hts m6 (by simp) n2 hfit
    refine ⟨?_, by rw [List.length_cons, List.length_cons, w3], ?_⟩
    · intro x hx
      rcases List.mem_cons.1 hx with rfl | hx
      · exact n1
      · exact w1 x hx
    · intro i a b ha hb
      cases i with
      | zero =>
        simp only [List.getElem?_cons_zero, Option.some.injEq] at ha hb
        rw [← ha, ← hb, Nat.cast_zero, zero_mul, zero_add]; exact n2
      | succ i =>
        simp only [List.getElem?_cons_succ] at ha hb
        refine le_trans (w4 i a b ha hb) ?_
        rw [Nat.cast_succ, zero_add, add_comm (P / 2 ^ 24 + 1 / 2 ^ 150)]
        gcongr ?_ + _
        exact mul_le_mul_of_nonneg_left hstep (by positivity)

end Rap
