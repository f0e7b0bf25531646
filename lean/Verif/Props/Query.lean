import Verif.Spec.Query
import Verif.Proof.FloatBits
import Verif.Proof.Sample

/-!
# C30-C34: slicing, validation, start and end of a recording
-/

namespace Rap

/-! ## Lemmas -/

theorem fallsWithin_iff (t b e : F64) : fallsWithin t b e = true ↔ InInterval b e t := by
  rw [fallsWithin, Bool.and_eq_true, F64.le_number, F64.lt_number]; rfl

theorem sliceCaps_eq {α : Type} (b e : F64) (cs acc : List (F64 × α)) :
    sliceCaps b e cs acc = acc ++ cs.filter fun c => fallsWithin c.1 b e := by
  induction cs generalizing acc with
  | nil => simp [sliceCaps]
  | cons c cs ih =>
    rw [sliceCaps, ih]
    by_cases h : fallsWithin c.1 b e = true
    · simp [h]
    · simp [h]

theorem kept_filter' {α : Type} (P : F64 → Prop) (p : F64 → Bool) (hp : ∀ t, p t = true ↔ P t) (cs : List (F64 × α)) :
    Kept P cs (cs.filter fun c => p c.1) := by
  induction cs with
  | nil => exact .nil
  | cons c cs ih =>
    rw [List.filter_cons]
    split
    · rename_i h; exact .keep ((hp _).1 h) ih
    · rename_i h; exact .drop (fun hc => h ((hp _).2 hc)) ih

theorem kept_filter {α : Type} (b e : F64) (cs : List (F64 × α)) :
    Kept (InInterval b e) cs (sliceCaps b e cs []) := by
  rw [sliceCaps_eq, List.nil_append]
  exact kept_filter' _ (fun t => fallsWithin t b e) (fun t => fallsWithin_iff t b e) cs

theorem slicedColl_slice (b e : F64) (c : Coll) : SlicedColl (InInterval b e) c (c.slice b e) := by
  cases c with
  | position n c => exact .position n (kept_filter b e c)
  | euler n c => exact .euler n (kept_filter b e c)
  | event n c => exact .event n (kept_filter b e c)
  | enum n m c => exact .enum n m (kept_filter b e c)
  | float n c => exact .float n (kept_filter b e c)
  | other s n c => exact .other s n (kept_filter b e c)

theorem sliceColls_some (o : SliceOpts) (cs : List Coll) :
    sliceColls o (cs.map some) = .ok ((cs.map fun c => c.slice o.beginning o.ending).map some) := by
  induction cs with
  | nil => rfl
  | cons c cs ih =>
    simp only [List.map_cons, sliceColls, ih]
    rfl

theorem sliceOpts_eq (options : List SliceOption) :
    sliceOpts options = ⟨beginningOf options, endingOf options, keepsBinaries options⟩ := by
  have key : ∀ (os : List SliceOption) (o : SliceOpts), os.foldl SliceOpts.apply o =
      ⟨(os.filterMap fun o => match o with | .beginning t => some t | _ => none).getLastD o.beginning,
       (os.filterMap fun o => match o with | .ending t => some t | _ => none).getLastD o.ending,
       (os.filterMap fun o => match o with | .keepBinaries k => some k | _ => none).getLastD o.keepBinaries⟩ := by
    intro os
    induction os with
    | nil => intro o; rfl
    | cons x os ih =>
      intro o
      rw [List.foldl_cons, ih]
      cases x <;> simp only [SliceOpts.apply, List.filterMap_cons, List.getLastD_cons]
  rw [sliceOpts, key]
  rfl

theorem all_some {α : Type} {l : List (Option α)} (h : none ∉ l) : ∃ l' : List α, l = l'.map some := by
  induction l with
  | nil => exact ⟨[], rfl⟩
  | cons x l ih =>
    obtain ⟨l', rfl⟩ := ih fun hc => h (List.mem_cons_of_mem _ hc)
    cases x with
    | none => simp at h
    | some x => exact ⟨x :: l', rfl⟩

theorem Complete.child {id name : Bytes} {colls : List (Option Coll)} {recs : List Rec} {md : Block}
    {bins : List (Option Bin)} {refs : List (Option BinRef)} (h : Complete (.mk id name colls recs md bins refs)) :
    (∃ cs : List Coll, colls = cs.map some) ∧ ∀ r ∈ recs, Complete r :=
  ⟨all_some (h _ (.self _)).2, fun _ hr _ hw => h _ (.child hr hw)⟩

mutual
theorem slice_sliced (options : List SliceOption) : (rec : Rec) → Complete rec →
    ∃ out, slice options rec = .ok out ∧
      Sliced (InInterval (beginningOf options) (endingOf options)) (keepsBinaries options) rec out
  | .nil, h => absurd rfl (h _ (.self _)).1
  | .mk id name colls recs md bins refs, h => by
    obtain ⟨⟨cs, rfl⟩, hr⟩ := Complete.child h
    obtain ⟨recs', h1, h2⟩ := sliceChildren_sliced options recs hr
    refine ⟨_, ?_, .mk (colls' := cs.map fun c => c.slice (beginningOf options) (endingOf options)) ?_ h2⟩
    · show (Except.bind _ _) = _
      rw [h1]
      show (Except.bind _ _) = _
      rw [sliceColls_some, sliceOpts_eq]
      rfl
    · clear h h1 h2
      induction cs with
      | nil => exact .nil
      | cons c cs ih => exact .cons (slicedColl_slice _ _ c) ih
theorem sliceChildren_sliced (options : List SliceOption) : (recs : List Rec) → (∀ r ∈ recs, Complete r) →
    ∃ out, sliceChildren options recs = .ok out ∧
      List.Forall₂ (Sliced (InInterval (beginningOf options) (endingOf options)) (keepsBinaries options)) recs out
  | [], _ => ⟨[], rfl, .nil⟩
  | r :: rs, h => by
    obtain ⟨o, h1, h2⟩ := slice_sliced options r (h r (by simp))
    obtain ⟨os, h3, h4⟩ := sliceChildren_sliced options rs fun x hx => h x (by simp [hx])
    refine ⟨o :: os, ?_, .cons h2 h4⟩
    show (Except.bind _ _) = _
    rw [h1]
    show (Except.bind _ _) = _
    rw [h3]
    rfl
end

/-! ## C30 -/

/-- C30, for any list of options: the result keeps exactly the captures from the last beginning given (or -Inf) to before
the last end given (or +Inf), at every depth, in order; nothing else changes except as the binaries option says. -/
theorem C30_slice_keeps_interval (options : List SliceOption) (rec : Rec) (h : Complete rec) :
    ∃ out, slice options rec = .ok out ∧
      Sliced (InInterval (beginningOf options) (endingOf options)) (keepsBinaries options) rec out :=
  slice_sliced options rec h

/-- C30 with one beginning and one end, in either order: binaries stay too. -/
theorem C30_slice_between (b e : F64) (rec : Rec) (h : Complete rec) :
    (∃ out, slice [.beginning b, .ending e] rec = .ok out ∧ Sliced (InInterval b e) true rec out) ∧
      slice [.ending e, .beginning b] rec = slice [.beginning b, .ending e] rec := by
  refine ⟨slice_sliced [.beginning b, .ending e] rec h, ?_⟩
  have key : ∀ (o o' : List SliceOption), sliceOpts o = sliceOpts o' →
      (∀ r, slice o r = slice o' r) := by
    intro o o' ho
    have hc : ∀ (n : Nat) (r : Rec), sizeOf r ≤ n → slice o r = slice o' r := by
      intro n
      induction n with
      | zero => intro r hr; cases r <;> simp at hr
      | succ n ih =>
        intro r hr
        cases r with
        | nil => simp [slice]
        | mk id name colls recs md bins refs =>
          have : sliceChildren o recs = sliceChildren o' recs := by
            have hs : sizeOf recs ≤ n := by simp at hr; omega
            clear hr
            induction recs with
            | nil => simp [sliceChildren]
            | cons r rs ihr =>
              simp only [List.cons.sizeOf_spec] at hs
              simp only [sliceChildren]
              rw [ih r (by omega), ihr (by omega)]
          simp only [slice]
          rw [this, ho]
    intro r
    exact hc _ r (Nat.le_refl _)
  exact key [.ending e, .beginning b] [.beginning b, .ending e] rfl rec

theorem sample_complete : Complete sample := by
  intro r hw
  have hchild : ∀ r, Within r sampleChild → r ≠ .nil ∧ none ∉ r.colls := by
    intro r hw
    cases hw with
    | self => exact ⟨by simp [sampleChild], by simp [sampleChild, Rec.colls]⟩
    | child hm _ => simp at hm
  cases hw with
  | self => exact ⟨by simp [sample], by simp [sample, Rec.colls]⟩
  | child hm hw =>
    simp only [List.mem_cons, List.not_mem_nil, or_false] at hm
    subst hm
    exact hchild r hw

/-- The sample has captures at times 0 and 1; the slice from 0 to 1 drops those at 1 and keeps those at 0. -/
example : Complete sample ∧ InInterval 0 0x3FF0000000000000 0 ∧ ¬ InInterval 0 0x3FF0000000000000 0x3FF0000000000000 := by
  refine ⟨sample_complete, ?_, ?_⟩
  · rw [← fallsWithin_iff]; decide +kernel
  · rw [← fallsWithin_iff]; decide +kernel

/-! ## C31, C32 -/

/-- The collection with only the captures whose time passes the test. -/
def Coll.keep (p : F64 → Bool) : Coll → Coll
  | .position n c => .position n (c.filter fun x => p x.1)
  | .euler n c => .euler n (c.filter fun x => p x.1)
  | .event n c => .event n (c.filter fun x => p x.1)
  | .enum n m c => .enum n m (c.filter fun x => p x.1)
  | .float n c => .float n (c.filter fun x => p x.1)
  | .other s n c => .other s n (c.filter fun x => p x.1)

mutual
/-- The whole tree sliced. -/
def Rec.keep (p : F64 → Bool) (k : Bool) : Rec → Rec
  | .nil => .nil
  | .mk id name colls recs md bins refs =>
    .mk id name (colls.map (Option.map (Coll.keep p))) (Rec.keepList p k recs) md (if k then bins else []) refs
/-- The same for a list of recordings. -/
def Rec.keepList (p : F64 → Bool) (k : Bool) : List Rec → List Rec
  | [] => []
  | r :: rs => r.keep p k :: Rec.keepList p k rs
end

theorem Coll.slice_keep (b e : F64) (c : Coll) : c.slice b e = c.keep fun t => fallsWithin t b e := by
  cases c <;> simp only [Coll.slice, Coll.keep, sliceCaps_eq, List.nil_append]

/-- The test a list of options stands for. -/
def optTest (options : List SliceOption) (t : F64) : Bool := fallsWithin t (beginningOf options) (endingOf options)

theorem optTest_iff (options : List SliceOption) (t : F64) :
    optTest options t = true ↔ InInterval (beginningOf options) (endingOf options) t := fallsWithin_iff ..

mutual
theorem slice_keep (options : List SliceOption) : (rec : Rec) → Complete rec →
    slice options rec = .ok (rec.keep (optTest options) (keepsBinaries options))
  | .nil, h => absurd rfl (h _ (.self _)).1
  | .mk id name colls recs md bins refs, h => by
    obtain ⟨⟨cs, rfl⟩, hr⟩ := Complete.child h
    show (Except.bind _ _) = _
    rw [sliceChildren_keep options recs hr]
    show (Except.bind _ _) = _
    rw [sliceColls_some, sliceOpts_eq]
    show Except.ok _ = Except.ok _
    simp only [Rec.keep, List.map_map]
    congr 3
    funext c
    simp only [Function.comp, Option.map, Coll.slice_keep]
    rfl
theorem sliceChildren_keep (options : List SliceOption) : (recs : List Rec) → (∀ r ∈ recs, Complete r) →
    sliceChildren options recs = .ok (Rec.keepList (optTest options) (keepsBinaries options) recs)
  | [], _ => rfl
  | r :: rs, h => by
    show (Except.bind _ _) = _
    rw [slice_keep options r (h r (by simp))]
    show (Except.bind _ _) = _
    rw [sliceChildren_keep options rs fun x hx => h x (by simp [hx])]
    rfl
end

theorem Coll.keep_keep (p q : F64 → Bool) (c : Coll) : (c.keep p).keep q = c.keep fun t => p t && q t := by
  cases c <;> simp [Coll.keep, List.filter_filter, Bool.and_comm]

mutual
theorem Rec.keep_keep (p q : F64 → Bool) (k l : Bool) : (r : Rec) →
    (r.keep p k).keep q l = r.keep (fun t => p t && q t) (k && l)
  | .nil => rfl
  | .mk id name colls recs md bins refs => by
    simp only [Rec.keep, Rec.keepList_keepList p q k l recs, List.map_map]
    congr 1
    · congr 1
      funext c
      cases c <;> simp [Coll.keep_keep]
    · cases k <;> cases l <;> simp
theorem Rec.keepList_keepList (p q : F64 → Bool) (k l : Bool) : (rs : List Rec) →
    Rec.keepList q l (Rec.keepList p k rs) = Rec.keepList (fun t => p t && q t) (k && l) rs
  | [] => rfl
  | r :: rs => by simp only [Rec.keepList, Rec.keep_keep p q k l r, Rec.keepList_keepList p q k l rs]
end

theorem keepList_eq (p : F64 → Bool) (k : Bool) (rs : List Rec) : Rec.keepList p k rs = rs.map (Rec.keep p k) := by
  induction rs with
  | nil => rfl
  | cons r rs ih => simp [Rec.keepList, ih]

/-- The nodes of a sliced tree are the sliced nodes. -/
theorem within_keep {p : F64 → Bool} {k : Bool} {r rec : Rec} (h : Within r (rec.keep p k)) :
    ∃ r0, Within r0 rec ∧ r = r0.keep p k := by
  generalize ho : rec.keep p k = out at h
  induction h generalizing rec with
  | self => exact ⟨rec, .self _, ho.symm⟩
  | child hm hw ih =>
    cases rec with
    | nil => simp [Rec.keep] at ho
    | mk id name colls recs md bins refs =>
      simp only [Rec.keep, Rec.mk.injEq] at ho
      obtain ⟨-, -, -, hrecs, -⟩ := ho
      rw [keepList_eq] at hrecs
      rw [← hrecs, List.mem_map] at hm
      obtain ⟨r1, hr1, hr2⟩ := hm
      obtain ⟨r0, h1, h2⟩ := ih hr2
      exact ⟨r0, .child hr1 h1, h2⟩

theorem Complete.keep {p : F64 → Bool} {k : Bool} {rec : Rec} (h : Complete rec) : Complete (rec.keep p k) := by
  intro r hw
  obtain ⟨r0, h1, rfl⟩ := within_keep hw
  obtain ⟨h2, h3⟩ := h r0 h1
  cases r0 with
  | nil => exact absurd rfl h2
  | mk id name colls recs md bins refs =>
    refine ⟨by simp [Rec.keep], ?_⟩
    simp only [Rec.keep, Rec.colls, List.mem_map, not_exists, not_and] at h3 ⊢
    intro x hx hc
    cases x with
    | none => exact h3 hx
    | some x => simp at hc

/-- C31: slicing with `o1` and then with `o2` is slicing with any `o` whose interval is the intersection. -/
theorem C31_slicing_twice (o1 o2 o : List SliceOption) (rec : Rec) (h : Complete rec)
    (hI : ∀ t, InInterval (beginningOf o) (endingOf o) t ↔
      InInterval (beginningOf o1) (endingOf o1) t ∧ InInterval (beginningOf o2) (endingOf o2) t)
    (hk : keepsBinaries o = (keepsBinaries o1 && keepsBinaries o2)) :
    ∃ mid out, slice o1 rec = .ok mid ∧ slice o2 mid = .ok out ∧ slice o rec = .ok out := by
  refine ⟨_, _, slice_keep o1 rec h, slice_keep o2 _ (Complete.keep h), ?_⟩
  rw [slice_keep o rec h, Rec.keep_keep, hk]
  congr 2
  funext t
  rw [Bool.eq_iff_iff, Bool.and_eq_true, optTest_iff, optTest_iff, optTest_iff]
  exact hI t

/-- Comparison of floats that are not NaN, by their sign and magnitude. -/
theorem lt_key {x y : F64} (hx : number64 x ≠ .nan) (hy : number64 y ≠ .nan) :
    (number64 x).lt (number64 y) ↔ x.fp.key < y.fp.key := by
  have h1 : x.isNaN = false := by rw [← Bool.not_eq_true, F64.isNaN_number]; exact hx
  have h2 : y.isNaN = false := by rw [← Bool.not_eq_true, F64.isNaN_number]; exact hy
  rw [← F64.lt_number, F64.lt, FP.lt]
  rw [F64.isNaN] at h1 h2
  simp [h1, h2]

theorem le_key {x y : F64} (hx : number64 x ≠ .nan) (hy : number64 y ≠ .nan) :
    (number64 x).le (number64 y) ↔ x.fp.key ≤ y.fp.key := by
  have h1 : x.isNaN = false := by rw [← Bool.not_eq_true, F64.isNaN_number]; exact hx
  have h2 : y.isNaN = false := by rw [← Bool.not_eq_true, F64.isNaN_number]; exact hy
  rw [← F64.le_number, F64.le, FP.lt, FP.eq]
  rw [F64.isNaN] at h1 h2
  simp only [h1, h2, Bool.not_false, Bool.true_and, Bool.or_eq_true, decide_eq_true_eq]
  omega

theorem lt_notNaN {a b : Number} (h : a.lt b) : a ≠ .nan ∧ b ≠ .nan := by
  cases a <;> cases b <;> simp_all [Number.lt]

theorem le_notNaN {a b : Number} (h : a.le b) : a ≠ .nan ∧ b ≠ .nan := by
  rcases h with h | ⟨rfl, h⟩
  · exact lt_notNaN h
  · exact ⟨h, h⟩

theorem inInterval_key {b e t : F64} : InInterval b e t ↔
    number64 b ≠ .nan ∧ number64 e ≠ .nan ∧ number64 t ≠ .nan ∧ b.fp.key ≤ t.fp.key ∧ t.fp.key < e.fp.key := by
  constructor
  · rintro ⟨h1, h2⟩
    obtain ⟨a1, a2⟩ := le_notNaN h1
    obtain ⟨a3, a4⟩ := lt_notNaN h2
    exact ⟨a1, a4, a2, (le_key a1 a2).1 h1, (lt_key a2 a4).1 h2⟩
  · rintro ⟨a1, a4, a2, h1, h2⟩
    exact ⟨(le_key a1 a2).2 h1, (lt_key a2 a4).2 h2⟩

/-- C31: the intersection of two intervals is an interval, its bounds being among the given ones; so every double slice
is a slice (`C31_slicing_twice`). -/
theorem C31_intersection_is_interval (b1 e1 b2 e2 : F64) : ∃ b e, (b = b1 ∨ b = b2) ∧ (e = e1 ∨ e = e2) ∧
    ∀ t, InInterval b e t ↔ InInterval b1 e1 t ∧ InInterval b2 e2 t := by
  by_cases hb1 : number64 b1 = .nan
  · exact ⟨b1, e1, .inl rfl, .inl rfl, fun t => by simp [inInterval_key, hb1]⟩
  by_cases hb2 : number64 b2 = .nan
  · exact ⟨b2, e1, .inr rfl, .inl rfl, fun t => by simp [inInterval_key, hb2]⟩
  by_cases he1 : number64 e1 = .nan
  · exact ⟨b1, e1, .inl rfl, .inl rfl, fun t => by simp [inInterval_key, he1]⟩
  by_cases he2 : number64 e2 = .nan
  · exact ⟨b1, e2, .inl rfl, .inr rfl, fun t => by simp [inInterval_key, he2]⟩
  refine ⟨if b1.fp.key ≤ b2.fp.key then b2 else b1, if e1.fp.key ≤ e2.fp.key then e1 else e2, ?_, ?_, ?_⟩
  · split <;> simp
  · split <;> simp
  · intro t
    simp only [inInterval_key]
    by_cases ht : number64 t = .nan
    · simp [ht]
    split <;> split <;> simp [hb1, hb2, he1, he2, ht] <;> omega

/-- C31: slicing again with the same bounds changes nothing. -/
theorem C31_slicing_again (options : List SliceOption) (rec out : Rec) (h : Complete rec)
    (ho : slice options rec = .ok out) : slice options out = .ok out := by
  obtain ⟨mid, out', h1, h2, h3⟩ := C31_slicing_twice options options options rec h (by simp) (by simp)
  rw [ho] at h1 h3
  cases h1
  cases h3
  exact h2

theorem captures_keep (p : F64 → Bool) (c : Coll) : (c.keep p).captures = c.captures.filter fun x => p x.1 := by
  cases c <;> simp [Coll.keep, Coll.captures, List.filter_map] <;> rfl

theorem filter_split {α : Type} (p q r : α → Bool) (xs : List α) (h : ∀ x, p x = (q x || r x))
    (hd : ∀ x, (q x && r x) = false) : (xs.filter p).Perm (xs.filter q ++ xs.filter r) := by
  induction xs with
  | nil => exact .refl _
  | cons x xs ih =>
    have h1 := h x
    have h2 := hd x
    simp only [List.filter_cons]
    rw [h1]
    cases hq : q x <;> cases hr : r x <;> simp_all
    exact (ih.cons x).trans List.perm_middle.symm

theorem flat_keep (p : F64 → Bool) (k : Bool) : (r : Rec) → (r.keep p k).flat = r.flat.map (Coll.keep p) :=
  Rec.rec (motive_1 := fun r => (r.keep p k).flat = r.flat.map (Coll.keep p))
    (motive_2 := fun rs => Rec.flatList (Rec.keepList p k rs) = (Rec.flatList rs).map (Coll.keep p))
    rfl
    (fun id name colls recs md bins refs ih => by
      simp only [Rec.keep, Rec.flat, ih, List.map_append, List.filterMap_map, List.map_filterMap]
      congr 2)
    rfl (fun r rs h1 h2 => by simp only [Rec.keepList, Rec.flatList, h1, h2, List.map_append])

theorem inInterval_split {b m e : F64} (h1 : (number64 b).le (number64 m)) (h2 : (number64 m).le (number64 e)) (t : F64) :
    (InInterval b e t ↔ InInterval b m t ∨ InInterval m e t) ∧ ¬ (InInterval b m t ∧ InInterval m e t) := by
  obtain ⟨a1, a2⟩ := le_notNaN h1
  obtain ⟨-, a3⟩ := le_notNaN h2
  rw [le_key a1 a2] at h1
  rw [le_key a2 a3] at h2
  simp only [inInterval_key, ne_eq, a1, a2, a3, not_false_eq_true, true_and]
  constructor
  · constructor
    · rintro ⟨h3, h4, h5⟩
      by_cases h : t.fp.key < m.fp.key
      · exact .inl ⟨h3, h4, h⟩
      · exact .inr ⟨h3, by omega, h5⟩
    · rintro (⟨h3, h4, h5⟩ | ⟨h3, h4, h5⟩)
      · exact ⟨h3, h4, by omega⟩
      · exact ⟨h3, by omega, h5⟩
  · rintro ⟨⟨h3, h4, h5⟩, ⟨_, h6, h7⟩⟩
    omega

/-- C31: consecutive intervals partition the captures. In every collection, each capture of the slice from `b` to `e` is
in exactly one of the slices from `b` to `m` and from `m` to `e`. -/
theorem C31_consecutive_slices_partition (b m e : F64) (h1 : (number64 b).le (number64 m))
    (h2 : (number64 m).le (number64 e)) (rec : Rec) (h : Complete rec) :
    ∃ all first second, slice [.beginning b, .ending e] rec = .ok all ∧ slice [.beginning b, .ending m] rec = .ok first ∧
      slice [.beginning m, .ending e] rec = .ok second ∧ first.flat.length = all.flat.length ∧
      second.flat.length = all.flat.length ∧
      ∀ (i : Nat) (c c1 c2 : Coll), all.flat[i]? = some c → first.flat[i]? = some c1 → second.flat[i]? = some c2 →
        c.captures.Perm (c1.captures ++ c2.captures) := by
  refine ⟨_, _, _, slice_keep _ rec h, slice_keep _ rec h, slice_keep _ rec h, ?_, ?_, ?_⟩
  · simp [flat_keep]
  · simp [flat_keep]
  · intro i c c1 c2 g g1 g2
    simp only [flat_keep, List.getElem?_map] at g g1 g2
    cases hx : rec.flat[i]? with
    | none => simp [hx] at g
    | some x =>
      simp only [hx, Option.map_some, Option.some.injEq] at g g1 g2
      subst g g1 g2
      simp only [captures_keep]
      apply filter_split
      · intro y
        rw [Bool.eq_iff_iff, Bool.or_eq_true, optTest_iff, optTest_iff, optTest_iff]
        exact (inInterval_split h1 h2 y.1).1
      · intro y
        rw [← Bool.not_eq_true, Bool.and_eq_true, optTest_iff, optTest_iff]
        exact (inInterval_split h1 h2 y.1).2

/-- Slicing the sample from 0 to 1 and from 1 to 2. -/
example : Complete sample ∧ (number64 0).le (number64 0x3FF0000000000000) ∧
    (number64 0x3FF0000000000000).le (number64 0x4000000000000000) := by
  refine ⟨sample_complete, ?_, ?_⟩
  · rw [← F64.le_number]; decide +kernel
  · rw [← F64.le_number]; decide +kernel

theorem nodes_keep (p : F64 → Bool) (k : Bool) : (r : Rec) → (r.keep p k).nodes = r.nodes.map (Rec.keep p k) :=
  Rec.rec (motive_1 := fun r => (r.keep p k).nodes = r.nodes.map (Rec.keep p k))
    (motive_2 := fun rs => Rec.nodesList (Rec.keepList p k rs) = (Rec.nodesList rs).map (Rec.keep p k))
    rfl
    (fun id name colls recs md bins refs ih => by
      simp only [Rec.keep, Rec.nodes, ih, List.map_cons])
    rfl (fun r rs h1 h2 => by simp only [Rec.keepList, Rec.nodesList, h1, h2, List.map_append])

/-- C32: at every depth, with binaries disabled no binaries are left, and otherwise all of them are; the references are
kept in both cases. -/
theorem C32_binaries (options : List SliceOption) (rec : Rec) (h : Complete rec) : ∃ out, slice options rec = .ok out ∧
    out.nodes.map Rec.bins = rec.nodes.map (fun r => if keepsBinaries options then r.bins else []) ∧
    out.nodes.map Rec.refs = rec.nodes.map Rec.refs := by
  refine ⟨_, slice_keep _ rec h, ?_, ?_⟩
  · rw [nodes_keep, List.map_map]
    apply List.map_congr_left
    intro r _
    cases r with
    | nil => simp [Rec.keep, Rec.bins]
    | mk => simp [Rec.keep, Rec.bins]
  · rw [nodes_keep, List.map_map]
    apply List.map_congr_left
    intro r _
    cases r with
    | nil => simp [Rec.keep, Rec.refs]
    | mk => simp [Rec.keep, Rec.refs]

/-- The sample has a binary, which the option removes. -/
example : Complete sample ∧ (sample.nodes.map Rec.bins).flatten.length = 1 ∧
    keepsBinaries [.keepBinaries true, .beginning 0, .keepBinaries false] = false :=
  ⟨sample_complete, rfl, rfl⟩

/-! ## C33 -/

theorem chronoTimes_cons {s t : F64} {ts : List F64} :
    ChronoTimes (s :: t :: ts) ↔ ¬ (number64 t).lt (number64 s) ∧ ChronoTimes (t :: ts) := by
  constructor
  · intro h
    exact ⟨h 0 s t rfl rfl, fun i a b ha hb => h (i + 1) a b ha hb⟩
  · rintro ⟨h1, h2⟩ i a b ha hb
    cases i with
    | zero => simp at ha hb; subst ha hb; exact h1
    | succ i => exact h2 i a b ha hb

theorem chronoFrom_iff (t : F64) (ts : List F64) : chronoFrom t ts = true ↔ ChronoTimes (t :: ts) := by
  induction ts generalizing t with
  | nil => simp [chronoFrom, ChronoTimes]
  | cons u us ih =>
    rw [chronoTimes_cons, ← ih, ← F64.lt_number]
    cases h : u.lt t <;> simp [chronoFrom, h]

theorem validateColls_some (cs : List Coll) :
    ((∀ c ∈ cs, ChronoTimes c.times) → validateColls (cs.map some) = .ok none) ∧
    ((∃ c ∈ cs, ¬ ChronoTimes c.times) → validateColls (cs.map some) = .ok (some .notChronological)) := by
  induction cs with
  | nil => simp [validateColls]
  | cons c cs ih =>
    cases ht : c.times with
    | nil =>
      have h0 : ChronoTimes c.times := by rw [ht]; intro i s t h; simp at h
      have he : validateColls ((c :: cs).map some) = validateColls (cs.map some) := by
        simp only [List.map_cons, validateColls, ht]
      rw [he]
      exact ⟨fun h => ih.1 fun x hx => h x (by simp [hx]), fun ⟨x, hx, hn⟩ => ih.2 (by
        rcases List.mem_cons.1 hx with rfl | hx
        · exact absurd h0 hn
        · exact ⟨x, hx, hn⟩)⟩
    | cons t ts =>
      have he : validateColls ((c :: cs).map some) =
          if chronoFrom t ts then validateColls (cs.map some) else .ok (some .notChronological) := by
        simp only [List.map_cons, validateColls, ht]
      rw [he]
      have hi := chronoFrom_iff t ts
      rw [← ht] at hi
      constructor
      · intro h
        rw [if_pos (hi.2 (h c (by simp)))]
        exact ih.1 fun x hx => h x (by simp [hx])
      · rintro ⟨x, hx, hn⟩
        by_cases hc : chronoFrom t ts = true
        · rw [if_pos hc]
          rcases List.mem_cons.1 hx with rfl | hx
          · exact absurd (hi.1 hc) hn
          · exact ih.2 ⟨x, hx, hn⟩
        · rw [if_neg hc]

theorem validateOpts_eq (options : List Bool) : validateOpts options = options.getLastD true := by
  have h : ∀ (l : List Bool) (d : Bool), l.foldl (fun _ b => b) d = l.getLastD d := by
    intro l
    induction l with
    | nil => intro d; rfl
    | cons a l ih => intro d; rw [List.foldl_cons, ih, List.getLastD_cons]
  exact h options true

mutual
theorem validate_checks (options : List Bool) (ho : validateOpts options = true) : (rec : Rec) → Complete rec →
    (Chronological rec → validate options rec = .ok none) ∧
    (¬ Chronological rec → validate options rec = .ok (some .notChronological))
  | .nil, h => absurd rfl (h _ (.self _)).1
  | .mk id name colls recs md bins refs, h => by
    obtain ⟨⟨cs, rfl⟩, hr⟩ := Complete.child h
    have h1 := validateChildren_checks options ho recs hr
    have h2 := validateColls_some cs
    have hsplit : Chronological (.mk id name (cs.map some) recs md bins refs) ↔
        (∀ r ∈ recs, Chronological r) ∧ ∀ c ∈ cs, ChronoTimes c.times := by
      constructor
      · intro hc
        exact ⟨fun r hr x c hw => hc x c (.child hr hw), fun c hm => hc _ c (.self _) (by simp [Rec.colls, hm])⟩
      · rintro ⟨a, b⟩ x c hw hm
        cases hw with
        | self => simp [Rec.colls] at hm; exact b c hm
        | child hx hw => exact a _ hx x c hw hm
    have he : validate options (.mk id name (cs.map some) recs md bins refs) =
        (validateChildren options recs).bind fun e => match e with
          | some e => .ok (some e)
          | none => validateColls (cs.map some) := by
      simp only [validate, ho, if_true]; rfl
    rw [he, hsplit]
    by_cases hc : ∀ r ∈ recs, Chronological r
    · rw [h1.1 hc]
      simp only [Except.bind]
      refine ⟨fun hh => h2.1 hh.2, fun hh => h2.2 ?_⟩
      by_contra hcon
      exact hh ⟨hc, by simpa using hcon⟩
    · rw [h1.2 hc]
      exact ⟨fun hh => absurd hh.1 hc, fun _ => rfl⟩
theorem validateChildren_checks (options : List Bool) (ho : validateOpts options = true) : (recs : List Rec) →
    (∀ r ∈ recs, Complete r) →
    ((∀ r ∈ recs, Chronological r) → validateChildren options recs = .ok none) ∧
    (¬ (∀ r ∈ recs, Chronological r) → validateChildren options recs = .ok (some .notChronological))
  | [], _ => by simp [validateChildren]
  | r :: rs, h => by
    have h1 := validate_checks options ho r (h r (by simp))
    have h2 := validateChildren_checks options ho rs fun x hx => h x (by simp [hx])
    have he : validateChildren options (r :: rs) = (validate options r).bind fun e => match e with
          | some e => .ok (some e)
          | none => validateChildren options rs := by
      simp only [validateChildren]; rfl
    rw [he, List.forall_mem_cons]
    by_cases hc : Chronological r
    · rw [h1.1 hc]
      simp only [Except.bind]
      exact ⟨fun hh => h2.1 hh.2, fun hh => h2.2 fun hx => hh ⟨hc, hx⟩⟩
    · rw [h1.2 hc]
      exact ⟨fun hh => absurd hh.1 hc, fun _ => rfl⟩
end

mutual
theorem validate_off (options : List Bool) (ho : validateOpts options = false) : (rec : Rec) → Complete rec →
    validate options rec = .ok none
  | .nil, h => absurd rfl (h _ (.self _)).1
  | .mk id name colls recs md bins refs, h => by
    have h1 := validateChildren_off options ho recs (Complete.child h).2
    simp only [validate, h1, ho]; rfl
theorem validateChildren_off (options : List Bool) (ho : validateOpts options = false) : (recs : List Rec) →
    (∀ r ∈ recs, Complete r) → validateChildren options recs = .ok none
  | [], _ => rfl
  | r :: rs, h => by
    have h1 := validate_off options ho r (h r (by simp))
    have h2 := validateChildren_off options ho rs fun x hx => h x (by simp [hx])
    simp only [validateChildren, h1]
    exact h2
end

/-- C33: `Validate` accepts exactly the chronological recordings (any recording when the last option disables the
check), and refuses the others with its own error. -/
theorem C33_validate (options : List Bool) (rec : Rec) (h : Complete rec) :
    (validate options rec = .ok none ↔ (options.getLastD true = true → Chronological rec)) ∧
    (validate options rec ≠ .ok none → validate options rec = .ok (some .notChronological)) := by
  cases ho : validateOpts options with
  | false =>
    rw [validate_off options ho rec h]
    rw [validateOpts_eq] at ho
    rw [ho]
    simp
  | true =>
    have h1 := validate_checks options ho rec h
    rw [validateOpts_eq] at ho
    rw [ho]
    by_cases hc : Chronological rec
    · simp [h1.1 hc, hc]
    · simp [h1.2 hc, hc]

/-- A child with a capture before its predecessor is refused, unless the check is off. -/
example : ∃ rec : Rec, Complete rec ∧ ¬ Chronological rec ∧ validate [true, false] rec = .ok none ∧
    validate [] rec = .ok (some .notChronological) := by
  refine ⟨.mk [] [] [] [.mk [1] [] [some (.float [] [(0x3FF0000000000000, 0), (0, 0)])] [] [] [] []] [] [] [], ?_, ?_,
    by decide +kernel, by decide +kernel⟩
  · intro r hw
    cases hw with
    | self => simp [Rec.colls]
    | child hm hw =>
      simp at hm
      subst hm
      cases hw with
      | self => simp [Rec.colls]
      | child hm hw => simp at hm
  · intro hc
    have := hc _ _ (.child (List.mem_singleton.2 rfl) (.self _)) (List.mem_singleton.2 rfl) 0 _ _ rfl rfl
    exact this ((F64.lt_number _ _).1 (by decide +kernel))

/-! ## C34 -/

theorem chrono_sorted {ts : List F64} (h : ChronoTimes ts) (hn : ∀ t ∈ ts, number64 t ≠ .nan) :
    ts.Pairwise fun a b => a.fp.key ≤ b.fp.key := by
  induction ts with
  | nil => exact .nil
  | cons t ts ih =>
    cases ts with
    | nil => simp
    | cons u us =>
      rw [chronoTimes_cons] at h
      have h1 := ih h.2 fun x hx => hn x (by simp [hx])
      have h2 : t.fp.key ≤ u.fp.key := by
        have := h.1
        rw [lt_key (hn u (by simp)) (hn t (by simp))] at this
        omega
      refine .cons ?_ h1
      intro x hx
      rcases List.mem_cons.1 hx with rfl | hx
      · exact h2
      · exact h2.trans (List.rel_of_pairwise_cons h1 hx)

/-- `m` is the smallest of the times satisfying `T`, or +Inf. -/
def Low (T : F64 → Prop) (m : F64) : Prop :=
  number64 m ≠ .nan ∧ (∀ t, T t → m.fp.key ≤ t.fp.key) ∧ (T m ∨ m = F64.inf)

/-- `m` is the largest of the times satisfying `T`, or -Inf. -/
def High (T : F64 → Prop) (m : F64) : Prop :=
  number64 m ≠ .nan ∧ (∀ t, T t → t.fp.key ≤ m.fp.key) ∧ (T m ∨ m = F64.ninf)

theorem number_inf : number64 F64.inf = .pinf := by decide +kernel
theorem number_ninf : number64 F64.ninf = .ninf := by decide +kernel

theorem Low.merge {S T U : F64 → Prop} {a b : F64} (ha : Low S a) (hb : Low T b) (hU : ∀ t, U t ↔ S t ∨ T t) :
    Low U (if a.lt b then a else b) := by
  obtain ⟨a1, a2, a3⟩ := ha
  obtain ⟨b1, b2, b3⟩ := hb
  by_cases h : a.lt b = true
  · rw [if_pos h]
    rw [F64.lt_number, lt_key a1 b1] at h
    refine ⟨a1, fun t ht => ?_, ?_⟩
    · rcases (hU t).1 ht with ht | ht
      · exact a2 t ht
      · have := b2 t ht; omega
    · exact a3.imp (fun x => (hU a).2 (.inl x)) id
  · rw [if_neg h]
    rw [F64.lt_number, lt_key a1 b1] at h
    refine ⟨b1, fun t ht => ?_, ?_⟩
    · rcases (hU t).1 ht with ht | ht
      · have := a2 t ht; omega
      · exact b2 t ht
    · exact b3.imp (fun x => (hU b).2 (.inr x)) id

theorem High.merge {S T U : F64 → Prop} {a b : F64} (ha : High S a) (hb : High T b) (hU : ∀ t, U t ↔ S t ∨ T t) :
    High U (if b.lt a then a else b) := by
  obtain ⟨a1, a2, a3⟩ := ha
  obtain ⟨b1, b2, b3⟩ := hb
  by_cases h : b.lt a = true
  · rw [if_pos h]
    rw [F64.lt_number, lt_key b1 a1] at h
    refine ⟨a1, fun t ht => ?_, ?_⟩
    · rcases (hU t).1 ht with ht | ht
      · exact a2 t ht
      · have := b2 t ht; omega
    · exact a3.imp (fun x => (hU a).2 (.inl x)) id
  · rw [if_neg h]
    rw [F64.lt_number, lt_key b1 a1] at h
    refine ⟨b1, fun t ht => ?_, ?_⟩
    · rcases (hU t).1 ht with ht | ht
      · have := a2 t ht; omega
      · exact b2 t ht
    · exact b3.imp (fun x => (hU b).2 (.inr x)) id

theorem startColls_low {T : F64 → Prop} (cs : List Coll) (m : F64) (hm : Low T m)
    (hc : ∀ c ∈ cs, ChronoTimes c.times ∧ ∀ t ∈ c.times, number64 t ≠ .nan) :
    ∃ s, startColls (cs.map some) m = .ok s ∧ Low (fun t => T t ∨ ∃ c ∈ cs, t ∈ c.times) s := by
  induction cs generalizing T m with
  | nil => exact ⟨m, rfl, by simpa using hm⟩
  | cons c cs ih =>
    obtain ⟨h1, h2⟩ := hc c (by simp)
    have hc' := fun x hx => hc x (List.mem_cons_of_mem _ hx)
    cases ht : c.times with
    | nil =>
      obtain ⟨s, hs, hl⟩ := ih m hm hc'
      refine ⟨s, by simpa only [List.map_cons, startColls, ht] using hs, ?_⟩
      simpa [ht] using hl
    | cons t ts =>
      have hl : Low (· ∈ c.times) t := by
        refine ⟨h2 t (by simp [ht]), fun x hx => ?_, .inl (by simp [ht])⟩
        rw [ht] at hx
        rcases List.mem_cons.1 hx with rfl | hx
        · exact le_refl _
        · have := chrono_sorted h1 h2
          rw [ht] at this
          exact List.rel_of_pairwise_cons this hx
      obtain ⟨s, hs, hl⟩ := ih _ (hl.merge hm (fun _ => Iff.rfl)) hc'
      refine ⟨s, by simpa only [List.map_cons, startColls, ht] using hs, ?_⟩
      have he : (fun x => (x ∈ c.times ∨ T x) ∨ ∃ c ∈ cs, x ∈ c.times) =
          fun x => T x ∨ ∃ c' ∈ c :: cs, x ∈ c'.times := by
        funext x; simp only [List.mem_cons, exists_eq_or_imp]; rw [eq_iff_iff]; tauto
      rwa [he] at hl

theorem endColls_high {T : F64 → Prop} (cs : List Coll) (m : F64) (hm : High T m)
    (hc : ∀ c ∈ cs, ChronoTimes c.times ∧ ∀ t ∈ c.times, number64 t ≠ .nan) :
    ∃ s, endColls (cs.map some) m = .ok s ∧ High (fun t => T t ∨ ∃ c ∈ cs, t ∈ c.times) s := by
  induction cs generalizing T m with
  | nil => exact ⟨m, rfl, by simpa using hm⟩
  | cons c cs ih =>
    obtain ⟨h1, h2⟩ := hc c (by simp)
    have hc' := fun x hx => hc x (List.mem_cons_of_mem _ hx)
    rcases List.eq_nil_or_concat c.times with ht | ⟨ts, t, ht⟩
    · obtain ⟨s, hs, hl⟩ := ih m hm hc'
      refine ⟨s, by simpa only [List.map_cons, endColls, ht, List.getLast?_nil] using hs, ?_⟩
      simpa [ht] using hl
    · have hl : High (· ∈ c.times) t := by
        refine ⟨h2 t (by simp [ht]), fun x hx => ?_, .inl (by simp [ht])⟩
        rw [ht, List.concat_eq_append] at hx
        rcases List.mem_append.1 hx with hx | hx
        · have := chrono_sorted h1 h2
          rw [ht, List.concat_eq_append, List.pairwise_append] at this
          exact this.2.2 x hx t (by simp)
        · simp at hx; rw [hx]
      obtain ⟨s, hs, hl⟩ := ih _ (hl.merge hm (fun _ => Iff.rfl)) hc'
      have hlast : c.times.getLast? = some t := by rw [ht]; simp
      refine ⟨s, by simpa only [List.map_cons, endColls, hlast] using hs, ?_⟩
      have he : (fun x => (x ∈ c.times ∨ T x) ∨ ∃ c ∈ cs, x ∈ c.times) =
          fun x => T x ∨ ∃ c' ∈ c :: cs, x ∈ c'.times := by
        funext x; simp only [List.mem_cons, exists_eq_or_imp]; rw [eq_iff_iff]; tauto
      rwa [he] at hl

theorem timeOf_mk {id name : Bytes} {cs : List Coll} {recs : List Rec} {md : Block}
    {bins : List (Option Bin)} {refs : List (Option BinRef)} {t : F64} :
    TimeOf (.mk id name (cs.map some) recs md bins refs) t ↔ (∃ r ∈ recs, TimeOf r t) ∨ ∃ c ∈ cs, t ∈ c.times := by
  constructor
  · rintro ⟨r, c, hw, hm, ht⟩
    cases hw with
    | self => simp [Rec.colls] at hm; exact .inr ⟨c, hm, ht⟩
    | child hx hw => exact .inl ⟨_, hx, r, c, hw, hm, ht⟩
  · rintro (⟨r, hr, x, c, hw, hm, ht⟩ | ⟨c, hm, ht⟩)
    · exact ⟨x, c, .child hr hw, hm, ht⟩
    · exact ⟨_, c, .self _, by simp [Rec.colls, hm], ht⟩

/-- What C34 assumes of a recording. -/
def Timely (rec : Rec) : Prop := Complete rec ∧ Chronological rec ∧ ∀ t, TimeOf rec t → number64 t ≠ .nan

theorem Timely.child {id name : Bytes} {colls : List (Option Coll)} {recs : List Rec} {md : Block}
    {bins : List (Option Bin)} {refs : List (Option BinRef)} (h : Timely (.mk id name colls recs md bins refs)) :
    (∃ cs : List Coll, colls = cs.map some ∧ ∀ c ∈ cs, ChronoTimes c.times ∧ ∀ t ∈ c.times, number64 t ≠ .nan) ∧
    ∀ r ∈ recs, Timely r := by
  obtain ⟨h1, h2, h3⟩ := h
  obtain ⟨⟨cs, rfl⟩, hr⟩ := Complete.child h1
  refine ⟨⟨cs, rfl, fun c hc => ⟨h2 _ c (.self _) (by simp [Rec.colls, hc]), fun t ht =>
    h3 t (timeOf_mk.2 (.inr ⟨c, hc, ht⟩))⟩⟩, fun r hm => ⟨hr r hm, fun x c hw => h2 x c (.child hm hw), fun t ht =>
    h3 t (timeOf_mk.2 (.inl ⟨r, hm, ht⟩))⟩⟩

mutual
theorem start_low : (rec : Rec) → Timely rec → ∃ s, recordingStart rec = .ok s ∧ Low (TimeOf rec) s
  | .nil, h => absurd rfl (h.1 _ (.self _)).1
  | .mk id name colls recs md bins refs, h => by
    obtain ⟨⟨cs, rfl, hcs⟩, hr⟩ := Timely.child h
    obtain ⟨m, h1, h2⟩ := startChildren_low (T := fun _ => False) recs hr F64.inf
      ⟨by rw [number_inf]; simp, by simp, .inr rfl⟩
    obtain ⟨s, h3, h4⟩ := startColls_low cs m h2 hcs
    refine ⟨s, ?_, ?_⟩
    · simp only [recordingStart, h1]; exact h3
    · have he : TimeOf (.mk id name (cs.map some) recs md bins refs) =
          fun t => (False ∨ ∃ r ∈ recs, TimeOf r t) ∨ ∃ c ∈ cs, t ∈ c.times := by
        funext t; rw [eq_iff_iff, timeOf_mk]; simp
      rw [he]; exact h4
theorem startChildren_low {T : F64 → Prop} : (recs : List Rec) → (∀ r ∈ recs, Timely r) → (m : F64) → Low T m →
    ∃ s, startChildren recs m = .ok s ∧ Low (fun t => T t ∨ ∃ r ∈ recs, TimeOf r t) s
  | [], _, m, hm => ⟨m, rfl, by simpa using hm⟩
  | r :: rs, h, m, hm => by
    obtain ⟨a, h1, h2⟩ := start_low r (h r (by simp))
    obtain ⟨s, h3, h4⟩ := startChildren_low rs (fun x hx => h x (by simp [hx])) _ (h2.merge hm (fun _ => Iff.rfl))
    refine ⟨s, ?_, ?_⟩
    · simp only [startChildren, h1]; exact h3
    · have he : (fun x => (TimeOf r x ∨ T x) ∨ ∃ r ∈ rs, TimeOf r x) =
          fun x => T x ∨ ∃ r' ∈ r :: rs, TimeOf r' x := by
        funext x; simp only [List.mem_cons, exists_eq_or_imp]; rw [eq_iff_iff]; tauto
      rwa [he] at h4
end

mutual
theorem end_high : (rec : Rec) → Timely rec → ∃ s, recordingEnd rec = .ok s ∧ High (TimeOf rec) s
  | .nil, h => absurd rfl (h.1 _ (.self _)).1
  | .mk id name colls recs md bins refs, h => by
    obtain ⟨⟨cs, rfl, hcs⟩, hr⟩ := Timely.child h
    obtain ⟨m, h1, h2⟩ := endChildren_high (T := fun _ => False) recs hr F64.ninf
      ⟨by rw [number_ninf]; simp, by simp, .inr rfl⟩
    obtain ⟨s, h3, h4⟩ := endColls_high cs m h2 hcs
    refine ⟨s, ?_, ?_⟩
    · simp only [recordingEnd, h1]; exact h3
    · have he : TimeOf (.mk id name (cs.map some) recs md bins refs) =
          fun t => (False ∨ ∃ r ∈ recs, TimeOf r t) ∨ ∃ c ∈ cs, t ∈ c.times := by
        funext t; rw [eq_iff_iff, timeOf_mk]; simp
      rw [he]; exact h4
theorem endChildren_high {T : F64 → Prop} : (recs : List Rec) → (∀ r ∈ recs, Timely r) → (m : F64) → High T m →
    ∃ s, endChildren recs m = .ok s ∧ High (fun t => T t ∨ ∃ r ∈ recs, TimeOf r t) s
  | [], _, m, hm => ⟨m, rfl, by simpa using hm⟩
  | r :: rs, h, m, hm => by
    obtain ⟨a, h1, h2⟩ := end_high r (h r (by simp))
    obtain ⟨s, h3, h4⟩ := endChildren_high rs (fun x hx => h x (by simp [hx])) _ (h2.merge hm (fun _ => Iff.rfl))
    refine ⟨s, ?_, ?_⟩
    · simp only [endChildren, h1]; exact h3
    · have he : (fun x => (TimeOf r x ∨ T x) ∨ ∃ r ∈ rs, TimeOf r x) =
          fun x => T x ∨ ∃ r' ∈ r :: rs, TimeOf r' x := by
        funext x; simp only [List.mem_cons, exists_eq_or_imp]; rw [eq_iff_iff]; tauto
      rwa [he] at h4
end

theorem number_eq_inf {t : F64} (h : number64 t ≠ .nan) (hk : F64.inf.fp.key ≤ t.fp.key) : t = F64.inf := by
  have h1 : t.isNaN = false := by rw [← Bool.not_eq_true, F64.isNaN_number]; exact h
  have h2 : F64.inf.fp = ⟨false, b64.infMag⟩ := by decide +kernel
  rw [← F64.ofFP_fp t, F64.inf]
  rw [F64.isNaN, FP.isNaN] at h1
  rw [h2] at hk
  have h3 : t.fp = ⟨t.fp.s, t.fp.m⟩ := rfl
  rw [h3]
  simp only [FP.key, Bool.false_eq_true, if_false, decide_eq_false_iff_not, not_lt] at hk h1
  have hp : 0 < b64.infMag := by decide
  cases hn : t.fp.s with
  | true => simp only [hn, if_true] at hk; omega
  | false =>
    simp only [hn, Bool.false_eq_true, if_false] at hk
    have : t.fp.m = b64.infMag := by omega
    rw [this]

theorem number_eq_ninf {t : F64} (h : number64 t ≠ .nan) (hk : t.fp.key ≤ F64.ninf.fp.key) : t = F64.ninf := by
  have h1 : t.isNaN = false := by rw [← Bool.not_eq_true, F64.isNaN_number]; exact h
  have h2 : F64.ninf.fp = ⟨true, b64.infMag⟩ := by decide +kernel
  rw [← F64.ofFP_fp t, F64.ninf]
  rw [F64.isNaN, FP.isNaN] at h1
  rw [h2] at hk
  have h3 : t.fp = ⟨t.fp.s, t.fp.m⟩ := rfl
  rw [h3]
  simp only [FP.key, if_true, decide_eq_false_iff_not, not_lt] at hk h1
  have hp : 0 < b64.infMag := by decide
  cases hn : t.fp.s with
  | false => simp only [hn, Bool.false_eq_true, if_false] at hk; omega
  | true =>
    simp only [hn, if_true] at hk
    have : t.fp.m = b64.infMag := by omega
    rw [this]

/-- C34: the start of a recording is the time of a capture, and no capture is earlier; the end is the time of a capture,
and no capture is later. -/
theorem C34_start_and_end (rec : Rec) (h : Complete rec) (hc : Chronological rec)
    (hn : ∀ t, TimeOf rec t → number64 t ≠ .nan) (hne : ∃ t, TimeOf rec t) :
    ∃ s e, recordingStart rec = .ok s ∧ recordingEnd rec = .ok e ∧ TimeOf rec s ∧ TimeOf rec e ∧
      ∀ t, TimeOf rec t → (number64 s).le (number64 t) ∧ (number64 t).le (number64 e) := by
  obtain ⟨s, h1, h2, h3, h4⟩ := start_low rec ⟨h, hc, hn⟩
  obtain ⟨e, h5, h6, h7, h8⟩ := end_high rec ⟨h, hc, hn⟩
  obtain ⟨t, ht⟩ := hne
  refine ⟨s, e, h1, h5, ?_, ?_, fun x hx => ⟨(le_key h2 (hn x hx)).2 (h3 x hx), (le_key (hn x hx) h6).2 (h7 x hx)⟩⟩
  · rcases h4 with h4 | rfl
    · exact h4
    · rw [← number_eq_inf (hn t ht) (h3 t ht)]; exact ht
  · rcases h8 with h8 | rfl
    · exact h8
    · rw [← number_eq_ninf (hn t ht) (h7 t ht)]; exact ht

/-- C34: without captures the start is +Inf and the end -Inf. -/
theorem C34_no_captures (rec : Rec) (h : Complete rec) (hne : ∀ t, ¬ TimeOf rec t) :
    ∃ s e, recordingStart rec = .ok s ∧ recordingEnd rec = .ok e ∧ number64 s = .pinf ∧ number64 e = .ninf := by
  have ht : Timely rec := by
    refine ⟨h, ?_, fun t ht => absurd ht (hne t)⟩
    intro r c hw hm i a b ha
    exact absurd ⟨r, c, hw, hm, List.mem_of_getElem? ha⟩ (hne a)
  obtain ⟨s, h1, -, -, h4⟩ := start_low rec ht
  obtain ⟨e, h5, -, -, h8⟩ := end_high rec ht
  rcases h4 with h4 | rfl
  · exact absurd h4 (hne s)
  rcases h8 with h8 | rfl
  · exact absurd h8 (hne e)
  exact ⟨_, _, h1, h5, number_inf, number_ninf⟩

/-- A tree whose first capture is in a child and whose last one is not. -/
example : ∃ rec : Rec, (Complete rec ∧ Chronological rec ∧ (∀ t, TimeOf rec t → number64 t ≠ .nan) ∧
    ∃ t, TimeOf rec t) ∧ recordingStart rec = .ok 0 ∧ recordingEnd rec = .ok 0x3FF0000000000000 := by
  refine ⟨.mk [] [] [some (.float [] [(0x3FF0000000000000, 0)])] [.mk [1] [] [some (.float [] [(0, 0)])] [] [] [] []]
    [] [] [], ⟨?_, ?_, ?_, ?_⟩, by decide +kernel, by decide +kernel⟩
  · intro r hw
    cases hw with
    | self => simp [Rec.colls]
    | child hm hw =>
      simp at hm
      subst hm
      cases hw with
      | self => simp [Rec.colls]
      | child hm hw => simp at hm
  · intro r c hw hm i a b ha hb
    cases hw with
    | self => simp [Rec.colls] at hm; subst hm; simp [Coll.times] at hb
    | child hx hw =>
      simp at hx
      subst hx
      cases hw with
      | self => simp [Rec.colls] at hm; subst hm; simp [Coll.times] at hb
      | child hm hw => simp at hm
  · rintro t ⟨r, c, hw, hm, ht⟩
    cases hw with
    | self => simp [Rec.colls] at hm; subst hm; simp [Coll.times] at ht; subst ht; decide +kernel
    | child hx hw =>
      simp at hx
      subst hx
      cases hw with
      | self => simp [Rec.colls] at hm; subst hm; simp [Coll.times] at ht; subst ht; decide +kernel
      | child hm hw => simp at hm
  · exact ⟨_, _, _, .self _, List.mem_singleton.2 rfl, List.mem_singleton.2 rfl⟩

end Rap
