import Mathlib.Tactic.Ring
import Verif.Spec.Text
import Verif.Model.Summary
import Verif.Props.Query

/-!
# C40: summaries of recordings
-/

namespace Rap

/-! ## Decimal numbers -/

theorem decimalNat_spec (n : Nat) : IsDecimal (V1.decimalNat n) n ∧ (0 < n → (V1.decimalNat n).head? ≠ some 48) := by
  induction n using Nat.strong_induction_on with
  | _ n ih =>
    rw [V1.decimalNat]
    have h8 : ∀ k, k < 10 → (48 + k).toUInt8.toNat = 48 + k := by
      intro k hk
      rw [UInt8.toNat_ofNat']
      omega
    by_cases h : n < 10
    · rw [if_pos h]
      refine ⟨⟨by simp, ?_, ?_, ?_⟩, ?_⟩
      · intro c hc
        rw [List.mem_singleton.1 hc, h8 n h]; omega
      · simp only [List.foldl_cons, List.foldl_nil, h8 n h]; omega
      · intro h'; simpa using h'
      · intro h0 h'
        simp only [List.head?_cons, Option.some.injEq] at h'
        have := congrArg UInt8.toNat h'
        rw [h8 n h] at this
        change 48 + n = 48 at this
        omega
    · rw [if_neg h]
      obtain ⟨⟨h1, h2, h3, h4⟩, h5⟩ := ih (n / 10) (by omega)
      have hd : n % 10 < 10 := Nat.mod_lt _ (by decide)
      have h6 := h5 (by omega)
      have h7 : (V1.decimalNat (n / 10) ++ [(48 + n % 10).toUInt8]).head? ≠ some 48 := by
        rw [List.head?_append_of_ne_nil _ h1]; exact h6
      refine ⟨⟨by simp, ?_, ?_, fun hh => absurd hh h7⟩, fun _ => h7⟩
      · intro c hc
        rcases List.mem_append.1 hc with hc | hc
        · exact h2 c hc
        · rw [List.mem_singleton.1 hc, h8 _ hd]; omega
      · rw [List.foldl_append, h3, List.foldl_cons, List.foldl_nil, h8 _ hd]; omega

theorem decimal_spec (i : Int) : IsInteger (V1.decimal i) i := by
  rw [V1.decimal]
  by_cases h : i < 0
  · rw [if_pos h]
    refine .inr ⟨h, _, rfl, ?_⟩
    have : (-i).toNat = i.natAbs := by omega
    rw [this]; exact (decimalNat_spec _).1
  · rw [if_neg h]
    refine .inl ⟨by omega, ?_⟩
    have : i.toNat = i.natAbs := by omega
    rw [this]; exact (decimalNat_spec _).1

theorem decimal_natCast (n : Nat) : IsDecimal (V1.decimal n) n := by
  rcases decimal_spec n with ⟨-, h⟩ | ⟨h, -⟩
  · simpa using h
  · omega

/-! ## Counting -/

/-- The counts of a list of collections. -/
def counts (cs : List Coll) : Summary :=
  let n (p : Coll → Bool) := ((cs.filter p).map fun c => c.captures.length).sum
  ⟨n Coll.isPosition, n Coll.isEvent, n Coll.isEuler, n Coll.isEnum, n Coll.isOther⟩

theorem counts_append (cs ds : List Coll) : counts (cs ++ ds) = (counts cs).combine (counts ds) := by
  simp [counts, Summary.combine]

theorem Summary.combine_assoc (a b c : Summary) : (a.combine b).combine c = a.combine (b.combine c) := by
  simp [Summary.combine, Nat.add_assoc]

theorem Summary.combine_zero (a : Summary) : a.combine ⟨0, 0, 0, 0, 0⟩ = a := rfl

theorem Summary.zero_combine (a : Summary) : Summary.combine ⟨0, 0, 0, 0, 0⟩ a = a := by
  simp [Summary.combine]

theorem counts_single (c : Coll) : counts [c] =
    match c with
    | .position _ caps => ⟨caps.length, 0, 0, 0, 0⟩
    | .event _ caps => ⟨0, caps.length, 0, 0, 0⟩
    | .euler _ caps => ⟨0, 0, caps.length, 0, 0⟩
    | .enum _ _ caps => ⟨0, 0, 0, caps.length, 0⟩
    | .float _ caps => ⟨0, 0, 0, 0, caps.length⟩
    | .other _ _ caps => ⟨0, 0, 0, 0, caps.length⟩ := by
  have h : ∀ (α : Type) (f : F64 × α → F64 × Datum) (l : List (F64 × α)), [(l.map f).length].sum = l.length := by simp
  cases c with
  | position n caps => exact congrArg (Summary.mk · 0 0 0 0) (h _ _ caps)
  | event n caps => exact congrArg (Summary.mk 0 · 0 0 0) (h _ _ caps)
  | euler n caps => exact congrArg (Summary.mk 0 0 · 0 0) (h _ _ caps)
  | enum n m caps => exact congrArg (Summary.mk 0 0 0 · 0) (h _ _ caps)
  | float n caps => exact congrArg (Summary.mk 0 0 0 0 ·) (h _ _ caps)
  | other s n caps => exact congrArg (Summary.mk 0 0 0 0 ·) (h _ _ caps)

theorem summarizeColls_counts (cs : List Coll) (s : Summary) :
    summarizeColls (cs.map some) s = .ok (s.combine (counts cs)) := by
  induction cs generalizing s with
  | nil => rfl
  | cons c cs ih =>
    rw [show c :: cs = [c] ++ cs from rfl, counts_append, ← Summary.combine_assoc, counts_single]
    cases c <;> simp [summarizeColls, ih, Summary.combine, Coll.times]

theorem filterMap_some {α : Type} (l : List α) : (l.map some).filterMap id = l := by simp

mutual
theorem summarize_counts : (rec : Rec) → Complete rec → summarize rec = .ok (counts rec.flat)
  | .nil, h => absurd rfl (h _ (.self _)).1
  | .mk id name colls recs md bins refs, h => by
    obtain ⟨⟨cs, rfl⟩, hr⟩ := Complete.child h
    rw [summarize, summarizeColls_counts]
    show summarizeChildren recs _ = _
    rw [summarizeChildren_counts recs hr, Summary.zero_combine, Rec.flat, counts_append]
    rw [filterMap_some]
theorem summarizeChildren_counts : (recs : List Rec) → (∀ r ∈ recs, Complete r) → ∀ s,
    summarizeChildren recs s = .ok (s.combine (counts (Rec.flatList recs)))
  | [], _, s => rfl
  | r :: rs, h, s => by
    rw [summarizeChildren, summarize_counts r (h r (by simp))]
    show summarizeChildren rs _ = _
    rw [summarizeChildren_counts rs (fun x hx => h x (by simp [hx])), Rec.flatList, counts_append,
      Summary.combine_assoc]
end

theorem summarizeColls_nil {cs : List (Option Coll)} (h : none ∈ cs) (s : Summary) :
    summarizeColls cs s = .error .nilDeref := by
  induction cs generalizing s with
  | nil => simp at h
  | cons c cs ih =>
    cases c with
    | none => rfl
    | some c =>
      have h' : none ∈ cs := by simpa using h
      cases c <;> simp only [summarizeColls, ih h']

theorem not_complete {id name : Bytes} {colls : List (Option Coll)} {recs : List Rec} {md : Block}
    {bins : List (Option Bin)} {refs : List (Option BinRef)} (h : ¬ Complete (.mk id name colls recs md bins refs)) :
    none ∈ colls ∨ ∃ r ∈ recs, ¬ Complete r := by
  by_contra hc
  push Not at hc
  apply h
  intro r hw
  cases hw with
  | self => exact ⟨by simp, hc.1⟩
  | child hm hw => exact hc.2 _ hm _ hw

mutual
theorem summarize_incomplete : (rec : Rec) → ¬ Complete rec → summarize rec = .error .nilDeref
  | .nil, _ => rfl
  | .mk id name colls recs md bins refs, h => by
    rw [summarize]
    by_cases hn : none ∈ colls
    · rw [summarizeColls_nil hn]; rfl
    · obtain ⟨cs, rfl⟩ := all_some hn
      rw [summarizeColls_counts]
      rcases not_complete h with h | h
      · exact absurd h hn
      · exact summarizeChildren_incomplete recs h _
theorem summarizeChildren_incomplete : (recs : List Rec) → (∃ r ∈ recs, ¬ Complete r) → ∀ s,
    summarizeChildren recs s = .error .nilDeref
  | [], h, _ => by simp at h
  | r :: rs, h, s => by
    rw [summarizeChildren]
    by_cases hr : Complete r
    · rw [summarize_counts r hr]
      exact summarizeChildren_incomplete rs (by simpa [hr] using h) _
    · rw [summarize_incomplete r hr]; rfl
end

/-! ## C40 -/

/-- C40: in a tree without nil parts every capture of every recording, at any depth, is counted exactly once, under the
type of its collection; a tree with a nil part panics. -/
theorem C40_counts (rec : Rec) :
    (Complete rec → summarize rec = .ok
      { position := countCaptures Coll.isPosition rec, event := countCaptures Coll.isEvent rec,
        euler := countCaptures Coll.isEuler rec, enum := countCaptures Coll.isEnum rec,
        other := countCaptures Coll.isOther rec }) ∧
    (¬ Complete rec → summarize rec = .error .nilDeref) :=
  ⟨summarize_counts rec, summarize_incomplete rec⟩

/-- C40: nothing is counted twice or left out: the five numbers add up to the number of all captures of the tree. -/
theorem C40_total (rec : Rec) (h : Complete rec) : ∃ s, summarize rec = .ok s ∧
    s.position + s.event + s.euler + s.enum + s.other = (rec.flat.map fun c => c.captures.length).sum := by
  refine ⟨_, summarize_counts rec h, ?_⟩
  generalize rec.flat = cs
  induction cs with
  | nil => rfl
  | cons c cs ih =>
    simp only [counts] at ih
    rw [List.map_cons, List.sum_cons, ← ih, show c :: cs = [c] ++ cs from rfl, counts_append]
    rw [counts_single]
    cases c <;> simp only [Summary.combine, counts, Coll.captures, List.length_map] <;> ring

set_option maxRecDepth 4000 in
/-- C40: what is printed ends with the number of direct children and the five numbers, in decimal. -/
theorem C40_printed (two : F64 → Bytes) (rec : Rec) (size : Int) (out : Bytes) (h : Complete rec)
    (ho : printSummary two rec size = .ok out) : ∃ front d0 d1 d2 d3 d4 d5,
    out = front ++ b!"Sub Recordings:          " ++ d0 ++ b!"\nTotal Position Captures: " ++ d1 ++
      b!"\nTotal Euler Captures:    " ++ d2 ++ b!"\nTotal Event Captures:    " ++ d3 ++
      b!"\nTotal Enum Captures:     " ++ d4 ++ b!"\nTotal Other Captures:    " ++ d5 ++ b!"\n" ∧
    IsDecimal d0 rec.children.length ∧ IsDecimal d1 (countCaptures Coll.isPosition rec) ∧
    IsDecimal d2 (countCaptures Coll.isEuler rec) ∧ IsDecimal d3 (countCaptures Coll.isEvent rec) ∧
    IsDecimal d4 (countCaptures Coll.isEnum rec) ∧ IsDecimal d5 (countCaptures Coll.isOther rec) := by
  rw [printSummary, summarize_counts rec h] at ho
  cases hd : recordingDuration rec with
  | error e => rw [hd] at ho; simp [bind, Except.bind] at ho
  | ok d =>
    rw [hd] at ho
    simp only [bind, Except.bind, Except.ok.injEq] at ho
    refine ⟨b!"Name:                    " ++ (if rec.theName = [] then b!"[No Name]" else rec.theName) ++
      (b!"\nFile Size:               " ++ printSize two size ++ b!"\nDuration:                " ++ two d ++ b!"s\n"),
      _, _, _, _, _, _, ?_, decimal_natCast _, decimal_natCast _, decimal_natCast _, decimal_natCast _,
      decimal_natCast _, decimal_natCast _⟩
    rw [← ho]
    simp only [List.append_assoc]
    rfl

/-- A tree with captures of three types, two of them in a child. -/
example : ∃ rec : Rec, Complete rec ∧ summarize rec = .ok ⟨2, 0, 0, 1, 1⟩ ∧
    (∃ out, printSummary (fun _ => []) rec 2048 = .ok out ∧ 200 < out.length) := by
  refine ⟨.mk [] [] [some (.position [] [(0, ⟨0, 0, 0⟩)])]
    [.mk [1] [] [some (.position [] [(0, ⟨0, 0, 0⟩)]), some (.enum [] [] [(0, 0)]), some (.float [] [(0, 0)])] [] [] [] []]
    [] [] [], ?_, by decide +kernel, _, rfl, by decide +kernel⟩
  intro r hw
  cases hw with
  | self => simp [Rec.colls]
  | child hm hw =>
    simp at hm
    subst hm
    cases hw with
    | self => simp [Rec.colls]
    | child hm hw => simp at hm

end Rap
