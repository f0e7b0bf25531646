import Verif.Spec.Default
import Verif.Props.Positions
import Verif.Props.Commands

/-!
# C78: saving with the default writer and loading again
-/

namespace Rap

theorem kept_times (ts : List F64) : TimesKept ts (storedTimes 2 ts) := by
  refine ⟨storedTimes_length 2 ts, fun qs hq hl hch T G hT0 hT hqT hG hqG => ?_⟩
  obtain ⟨hf, rfl⟩ := hq.spec
  have hch' : ts.IsChain fun a b => a.toRat ≤ b.toRat ∧ b.toRat - a.toRat ≤ G := by
    rw [List.isChain_map] at hch hqG
    rw [List.isChain_iff_getElem] at hch hqG ⊢
    exact fun i hi => ⟨hch i hi, hqG i hi⟩
  obtain ⟨b1, b2, b3, b4⟩ := bstTimes_error hT0 hT hG hl
    (fun t ht => ⟨hf t ht, hqT _ (List.mem_map_of_mem ht)⟩) hch'
  refine ⟨_, numbers_of_finite b1, (List.isChain_map _).2 b2, ?_⟩
  intro i a b ha hb
  rw [List.getElem?_map, Option.map_eq_some_iff] at ha hb
  obtain ⟨x, hx, rfl⟩ := ha
  obtain ⟨y, hy, rfl⟩ := hb
  rw [List.length_map]
  exact b4 i x y hx hy

theorem kept_positions (vs : List V3) : PositionsKept vs (storedPositions 2 vs) := by
  refine ⟨storedPositions_length 2 vs, fun get hget qs hq hl P lo hi D hP0 hP hqP hlo hhi hD hch => ?_⟩
  obtain ⟨A, rfl⟩ : ∃ A : Axis, A.get = get := by
    simp only [List.mem_cons, List.not_mem_nil, or_false] at hget
    rcases hget with rfl | rfl | rfl
    exacts [⟨axisX, rfl⟩, ⟨axisY, rfl⟩, ⟨axisZ, rfl⟩]
  obtain ⟨hf, rfl⟩ := hq.spec
  rw [show storedPositions 2 vs = octStored 2 vs from rfl, A.stored]
  rw [List.isChain_map] at hch
  obtain ⟨b1, b2, b3⟩ := axisStored_error (k := 8 * 2) (by omega) (by omega) hP0 hP hD hlo hhi (by rw [List.length_map]; exact hl)
    (fun t ht => ⟨hf t ht, hqP _ (List.mem_map_of_mem ht)⟩) hch
  refine ⟨_, numbers_of_finite b1, ?_⟩
  intro i a b ha hb
  rw [List.getElem?_map, Option.map_eq_some_iff] at ha hb
  obtain ⟨x, hx, rfl⟩ := ha
  obtain ⟨y, hy, rfl⟩ := hb
  have := b3 i x y hx hy
  rwa [List.length_map] at this

theorem zip_maps {α β : Type} : ∀ (ts : List α) (vs : List β), ts.length = vs.length →
    (ts.zip vs).map (·.1) = ts ∧ (ts.zip vs).map (·.2) = vs
  | [], [], _ => ⟨rfl, rfl⟩
  | t :: ts, v :: vs, h => by
    obtain ⟨h1, h2⟩ := zip_maps ts vs (by simpa using h)
    simp only [List.zip_cons_cons, List.map_cons, h1, h2]
    exact ⟨trivial, trivial⟩

theorem kept_stored (c : Coll) (hc : Savable c) : SavedAs c (storedColl loadBuiltins c (storedTimes 2 c.times)) := by
  have hz : ∀ {α β : Type} (caps : List (F64 × α)) (vs : List β), vs.length = caps.length →
      ((storedTimes 2 (caps.map (·.1))).zip vs).map (·.1) = storedTimes 2 (caps.map (·.1)) ∧
      ((storedTimes 2 (caps.map (·.1))).zip vs).map (·.2) = vs :=
    fun caps vs h => zip_maps _ _ (by rw [storedTimes_length, List.length_map, h])
  cases c with
  | position n caps =>
    have h : storedColl loadBuiltins (.position n caps) (storedTimes 2 (caps.map (·.1))) =
      .position n ((storedTimes 2 (caps.map (·.1))).zip (storedPositions 2 (caps.map (·.2)))) := rfl
    obtain ⟨h1, h2⟩ := hz caps (storedPositions 2 (caps.map (·.2))) (by rw [storedPositions_length, List.length_map])
    rw [Coll.times, h]
    simp only [SavedAs, h1, h2]
    exact ⟨trivial, kept_times _, kept_positions _⟩
  | euler n caps =>
    have h : storedColl loadBuiltins (.euler n caps) (storedTimes 2 (caps.map (·.1))) =
      .euler n ((storedTimes 2 (caps.map (·.1))).zip (storedRotations 1 (caps.map (·.2)))) := rfl
    obtain ⟨h1, h2⟩ := hz caps (storedRotations 1 (caps.map (·.2))) (by rw [storedRotations_length, List.length_map])
    rw [Coll.times, h]
    simp only [SavedAs, h1, h2]
    refine ⟨trivial, kept_times _, ?_⟩
    rw [show storedRotations 1 (caps.map (·.2)) = (caps.map (·.2)).map V3.near32 from rfl,
      List.forall₂_map_right_iff, List.forall₂_same]
    exact fun v _ => ⟨single_near32 _, single_near32 _, single_near32 _⟩
  | event n caps =>
    have h : storedColl loadBuiltins (.event n caps) (storedTimes 2 (caps.map (·.1))) =
      .event n ((storedTimes 2 (caps.map (·.1))).zip (caps.map (·.2))) := rfl
    obtain ⟨h1, h2⟩ := hz caps (caps.map (·.2)) (by rw [List.length_map])
    rw [Coll.times, h]
    simp only [SavedAs, h1, h2]
    exact ⟨trivial, kept_times _, trivial⟩
  | enum n ms caps =>
    have h : storedColl loadBuiltins (.enum n ms caps) (storedTimes 2 (caps.map (·.1))) =
      .enum n ms ((storedTimes 2 (caps.map (·.1))).zip (caps.map (·.2))) := rfl
    obtain ⟨h1, h2⟩ := hz caps (caps.map (·.2)) (by rw [List.length_map])
    rw [Coll.times, h]
    simp only [SavedAs, h1, h2]
    exact ⟨trivial, trivial, kept_times _, trivial⟩
  | float => exact hc.elim
  | other => exact hc.elim

theorem sameBut_map {R : Coll → Coll → Prop} {f : Coll → Coll} {r : Rec} (hg : GoodRec r)
    (h : ∀ c ∈ r.flat, R c (f c)) : SameBut R r (r.mapColls f) := by
  induction hg with
  | mk id name colls recs md bins refs _ _ _ _ _ ih =>
    rw [Rec.mapColls]
    have hmap : (colls.map some).map (Option.map f) = (colls.map f).map some := by simp
    rw [hmap]
    refine .mk _ _ _ _ _ ?_ ?_
    · rw [List.forall₂_map_right_iff, List.forall₂_same]
      intro c hc
      refine h c ?_
      rw [Rec.flat]
      exact List.mem_append_left _ (by simp [hc])
    · have hl : ∀ c ∈ Rec.flatList recs, R c (f c) := fun c hc => h c (by
        rw [Rec.flat]; exact List.mem_append_right _ hc)
      clear h
      induction recs with
      | nil => exact .nil
      | cons r rs ihr =>
        rw [Rec.mapCollsList]
        refine .cons (ih r (by simp) fun c hc => hl c (by rw [Rec.flatList]; exact List.mem_append_left _ hc)) ?_
        refine ihr (by simp_all) (fun r hr => ih r (by simp [hr])) fun c hc => hl c (by
          rw [Rec.flatList]; exact List.mem_append_right _ hc)

/-- C78: a recording whose collections are positions, rotations, events and enums is saved by the default writer, and
`Load` reads the file as the same tree, with the same ids, names, metadata, binaries and references. Of the collections
only times, positions and rotations change, by no more than `SavedAs` says. -/
theorem C78_saved_and_loaded (F : Flate) (hF : F.Lawful) (X : Ext) (unmarshal : Bytes → Except Err V1.Recording)
    (orders : List (List Bytes)) (rec : Rec) (hg : GoodRec rec) (hd : ∀ c ∈ rec.flat, Savable c)
    (hko : KeyOrders rec orders) :
    ∃ n out, write F recoludeWriter orders rec (⟨[]⟩ : Buf) = .ok (n, none, out) ∧
      (n ≤ sizeLimit → ∃ rec' s, load F X unmarshal (⟨out.bytes, .eof⟩ : Flat) = .ok ((rec', n, none), s) ∧
        SameBut SavedAs rec rec') := by
  obtain ⟨n, out, h1, h2⟩ := C17_roundtrip F hF X unmarshal loadBuiltins loadBuiltins 2 (by decide) true orders rec hg
    (fun c hc => by have := hd c hc; cases c <;> simp_all [Native, Savable]) hko (fun c hc => by
      have := hd c hc
      simp only [accepts_iff]
      cases c with
      | position => exact ⟨.position 2, by decide, rfl⟩
      | euler => exact ⟨.euler 1, by decide, rfl⟩
      | event => exact ⟨.event, by decide, rfl⟩
      | enum => exact ⟨.enum, by decide, rfl⟩
      | float => exact this.elim
      | other => exact this.elim) (by decide)
  refine ⟨n, out, h1, fun hn => ?_⟩
  obtain ⟨s, hs⟩ := h2 hn
  exact ⟨_, s, hs, sameBut_map hg fun c hc => kept_stored c (hd c hc)⟩

/-- A player who walks, turns, jumps and wins, with a child that has a state. -/
def savedSample : Rec :=
  .mk [105] [110]
    [some (.position [112] [(0, ⟨0, 0, 0⟩), (0x3FE0000000000000, ⟨0, 0x3FF0000000000000, 0⟩),
      (0x4000000000000000, ⟨0, 0xBFE0000000000000, 0⟩)]),
     some (.euler [114] [(0, ⟨0, 0x3FB999999999999A, 0⟩)]),
     some (.event [118] [(0, [104, 105], [([107], .bool true)])])]
    [.mk [99] [107] [some (.enum [101] [[97], [98]] [(0, 1), (0x3FF0000000000000, 0)])] [] [] [] []]
    [([107], .str [1])] [] [some ⟨[114], [117], 5, []⟩]

theorem savedSample_good : GoodRec savedSample := by
  refine GoodRec.mk [105] [110] [.position [112] _, .euler [114] _, .event [118] [(0, [104, 105], [([107], .bool true)])]]
    [_] _ [] [⟨[114], [117], 5, []⟩] ?_ ?_ ?_ (by simp) ?_
  · intro c hc
    simp only [List.mem_cons, List.not_mem_nil, or_false] at hc
    rcases hc with rfl | rfl | rfl
    · trivial
    · trivial
    · intro cap hcap
      simp only [List.mem_cons, List.not_mem_nil, or_false] at hcap
      subst hcap
      exact ⟨by simp, by simpa using .bool true⟩
  · intro r hr
    rw [List.mem_singleton] at hr
    subst hr
    refine GoodRec.mk [99] [107] [.enum [101] [[97], [98]] _] [] [] [] [] ?_ (by simp) ⟨by simp, by simp⟩ (by simp) (by simp)
    intro c hc
    rw [List.mem_singleton] at hc
    subst hc; trivial
  · exact ⟨by simp, by simpa using .str [1]⟩
  · simp only [List.mem_cons, List.not_mem_nil, or_false, forall_eq]
    exact ⟨⟨by simp, by simp⟩, by decide⟩

/-- The hypotheses hold for it. -/
example : storeFlate.Lawful ∧ GoodRec savedSample ∧ (∀ c ∈ savedSample.flat, Savable c) ∧
    KeyOrders savedSample ((visitedBlocks savedSample).map fun b => b.map (·.1)) := by
  refine ⟨storeFlate_lawful, savedSample_good, ?_, ?_⟩
  · intro c hc
    simp [savedSample, Rec.flat, Rec.flatList] at hc
    rcases hc with rfl | rfl | rfl | rfl <;> trivial
  · rw [KeyOrders, List.forall₂_map_left_iff, List.forall₂_same]
    exact fun b _ => List.Perm.refl _

/-- What `SavedAs` says about it: the heights 0, 1, -1/2 come back with an error of at most 1/10000. -/
example (vs' : List V3)
    (h : PositionsKept [⟨0, 0, 0⟩, ⟨0, 0x3FF0000000000000, 0⟩, ⟨0, 0xBFE0000000000000, 0⟩] vs') :
    ∃ qs', Numbers (vs'.map V3.y) qs' ∧ ∀ (i : Nat) (a b : ℚ), [0, 1, -1 / 2][i]? = some a → qs'[i]? = some b →
      |b - a| ≤ 1 / 10000 := by
  obtain ⟨qs', h1, h2⟩ := h.2 V3.y (by simp) [0, 1, -1 / 2] (by unfold Numbers; decide +kernel) (by simp) 1 (-3 / 2) 1
    (3 / 2) (by norm_num) (by norm_num) (by
      intro q hq
      simp only [List.mem_cons, List.not_mem_nil, or_false] at hq
      rcases hq with rfl | rfl | rfl <;> norm_num [abs_of_pos, abs_of_neg, abs_le]) (by norm_num [abs_of_neg])
    (by norm_num) (by norm_num) (by simp only [List.isChain_cons_cons, List.isChain_singleton]; norm_num)
  refine ⟨qs', h1, fun i a b ha hb => le_trans (h2 i a b ha hb) ?_⟩
  have hi : i < 3 := by
    by_contra hn
    rw [List.getElem?_eq_none (by simp; omega)] at ha
    cases ha
  have hi' : (i : ℚ) ≤ 2 := by exact_mod_cast Nat.lt_succ_iff.1 hi
  refine le_trans (add_le_add (mul_le_mul_of_nonneg_right hi' (by norm_num)) le_rfl) ?_
  norm_num

/-- C78: the default writer has no encoder for floats. It refuses a recording with a float collection anywhere in its
tree, before anything is written. -/
theorem C78_floats_refused {σ : Type} [Snk σ] (F : Flate) (orders : List (List Bytes)) (rec : Rec) (r : Rec)
    (hr : Within r rec) (id name : Bytes) (colls : List (Option Coll)) (recs : List Rec) (md : Block)
    (bins : List (Option Bin)) (refs : List (Option BinRef)) (hrm : r = .mk id name colls recs md bins refs)
    (fname : Bytes) (caps : List (F64 × F64)) (hf : some (.float fname caps) ∈ colls) (out : σ) :
    ∃ e, write F recoludeWriter orders rec out = .ok (0, some e, out) := by
  subst hrm
  refine C21_rejected_before_writing F recoludeWriter orders rec ?_ _ hr ?_ out
  · rintro rfl
    cases hr
  · refine Or.inr (Or.inr (Or.inr ⟨.float fname caps, hf, ?_⟩))
    simp [recoludeWriter, defaultEncoders, eventEncoder, positionEncoder, eulerEncoder, enumEncoder, Coll.sig]
    decide

/-- A float collection in a child. -/
example : Within sampleChild sample ∧ some (.float [102] [(0, 0x8000000000000000)]) ∈
    [some (.enum [101] [[97], [98]] [(0, 1), (0x3FF0000000000000, 0)]), some (Coll.float [102] [(0, 0x8000000000000000)])] :=
  ⟨.child (by simp) (.self _), by simp⟩

end Rap
