import Verif.Proof.JsonEncode
import Verif.Props.JsonDecode
import Verif.Spec.File

/-!
# C76: metadata's detour through text loses nothing
-/

namespace Rap

section Encode

variable {X : JsonExt}

/-- C76: every value in a document that was read can be written, and what is written is read as the same value, but for the order
of the members of objects, which come out in ascending order of their names. -/
theorem C76_reprint {t : Bytes} {j v : JVal} (h : jsonUnmarshal t = some j) (hv : PartOf v j) :
    ∃ s v', v.print = some s ∧ jsonUnmarshal s = some v' ∧ Reordered v v' ∧ Sorted v' := by
  obtain ⟨h1, h2, h3⟩ := unmarshal_clean h
  obtain ⟨h1, h2, h3⟩ := partOf_clean hv h1 h2 h3
  exact print_unmarshal h1 h2 h3

/-- C76: what is written does not depend on the order of members, that is on the order in which Go goes through its maps. -/
theorem C76_order {v w : JVal} (h : Reordered v w) (hp : v.Proper) : v.print = w.print := print_reordered h hp

theorem zip_members {α β : Type} {R : α → β → Prop} : ∀ {d : List (Bytes × α)} {e : List (Bytes × β)},
    (d.map (·.1) = e.map (·.1) ∧ List.Forall₂ R (d.map (·.2)) (e.map (·.2))) ↔
      List.Forall₂ (fun m m' => m.1 = m'.1 ∧ R m.2 m'.2) d e
  | [], [] => by simp
  | [], _ :: _ => by simp
  | _ :: _, [] => by simp
  | a :: d, b :: e => by
    simp only [List.map_cons, List.cons.injEq, List.forall₂_cons]
    rw [← zip_members]
    tauto

theorem Reordered.symm {v w : JVal} (h : Reordered v w) : Reordered w v := by
  refine Reordered.rec (motive_1 := fun v w _ => Reordered w v) (motive_2 := fun l l' _ => List.Forall₂ Reordered l' l)
    .null .bool .num .str (fun _ ih => .arr ih) ?_ .nil (fun _ _ h1 h2 => .cons h1 h2) h
  intro d e e' hk _ hp ih
  obtain ⟨w, h1, h2⟩ := List.perm_comp_forall₂ hp.symm (zip_members.1 ⟨hk.symm, ih⟩)
  obtain ⟨h1, h3⟩ := zip_members.2 h1
  exact .obj h1 h3 h2

theorem sameProp_code {p p' : Property} (h : SameProp p p') : p.code = p'.code := by cases h <;> rfl

theorem reordered_nums {d e : List (Bytes × JVal)} (h : List.Forall₂ (fun m m' => m.1 = m'.1 ∧ Reordered m.2 m'.2) d e)
    (hn : ∀ m ∈ d, ∃ x, m.2 = .num x) : d = e := by
  induction h with
  | nil => rfl
  | @cons a b d e h _ ih =>
    obtain ⟨k, v⟩ := a
    obtain ⟨k', v'⟩ := b
    obtain ⟨rfl, h⟩ := h
    obtain ⟨x, hx⟩ := hn _ (.head _)
    dsimp only at hx h
    subst hx
    cases h
    rw [ih fun m hm => hn m (.tail _ hm)]

theorem reordered_true {l l' : List JVal} (h : List.Forall₂ Reordered l l') : l.map IsTrue = l'.map IsTrue := by
  induction h with
  | nil => rfl
  | cons h _ ih =>
    rw [List.map_cons, List.map_cons, ih]
    congr 1
    cases h <;> simp [IsTrue]

theorem reordered_first {v w : JVal} (h : Reordered v w) (hb : ∀ b, v ≠ .bool b) (b : Bool) : w ≠ .bool b := by
  rintro rfl
  cases h
  exact hb _ rfl

theorem becomes_reordered {j j' : JVal} {p : Property} (h : Becomes X j p) (hr : Reordered j j') :
    ∃ p', Becomes X j' p' ∧ SameProp p p' := by
  revert j'
  refine Becomes.rec (motive_1 := fun j p _ => ∀ {j'}, Reordered j j' → ∃ p', Becomes X j' p' ∧ SameProp p p')
    (motive_2 := fun l ps _ => ∀ {l'}, List.Forall₂ Reordered l l' → ∃ ps', List.Forall₂ (Becomes X) l' ps' ∧ List.Forall₂ SameProp ps ps')
    ?null ?bool ?int ?float ?byte ?binary ?time ?text ?vec2 ?vec3 ?block ?bools ?array ?nil ?cons h
  case null => intro j' h; cases h; exact ⟨_, .null, .refl _⟩
  case bool => intro b j' h; cases h; exact ⟨_, .bool, .refl _⟩
  case int => intro d i h1 h2 h3 j' h; cases h; exact ⟨_, .int h1 h2 h3, .refl _⟩
  case float => intro d i h1 h2 j' h; cases h; exact ⟨_, .float h1 h2, .refl _⟩
  case byte => intro d i h1 j' h; cases h; exact ⟨_, .byte h1, .refl _⟩
  case binary => intro d i h1 h2 j' h; cases h; exact ⟨_, .binary h1 h2, .refl _⟩
  case time => intro d i h1 h2 j' h; cases h; exact ⟨_, .time h1 h2, .refl _⟩
  case text => intro d i h1 h2 h3 j' h; cases h; exact ⟨_, .text h1 h2 h3, .refl _⟩
  case vec2 =>
    intro d x y hd j' h
    cases h with | obj hk hv hp =>
    have he := reordered_nums (zip_members.1 ⟨hk, hv⟩) fun m hm => by
      have := hd.mem_iff.1 hm
      simp only [List.mem_cons, List.not_mem_nil, or_false] at this
      rcases this with rfl | rfl <;> exact ⟨_, rfl⟩
    subst he
    exact ⟨_, .vec2 (hp.symm.trans hd), .refl _⟩
  case vec3 =>
    intro d x y z hd j' h
    cases h with | obj hk hv hp =>
    have he := reordered_nums (zip_members.1 ⟨hk, hv⟩) fun m hm => by
      have := hd.mem_iff.1 hm
      simp only [List.mem_cons, List.not_mem_nil, or_false] at this
      rcases this with rfl | rfl | rfl <;> exact ⟨_, rfl⟩
    subst he
    exact ⟨_, .vec3 (hp.symm.trans hd), .refl _⟩
  case block =>
    intro d kvs h2 h3 hk _ ih j' h
    cases h with | @obj _ e e' hk' hv hp =>
    obtain ⟨ps, hb, hs⟩ := ih hv
    obtain ⟨kvs', hkk, rfl⟩ : ∃ kvs' : Block, e.map (·.1) = kvs'.map (·.1) ∧ ps = kvs'.map (·.2) := by
      refine ⟨(e.map (·.1)).zip ps, ?_, ?_⟩
      · rw [List.map_fst_zip]
        have := hb.length_eq
        simp at this ⊢
        omega
      · rw [List.map_snd_zip]
        have := hb.length_eq
        simp at this ⊢
        omega
    obtain ⟨kvs'', h4, h5⟩ := List.perm_comp_forall₂ hp.symm (zip_members.1 ⟨hkk, hb⟩)
    obtain ⟨h4, h6⟩ := zip_members.2 h4
    have hkeys : (d.map (·.1)).Perm (e'.map (·.1)) := by rw [hk']; exact hp.map _
    exact ⟨.block kvs'', .block (fun h => h2 (hkeys.trans h)) (fun h => h3 (hkeys.trans h)) h4 h6,
      .block (hk.symm.trans (hk'.trans hkk)) hs h5.symm⟩
  case bools =>
    intro b items j' h
    cases h with | arr h =>
    cases h with | cons h1 h2 =>
    cases h1
    refine ⟨_, .bools, ?_⟩
    have := reordered_true h2
    have he : ∀ l : List JVal, (l.map fun j => @decide (IsTrue j) (Classical.propDecidable _)) = (l.map IsTrue).map fun q => @decide q (Classical.propDecidable _) := fun l => by
      rw [List.map_map]; rfl
    rw [he, he, this]
    exact .refl _
  case array =>
    intro first rest p props c hb _ hc ih j' h
    cases h with | arr h =>
    obtain ⟨ps, h1, h2⟩ := ih h
    cases h with | cons hf hr =>
    cases h2 with | cons h3 h4 =>
    exact ⟨_, .array (reordered_first hf hb) h1 ((sameProp_code h3).symm.trans hc), .array c (.cons h3 h4)⟩
  case nil => intro l' h; cases h; exact ⟨[], .nil, .nil⟩
  case cons =>
    intro v p l ps _ _ h1 h2 l' h
    cases h with | cons h3 h4 =>
    obtain ⟨p', h5, h6⟩ := h1 h3
    obtain ⟨ps', h7, h8⟩ := h2 h4
    exact ⟨_, .cons h5 h7, .cons h6 h8⟩

theorem partOf_trans {u v w : JVal} (h1 : PartOf u v) (h2 : PartOf v w) : PartOf u w := by
  induction h2 with
  | self => exact h1
  | item hm _ ih => exact .item hm ih
  | member hm _ ih => exact .member hm ih

theorem nodeText_reads {t : Bytes} {j : JVal} {m : List (Bytes × JVal)} (h : jsonUnmarshal t = some j) (hv : PartOf (.obj m) j) :
    ∃ m', jsonUnmarshal (nodeText (.obj m)) = some (.obj m') ∧ Reordered (.obj m) (.obj m') := by
  obtain ⟨s, v', h1, h2, h3, -⟩ := C76_reprint h hv
  cases h3 with | @obj _ e e' hk hf hp =>
  exact ⟨e', by rw [show nodeText (.obj m) = (JVal.obj m).print.getD b!"{}" from rfl, h1]; exact h2, .obj hk hf hp⟩

theorem unmarshal_block {d : List (Bytes × JVal)} {md : Block} : unmarshalMetadata X d = pure md ↔ getProperties X (.obj d) = pure (.block md) :=
  ⟨unmarshal_pure, fun h => by rw [unmarshalMetadata, h]; rfl⟩

theorem unmarshal_reordered (hX : X.Lawful) {m m' : List (Bytes × JVal)} {md : Block} (hr : Reordered (.obj m) (.obj m'))
    (h : unmarshalMetadata X m = pure md) : ∃ md', unmarshalMetadata X m' = pure md' ∧ SameBlock md md' := by
  obtain ⟨p', h1, h2⟩ := becomes_reordered ((C43_exact hX _ _).1 (unmarshal_pure h)) hr
  cases h2 with
  | refl => exact ⟨md, unmarshal_block.2 ((C43_exact hX _ _).2 h1), md, rfl, List.forall₂_same.2 fun p _ => .refl p, .refl _⟩
  | block hk hf hp => exact ⟨_, unmarshal_block.2 ((C43_exact hX _ _).2 h1), _, hk, hf, hp⟩

/-- C76: metadata that `FromJSON` writes as text and reads again is the metadata that is in the document. If the object that was
read from the document can be made metadata of, the text gives the same metadata. -/
theorem C76_metadata (hX : X.Lawful) {t : Bytes} {j : JVal} {m : List (Bytes × JVal)} {md : Block} (h : jsonUnmarshal t = some j)
    (hv : PartOf (.obj m) j) (hm : unmarshalMetadata X m = pure md) :
    ∃ md', unmarshalMetadataText X (nodeText (.obj m)) = pure md' ∧ SameBlock md md' := by
  obtain ⟨m', h1, h2⟩ := nodeText_reads h hv
  obtain ⟨md', h3, h4⟩ := unmarshal_reordered hX h2 hm
  exact ⟨md', by rw [unmarshalMetadataText, h1]; exact h3, h4⟩

/-- C76: and if it cannot, the text does not give any metadata either. -/
theorem C76_no_metadata (hX : X.Lawful) {t : Bytes} {j : JVal} {m : List (Bytes × JVal)} (h : jsonUnmarshal t = some j)
    (hv : PartOf (.obj m) j) (hm : ∀ md, unmarshalMetadata X m ≠ pure md) (md' : Block) :
    unmarshalMetadataText X (nodeText (.obj m)) ≠ pure md' := by
  obtain ⟨m', h1, h2⟩ := nodeText_reads h hv
  intro h3
  rw [unmarshalMetadataText, h1] at h3
  obtain ⟨md, h4, -⟩ := unmarshal_reordered hX h2.symm h3
  exact hm md h4

/-- C76: whatever metadata `parseMetadata` returns when it hands on the value itself, it returns when it hands on the text: the
same map, or else it crashes (metadata with both a value that is refused and one that crashes, whichever comes first). -/
theorem C76_detour (hX : X.Lawful) {t : Bytes} {j : JVal} {d : List (Bytes × JVal)} {md : Block} (h : jsonUnmarshal t = some j)
    (hv : PartOf (.obj d) j) (hm : parseMetadata X (some (.obj d)) = pure md) :
    (∃ md', parseMetadataText X (some (.obj d)) = pure md' ∧ SameBlock md md') ∨
      ∃ p, parseMetadataText X (some (.obj d)) = GoE.panic p := by
  rw [parseMetadata] at hm
  rw [parseMetadataText]
  cases hp : path (some (.obj d)) b!"metadata" with
  | none => rw [hp] at hm; exact .inl ⟨[], rfl, by rw [GoE.pure_inj] at hm; subst hm; exact ⟨[], rfl, .nil, .refl _⟩⟩
  | some v =>
    rw [hp] at hm
    cases v with
    | obj m =>
      have hmem : PartOf (.obj m) j := by
        have := mem_of_mapGet (show mapGet d b!"metadata" = some (.obj m) from hp)
        exact partOf_trans (.member this .self) hv
      dsimp only at hm ⊢
      cases hu : (unmarshalMetadata X m).run with
      | error p => rw [hu] at hm; exact absurd hm GoE.panic_ne
      | ok r =>
        rw [hu] at hm
        cases r with
        | ok md0 =>
          have hm : md0 = md := GoE.pure_inj.1 hm
          subst hm
          obtain ⟨md', h1, h2⟩ := C76_metadata hX h hmem (GoE.run_inj (y := pure md0) hu)
          exact .inl ⟨md', by rw [h1]; rfl, h2⟩
        | error e =>
          have hm : ([] : Block) = md := GoE.pure_inj.1 hm
          subst hm
          have hno := C76_no_metadata hX h hmem (fun md hmd => by rw [hmd] at hu; cases hu)
          cases ht : (unmarshalMetadataText X (nodeText (.obj m))).run with
          | error p => exact .inr ⟨p, rfl⟩
          | ok r =>
            cases r with
            | ok md' => exact absurd (GoE.run_inj (y := pure md') ht) (hno md')
            | error e => exact .inl ⟨[], rfl, [], rfl, .nil, .refl _⟩
    | _ => exact absurd hm GoE.fail_ne

end Encode

/-- The metadata of `rootText`. -/
example : jsonUnmarshal rootText = some (.obj rootDocument) ∧ PartOf (.obj sampleObject) (.obj rootDocument) ∧
    ∃ md', unmarshalMetadataText sampleJson (nodeText (.obj sampleObject)) = pure md' ∧ SameBlock sampleBlock md' := by
  have hj : jsonUnmarshal rootText = some (.obj rootDocument) := same_of_read (by decide +kernel)
  have hp : PartOf (.obj sampleObject) (.obj rootDocument) := .member (k := b!"metadata") (by simp [rootDocument]) .self
  have hm := C76_metadata sampleJson_lawful hj hp (unmarshal_means sampleJson_lawful sampleObject_means)
  exact And.intro hj (And.intro hp hm)

/-- Names that one of the two orders would get wrong: `Z` before `a`, `a` before `ab`. -/
example : (JVal.obj [(b!"ab", .null), (b!"a", .arr []), (b!"Z", .obj [])]).print = some b!"{\"Z\":{},\"a\":[],\"ab\":null}" := by
  decide +kernel

/-- Bytes that JSON text cannot contain, those that browsers could misread, and a text that is no UTF-8. -/
example : (JVal.arr [.str [10, 34, 92, 7], .str b!"<&>", .str [0xFF], .bool false]).print =
    some b!"[\"\\n\\\"\\\\\\u0007\",\"\\u003c\\u0026\\u003e\",\"\\ufffd\",false]" := by
  decide +kernel

/-- Metadata that is an empty array crashes, metadata that is a wrong hexadecimal text is dropped; both at once are one or the
other, depending on which comes first. -/
example : (∃ p, unmarshalMetadata sampleJson [(b!"a", .arr []), (b!"b", .str b!"0xg")] = GoE.panic p) ∧
    ∃ n, unmarshalMetadata sampleJson [(b!"b", .str b!"0xg"), (b!"a", .arr [])] = GoE.fail n := by
  constructor
  · exact ⟨_, rfl⟩
  · exact ⟨_, rfl⟩

end Rap
