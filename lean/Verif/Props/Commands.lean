import Verif.Model.Commands
import Verif.Props.Csv
import Verif.Props.Json

/-!
# C51, C52: the commands that build recordings from tables and documents
-/

namespace Rap

theorem mem_groups_good {data : List CsvRow} {recs : List Rec} (h : Grouped data recs) {r : Rec} (hr : r ∈ recs) :
    GoodRec r ∧ ∀ c ∈ r.flat, ∃ caps, c = .position b!"Position" caps := by
  obtain ⟨groups, -, -, rfl⟩ := h
  obtain ⟨g, -, rfl⟩ := List.mem_map.1 hr
  refine ⟨GoodRec.mk _ _ [.position b!"Position" _] [] [] [] [] ?_ (by simp) ⟨by simp, by simp⟩ (by simp) (by simp), ?_⟩
  · intro c hc
    rw [List.mem_singleton] at hc
    subst hc; exact trivial
  · intro c hc
    simp only [groupRecording, Rec.flat, Rec.flatList, List.append_nil, List.filterMap_cons, id, List.filterMap_nil,
      List.mem_singleton] at hc
    exact ⟨_, hc⟩

/-- C51: an imported table is written to a file which `Load` reads as exactly the imported recording. -/
theorem C51_from_csv {T : CsvExt} (hT : T.Lawful) (F : Flate) (hF : F.Lawful) (X : Ext)
    (unmarshal : Bytes → Except Err V1.Recording) (orders : Rec → List (List Bytes)) {input : CsvInput} {r : Rec}
    (h : recordingFromCSV T input = pure r) (hko : KeyOrders r (orders r)) :
    ∃ n out, fromCsv T F orders input (⟨[]⟩ : Buf) = .ok (none, out) ∧
      write F csvWriter (orders r) r (⟨[]⟩ : Buf) = .ok (n, none, out) ∧
      (n ≤ sizeLimit → ∃ s, load F X unmarshal (⟨out.bytes, .eof⟩ : Flat) = .ok ((r, n, none), s)) := by
  obtain ⟨header, data, recs, -, -, -, hg, rfl⟩ := C44_imported hT h
  have hflat : ∀ c ∈ (Rec.mk [] [] [] recs [] [] []).flat, ∃ caps, c = .position b!"Position" caps := by
    intro c hc
    rw [Rec.flat, List.filterMap_nil, List.nil_append] at hc
    obtain ⟨r, hr, hc⟩ := mem_flatList hc
    exact (mem_groups_good hg hr).2 c hc
  obtain ⟨n, out, h1, h2⟩ := C17_lossless_identity F hF X unmarshal [.position 0] loadBuiltins (by simp [Lossless]) true
    (orders _) _ (GoodRec.mk [] [] [] recs [] [] [] (by simp) (fun r hr => (mem_groups_good hg hr).1) ⟨by simp, by simp⟩
      (by simp) (by simp))
    (fun c hc => by obtain ⟨caps, rfl⟩ := hflat c hc; exact trivial) hko
    (fun c hc => by
      obtain ⟨caps, rfl⟩ := hflat c hc
      refine ⟨.position 0, by simp, ?_⟩
      rw [accepts_iff]; rfl) (by decide)
  refine ⟨n, out, ?_, h1, h2⟩
  have h1' : write F csvWriter (orders (.mk [] [] [] recs [] [] [])) (.mk [] [] [] recs [] [] []) (⟨[]⟩ : Buf) =
    .ok (n, none, out) := h1
  rw [fromCsv, h]
  change (do
    let (_, err, out) ← write F csvWriter (orders (.mk [] [] [] recs [] [] [])) (.mk [] [] [] recs [] [] []) (⟨[]⟩ : Buf)
    Except.ok (err, out)) = _
  rw [h1']; rfl

example : sampleCsv.Lawful ∧ storeFlate.Lawful ∧ recordingFromCSV sampleCsv sampleTable = pure sampleCsvRecording ∧
    KeyOrders sampleCsvRecording ((visitedBlocks sampleCsvRecording).map fun b => b.map (·.1)) := by
  refine ⟨sampleCsv_lawful, storeFlate_lawful, sampleTable_imported, ?_⟩
  rw [KeyOrders, List.forall₂_map_left_iff, List.forall₂_same]
  exact fun b _ => List.Perm.refl _

/-! ## from-json -/

theorem forall₂_right {α β : Type} {R : α → β → Prop} {l : List α} {r : List β} (h : List.Forall₂ R l r) :
    ∀ b ∈ r, ∃ a ∈ l, R a b := by
  induction h with
  | nil => simp
  | cons h _ ih =>
    intro b hb
    rcases List.mem_cons.1 hb with rfl | hb
    · exact ⟨_, by simp, h⟩
    · obtain ⟨a, ha, h⟩ := ih b hb
      exact ⟨a, by simp [ha], h⟩

theorem describes_flat {R : Reading} {j : JVal} {r : Rec} (h : Describes R j r) :
    ∀ c ∈ r.flat, Native c ∧ (c.sig = sigEvent ∨ c.sig = sigPosition ∨ c.sig = sigEuler ∨ c.sig = sigEnum) := by
  refine Describes.rec (motive_1 := fun j r _ => ∀ c ∈ r.flat, Native c ∧
      (c.sig = sigEvent ∨ c.sig = sigPosition ∨ c.sig = sigEuler ∨ c.sig = sigEnum))
    (motive_2 := fun js rs _ => ∀ c ∈ Rec.flatList rs, Native c ∧
      (c.sig = sigEvent ∨ c.sig = sigPosition ∨ c.sig = sigEuler ∨ c.sig = sigEnum)) ?_ ?_ ?_ h
  · intro d id name subs refNodes collNodes recs md refs colls _ _ _ _ _ _ _ _ hcolls ih c hc
    rw [Rec.flat, List.mem_append] at hc
    rcases hc with hc | hc
    · obtain ⟨o, ho, e⟩ := List.mem_filterMap.1 hc
      obtain ⟨c', hc', rfl⟩ := List.mem_map.1 ho
      cases e
      obtain ⟨v, -, hv⟩ := forall₂_right hcolls c hc'
      obtain ⟨d, items, -, -, -, -, hm⟩ := hv
      cases c with
      | position => exact ⟨trivial, .inr (.inl rfl)⟩
      | euler => exact ⟨trivial, .inr (.inr (.inl rfl))⟩
      | event => exact ⟨trivial, .inl rfl⟩
      | enum => exact ⟨trivial, .inr (.inr (.inr rfl))⟩
      | float => exact hm.elim
      | other => exact hm.elim
    · exact ih c hc
  · intro c hc; simp [Rec.flatList] at hc
  · intro j r js rs _ _ ih1 ih2 c hc
    rw [Rec.flatList, List.mem_append] at hc
    exact hc.elim (ih1 c) (ih2 c)

/-- C52: a document accepted by from-json, whose metadata is of the kinds a user can build, is written to a file which
`Load` reads as the same tree: the same ids, names, children, references and metadata, and each collection as its
technique stores it, with its type, name, number of captures, and exact event names, event metadata and enum values. -/
theorem C52_from_json_partial {X : JsonExt} (hX : X.Lawful) (F : Flate) (hF : F.Lawful) (X' : Ext)
    (unmarshal : Bytes → Except Err V1.Recording) (orders : Rec → List (List Bytes)) {j : JVal} {r : Rec}
    (h : fromJSON X (.ok j) = pure r) (hg : GoodRec r) (hko : KeyOrders r (orders r)) :
    ∃ n out, fromJson X F orders (.ok j) (⟨[]⟩ : Buf) = .ok (none, out) ∧
      write F cliWriter (orders r) r (⟨[]⟩ : Buf) = .ok (n, none, out) ∧
      (n ≤ sizeLimit → ∃ f s, load F X' unmarshal (⟨out.bytes, .eof⟩ : Flat) = .ok ((r.mapColls f, n, none), s) ∧
        ∀ c ∈ r.flat, Kindred c (f c) ∧ f c = storedColl cliBuiltins c (storedTimes 2 c.times)) := by
  have hflat := describes_flat (C50_parsed hX h)
  obtain ⟨n, out, h1, h2⟩ := C17_roundtrip F hF X' unmarshal cliBuiltins loadBuiltins 2 (by decide) true (orders r) r hg
    (fun c hc => (hflat c hc).1) hko (fun c hc => by
      simp only [accepts_iff]
      rcases (hflat c hc).2 with h | h | h | h <;> rw [h]
      exacts [⟨.event, by decide, rfl⟩, ⟨.position 3, by decide, rfl⟩, ⟨.euler 2, by decide, rfl⟩,
        ⟨.enum, by decide, rfl⟩]) (by decide)
  have h1' : write F cliWriter (orders r) r (⟨[]⟩ : Buf) = .ok (n, none, out) := h1
  refine ⟨n, out, ?_, h1, fun hn => ?_⟩
  · rw [fromJson, h]
    change (do
      let (_, err, out) ← write F cliWriter (orders r) r (⟨[]⟩ : Buf)
      Except.ok (err, out)) = _
    rw [h1']; rfl
  · obtain ⟨s, hs⟩ := h2 hn
    exact ⟨_, s, hs, fun c hc => ⟨kindred_stored cliBuiltins c (hflat c hc).1 _ (storedTimes_length _ _), rfl⟩⟩

theorem sampleBlock_good : GoodBlock sampleBlock := by
  refine ⟨by decide, ?_⟩
  intro kv hkv
  simp only [sampleBlock, List.mem_cons, List.not_mem_nil, or_false] at hkv
  rcases hkv with rfl | rfl | rfl | rfl | rfl | rfl <;> constructor

/-- The sample document. -/
example : sampleJson.Lawful ∧ storeFlate.Lawful ∧ fromJSON sampleJson (.ok (.obj rootDocument)) = pure rootRecording ∧
    GoodRec rootRecording ∧ KeyOrders rootRecording ((visitedBlocks rootRecording).map fun b => b.map (·.1)) := by
  have he : GoodBlock [] := ⟨by simp, by simp⟩
  refine ⟨sampleJson_lawful, storeFlate_lawful, ?_, ?_, ?_⟩
  · refine C50_accepted sampleJson_lawful ?_ rootDocument_describes
    simp only [rootDocument, childDocument, sampleObject, JVal.Proper, properMembers, properItems, List.map_cons,
      List.map_nil, and_true, true_and]
    decide
  · refine GoodRec.mk _ _ [.event b!"e" [(0x4000000000000000, b!"go", [])]] _ _ [] [⟨b!"a", b!"u", 2, []⟩] ?_ ?_
      sampleBlock_good (by simp) ?_
    · intro c hc
      rw [List.mem_singleton] at hc
      subst hc
      intro cap hcap
      rw [List.mem_singleton] at hcap
      subst hcap; exact he
    · intro r hr
      rw [List.mem_singleton] at hr
      subst hr
      refine GoodRec.mk _ _ [.position b!"p" _] [] [] [] [] ?_ (by simp) he (by simp) (by simp)
      intro c hc
      rw [List.mem_singleton] at hc
      subst hc; exact trivial
    · intro r hr
      rw [List.mem_singleton] at hr
      subst hr; exact ⟨he, by decide⟩
  · rw [KeyOrders, List.forall₂_map_left_iff, List.forall₂_same]
    exact fun b _ => List.Perm.refl _

/-- A recording with one metadata value. -/
def valueDocument (v : JVal) : JVal :=
  .obj [(b!"id", .str b!"r"), (b!"name", .str b!"n"), (b!"metadata", .obj [(b!"k", v)])]

/-- What such a document is parsed to. -/
theorem valueDocument_parsed {X : JsonExt} {v : JVal} {p : Property} (h : getProperties X v = pure p) :
    fromJSON X (.ok (valueDocument v)) = pure (.mk b!"r" b!"n" [] [] [(b!"k", p)] [] []) := by
  have hm : parseMetadata X (some (valueDocument v)) = pure [(b!"k", p)] := by
    have h2 : getProperties X (.obj [(b!"k", v)]) = pure (.block [(b!"k", p)]) := by
      have hx : ∀ k, k ≠ b!"k" → mapGet [(b!"k", v)] k = none := by
        intro k hk
        rw [mapGet, if_neg (Ne.symm hk)]; rfl
      rw [getProperties, hx b!"x" (by decide)]
      dsimp only
      rw [getMembers, h, getMembers]
      rfl
    rw [parseMetadata, valueDocument, path_obj]
    have : mapGet [(b!"id", JVal.str b!"r"), (b!"name", .str b!"n"), (b!"metadata", .obj [(b!"k", v)])] b!"metadata" =
      some (.obj [(b!"k", v)]) := rfl
    rw [this]
    dsimp only
    rw [unmarshalMetadata, h2]
    rfl
  rw [fromJSON, parseRecording_eq]
  have hc : children (valueDocument v) = some [.str b!"r", .str b!"n", .obj [(b!"k", v)]] := rfl
  rw [hc]
  dsimp only
  rw [hm]
  rfl

theorem fromJson_of {X : JsonExt} {F : Flate} {orders : Rec → List (List Bytes)} {j : JVal} {r : Rec}
    (h : fromJSON X (.ok j) = pure r) : fromJson X F orders (.ok j) (⟨[]⟩ : Buf) =
      (do
        let (_, err, out) ← write F cliWriter (orders r) r (⟨[]⟩ : Buf)
        Except.ok (err, out)) := by
  rw [fromJson, h]; rfl

/-- C52: a null in the metadata makes the command panic. -/
theorem C52_null_panics {X : JsonExt} : (fromJson X storeFlate (fun _ => [[b!"k"]]) (.ok (valueDocument .null))
    (⟨[]⟩ : Buf)) = .error .nilDeref := by
  rw [fromJson_of (valueDocument_parsed (by rw [getProperties]))]
  decide +kernel

/-- The file made of a document whose metadata is `{"k": [["s"]]}`. -/
def nestedFile : Bytes :=
  [2, 0, 1, 1, 1, 1, 1, 1, 107, 1, 1, 1, 114, 1, 1, 1, 110, 1, 1, 1, 0, 1, 26, 1, 1, 1, 1, 1, 1, 1, 115, 1, 0, 1, 0, 1,
   0, 1, 0, 0]

/-- C52: arrays of arrays are written without complaint, but the file cannot be loaded. -/
theorem C52_nested_arrays : ∃ out, fromJson sampleJson storeFlate (fun _ => [[b!"k"]])
      (.ok (valueDocument (.arr [.arr [.str b!"s"]]))) (⟨[]⟩ : Buf) = .ok (none, out) ∧
    ∃ r n e s, load storeFlate oneExt (fun _ => .error .eof) (⟨out.bytes, .eof⟩ : Flat) = .ok ((r, n, some e), s) := by
  have h : getProperties sampleJson (.arr [.arr [.str b!"s"]]) = pure (.array 13 [.array 0 [.str b!"s"]]) := by
    have h1 : stringProperty sampleJson b!"s" = pure (.str b!"s") :=
      string_text (by decide) (by decide) (by unfold PlainText; decide)
    have h2 : getProperties sampleJson (.arr [.str b!"s"]) = pure (.array 0 [.str b!"s"]) := by
      rw [getProperties.eq_def]
      dsimp only
      rw [getProperties, h1, getItems]
      rfl
    rw [getProperties.eq_def]
    dsimp only
    rw [h2, getItems]
    rfl
  rw [fromJson_of (valueDocument_parsed h)]
  refine ⟨⟨nestedFile⟩, by decide +kernel, ?_⟩
  have hl : ((load storeFlate oneExt (fun _ => .error .eof) (⟨nestedFile, .eof⟩ : Flat)).map fun x => x.1.2.2.isSome) =
      .ok true := by decide +kernel
  cases hr : load storeFlate oneExt (fun _ => .error .eof) (⟨nestedFile, .eof⟩ : Flat) with
  | error p => rw [hr] at hl; cases hl
  | ok x =>
    rw [hr] at hl
    obtain ⟨⟨r, n, o⟩, s⟩ := x
    cases o with
    | none => cases hl
    | some e => exact ⟨r, n, e, s, rfl⟩

end Rap
