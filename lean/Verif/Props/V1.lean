import Verif.Spec.V1
import Verif.Model.Cli
import Verif.Props.File
import Verif.Props.Delivery
import Verif.Props.Summary
import Verif.Proof.Round

/-!
# C45, C46: version 1 recordings
-/

namespace Rap

open V1

/-! ## Maps built by assigning keys -/

theorem foldl_mapSet {α β : Type} (k : α → Bytes) (f : α → β) (m : List α) (acc : List (Bytes × β))
    (h : (m.map k).Nodup) (hd : ∀ a ∈ m, k a ∉ acc.map (·.1)) :
    m.foldl (fun out a => mapSet out (k a) (f a)) acc = acc ++ m.map fun a => (k a, f a) := by
  induction m generalizing acc with
  | nil => simp
  | cons a m ih =>
    rw [List.map_cons, List.nodup_cons] at h
    rw [List.foldl_cons, mapSet_append _ _ _ (hd a (by simp)), ih _ h.2]
    · simp
    · intro b hb hc
      rw [List.map_append, List.mem_append] at hc
      rcases hc with hc | hc
      · exact hd b (by simp [hb]) hc
      · simp only [List.map_cons, List.map_nil, List.mem_singleton] at hc
        exact h.1 (hc ▸ List.mem_map_of_mem hb)

theorem mem_mapSet {β : Type} {m : List (Bytes × β)} {k : Bytes} {v : β} {p : Bytes × β} (h : p ∈ mapSet m k v) :
    p = (k, v) ∨ p ∈ m := by
  induction m with
  | nil => simp [mapSet] at h; exact .inl h
  | cons kv m ih =>
    rw [mapSet] at h
    split at h
    · rcases List.mem_cons.1 h with h | h
      · exact .inl h
      · exact .inr (by simp [h])
    · rcases List.mem_cons.1 h with h | h
      · exact .inr (by simp [h])
      · rcases ih h with h | h
        · exact .inl h
        · exact .inr (by simp [h])

theorem nodup_mapSet {β : Type} {m : List (Bytes × β)} (h : (m.map (·.1)).Nodup) (k : Bytes) (v : β) :
    ((mapSet m k v).map (·.1)).Nodup := by
  induction m with
  | nil => simp [mapSet]
  | cons kv m ih =>
    rw [List.map_cons, List.nodup_cons] at h
    rw [mapSet]
    split
    · rename_i hk
      subst hk
      rw [List.map_cons, List.nodup_cons]; exact h
    · rename_i hk
      rw [List.map_cons, List.nodup_cons]
      refine ⟨?_, ih h.2⟩
      intro hc
      obtain ⟨p, hp, he⟩ := List.mem_map.1 hc
      rcases mem_mapSet hp with rfl | hp
      · exact hk he.symm
      · exact h.1 (he ▸ List.mem_map_of_mem hp)

theorem good_foldl {α : Type} (k : α → Bytes) (f : α → Property) (m : List α) (acc : Block) (ha : GoodBlock acc)
    (hf : ∀ a, Constructible (f a)) : GoodBlock (m.foldl (fun out a => mapSet out (k a) (f a)) acc) := by
  induction m generalizing acc with
  | nil => exact ha
  | cons a m ih =>
    refine ih _ ⟨nodup_mapSet ha.1 _ _, fun kv hkv => ?_⟩
    rcases mem_mapSet hkv with rfl | h
    · exact hf a
    · exact ha.2 kv h

/-! ## C45 -/

/-- What a metadata string becomes. -/
def parsed (X : Ext) (v : Bytes) : Property :=
  match X.parseFloat32 v with
  | some f => .f32 f
  | none => .str v

theorem convertMetadata_eq (X : Ext) (m : List (Bytes × Bytes)) :
    convertMetadata X m = m.foldl (fun out kv => mapSet out kv.1 (parsed X kv.2)) [] := by
  unfold convertMetadata
  congr 1
  funext out kv
  unfold parsed
  cases X.parseFloat32 kv.2 <;> rfl

theorem convertMetadata_parsed (X : Ext) (m : List (Bytes × Bytes)) (h : (m.map (·.1)).Nodup) :
    ParsedMap X m (convertMetadata X m) := by
  refine ⟨m.map fun kv => parsed X kv.2, ?_, ?_⟩
  · rw [convertMetadata_eq, foldl_mapSet (·.1) (fun kv => parsed X kv.2) m [] h (by simp), List.nil_append,
      List.zip_map']
  · rw [List.forall₂_map_right_iff, List.forall₂_same]
    intro kv _
    unfold parsed
    constructor
    · intro f hf; rw [hf]
    · intro hf; rw [hf]

theorem sameEvent_of (e : CustomEvent) (h : (e.data.map (·.1)).Nodup) : SameEvent e (widen e.time, e.name, eventDict e) := by
  refine ⟨number_widen _, rfl, ?_, ?_⟩
  · intro hd; simp [eventDict, hd, sValue]
  · intro hd
    have : e.data.isEmpty = false := by simpa using hd
    simp only [eventDict, this, Bool.false_eq_true, if_false, StringMap]
    rw [foldl_mapSet (·.1) (fun kv => Property.str kv.2) e.data [] h (by simp), List.nil_append]

theorem sameEvents (es : List CustomEvent) (h : ∀ e ∈ es, (e.data.map (·.1)).Nodup) :
    List.Forall₂ SameEvent es (es.map fun e => (widen e.time, e.name, eventDict e)) := by
  rw [List.forall₂_map_right_iff, List.forall₂_same]
  exact fun e he => sameEvent_of e (h e he)

theorem sameCaptures (vs : List VectorCapture) : List.Forall₂ SameCapture vs (vs.map vecCapture) := by
  rw [List.forall₂_map_right_iff, List.forall₂_same]
  exact fun v _ => ⟨number_widen _, number_widen _, number_widen _, number_widen _⟩

/-- C45: every subject becomes a child with the subject's number as id, its name, its captures in order with the same
times and values, and its metadata; the recording keeps its name, events and metadata. -/
theorem C45_complete (X : Ext) (v : V1.Recording) (h : Maps v) : SameRecording X v (protobufToStd X v) := by
  refine ⟨_, _, _, rfl, sameEvents _ h.2.1, ?_, convertMetadata_parsed X _ h.1⟩
  rw [List.forall₂_map_right_iff, List.forall₂_same]
  intro s hs
  refine ⟨_, _, _, _, _, _, rfl, decimal_spec _, sameCaptures _, sameCaptures _, sameEvents _ (h.2.2 s hs).2, ?_,
    convertMetadata_parsed X _ (h.2.2 s hs).1⟩
  rw [List.forall₂_map_right_iff, List.forall₂_same]
  exact fun e _ => ⟨number_widen _, BitVec.toInt_signExtend_of_le (by decide)⟩

/-- External code for the examples: the text "1" is the number 1. -/
def oneExt : Ext := ⟨fun b => .ok b, fun b => if b = [49] then some 0x3F800000 else none⟩

/-- A version 1 recording for the examples. -/
def v1Sample : V1.Recording :=
  ⟨b!"run", [(b!"a", [49]), (b!"b", b!"x")],
   [⟨BitVec.ofInt 32 (-7), b!"cube", [], [⟨0x3F800000, b!"jump", b!"high", []⟩, ⟨0x40000000, b!"land", [], [(b!"k", [49])]⟩],
     [⟨0, 0⟩, ⟨0x3F800000, 3⟩], [⟨0, 0x3F800000, 0, 0⟩, ⟨0x3F800000, 0x40000000, 0, 0⟩], []⟩],
   []⟩

theorem v1Sample_maps : Maps v1Sample := by
  unfold Maps
  decide +kernel

example : Maps v1Sample := v1Sample_maps

/-! ## C46 -/

theorem good_event (es : List CustomEvent) : GoodColl (oldToNewEvents es) := by
  intro cap hcap
  obtain ⟨e, -, rfl⟩ := List.mem_map.1 hcap
  show GoodBlock (eventDict e)
  unfold eventDict
  split
  · exact ⟨by simp, by simpa using .str _⟩
  · exact good_foldl (α := Bytes × Bytes) (·.1) (fun kv => Property.str kv.2) _ [] ⟨by simp, by simp⟩ fun _ => .str _

theorem good_convert (X : Ext) (m : List (Bytes × Bytes)) : GoodBlock (convertMetadata X m) := by
  rw [convertMetadata_eq]
  refine good_foldl (α := Bytes × Bytes) (·.1) (fun kv => parsed X kv.2) _ [] ⟨by simp, by simp⟩ fun kv => ?_
  unfold parsed
  split
  · exact .f32 _
  · exact .str _

theorem good_subject (X : Ext) (s : Subject) : GoodRec (subjectToStd X s) := by
  refine GoodRec.mk _ _ [.position _ _, .euler _ _, oldToNewEvents s.events, .enum _ _ _] [] _ [] [] ?_ (by simp)
    (good_convert X _) (by simp) (by simp)
  intro c hc
  simp only [List.mem_cons, List.not_mem_nil, or_false] at hc
  rcases hc with rfl | rfl | rfl | rfl
  · trivial
  · trivial
  · exact good_event _
  · trivial

theorem good_v1 (X : Ext) (v : V1.Recording) : GoodRec (protobufToStd X v) := by
  refine GoodRec.mk _ _ [oldToNewEvents v.events] _ _ [] [] ?_ ?_ (good_convert X _) (by simp) (by simp)
  · simpa using good_event _
  · intro r hr
    obtain ⟨s, -, rfl⟩ := List.mem_map.1 hr
    exact good_subject X s

theorem mem_flatList {c : Coll} {rs : List Rec} (h : c ∈ Rec.flatList rs) : ∃ r ∈ rs, c ∈ r.flat := by
  induction rs with
  | nil => simp [Rec.flatList] at h
  | cons r rs ih =>
    rw [Rec.flatList, List.mem_append] at h
    rcases h with h | h
    · exact ⟨r, by simp, h⟩
    · obtain ⟨r', hr, hc⟩ := ih h
      exact ⟨r', by simp [hr], hc⟩

theorem flat_v1 (X : Ext) (v : V1.Recording) (c : Coll) (h : c ∈ (protobufToStd X v).flat) :
    Native c ∧ (c.sig = sigEvent ∨ c.sig = sigPosition ∨ c.sig = sigEuler ∨ c.sig = sigEnum) := by
  rw [protobufToStd, Rec.flat, List.mem_append] at h
  rcases h with h | h
  · simp at h
    subst h
    exact ⟨trivial, .inl rfl⟩
  · obtain ⟨r, hr, hc⟩ := mem_flatList h
    obtain ⟨s, -, rfl⟩ := List.mem_map.1 hr
    simp only [subjectToStd, Rec.flat, Rec.flatList, List.append_nil, List.filterMap_cons, id, List.filterMap_nil,
      List.mem_cons, List.not_mem_nil, or_false] at hc
    rcases hc with rfl | rfl | rfl | rfl
    · exact ⟨trivial, .inr (.inl rfl)⟩
    · exact ⟨trivial, .inr (.inr (.inl rfl))⟩
    · exact ⟨trivial, .inl rfl⟩
    · exact ⟨trivial, .inr (.inr (.inr rfl))⟩

/-- The same collection up to the precision of its storage: same type, name and number of captures; names and metadata
of events and members of enums are exactly the same. -/
def Kindred : Coll → Coll → Prop
  | .position n caps, .position n' caps' => n = n' ∧ caps.length = caps'.length
  | .euler n caps, .euler n' caps' => n = n' ∧ caps.length = caps'.length
  | .event n caps, .event n' caps' => n = n' ∧ caps.map (·.2) = caps'.map (·.2)
  | .enum n ms caps, .enum n' ms' caps' => n = n' ∧ ms = ms' ∧ caps.map (·.2) = caps'.map (·.2)
  | .float n caps, .float n' caps' => n = n' ∧ caps.length = caps'.length
  | _, _ => False

theorem octStored_length (n : Nat) (vs : List V3) : (octStored n vs).length = vs.length := by
  have h1 : ∀ (mn mx q : V3) (l : List V3), (octChoices n mn mx q l).length = l.length := by
    intro mn mx q l
    induction l generalizing q with
    | nil => rfl
    | cons p l ih => simp [octChoices, ih]
  have h2 : ∀ (mn mx q : V3) (l : List (List UInt8)), (octSums mn mx q l).length = l.length := by
    intro mn mx q l
    induction l generalizing q with
    | nil => rfl
    | cons p l ih => simp [octSums, ih]
  match vs with
  | [] => rfl
  | [p] => rfl
  | p :: q :: ps => simp [octStored, h1, h2]

theorem storedPositions_length (t : Nat) (vs : List V3) : (storedPositions t vs).length = vs.length := by
  unfold storedPositions
  split
  · rfl
  split
  · simp
  split <;> exact octStored_length _ _

theorem storedRotations_length (t : Nat) (vs : List V3) : (storedRotations t vs).length = vs.length := by
  unfold storedRotations
  split
  · rfl
  split
  · simp
  · match vs with
    | [] => rfl
    | [p] => rfl
    | p :: q :: ps => simp [stored16]

theorem storedFloats_length (t : Nat) (vs : List F64) : (storedFloats t vs).length = vs.length := by
  unfold storedFloats
  split
  · rfl
  split
  · simp
  · simp [bstFloats]

theorem builtin_sig (b : Builtin) : b.encoder.sig =
    match b with
    | .event => sigEvent
    | .enum => sigEnum
    | .position _ => sigPosition
    | .euler _ => sigEuler
    | .float _ => sigFloat := by cases b <;> rfl

theorem kindred_refl (c : Coll) (h : Native c) : Kindred c c := by
  cases c <;> simp [Kindred, Native] at h ⊢

theorem kindred_stored (ws : List Builtin) (c : Coll) (h : Native c) (ts : List F64) (hl : ts.length = c.times.length) :
    Kindred c (storedColl ws c ts) := by
  unfold storedColl
  cases hb : Builtin.chosen ws c with
  | none => exact kindred_refl c h
  | some b =>
    have hs := sig_of_chosen hb
    have hne : ∀ {α : Type} (caps : List (F64 × α)), ts.length = caps.length →
        caps.map (·.2) = (ts.zip (caps.map (·.2))).map (·.2) := by
      intro α caps hl
      rw [← List.unzip_snd (l := ts.zip _), List.unzip_zip_right (by simp [hl])]
    cases c with
    | other => exact h.elim
    | position n caps =>
      cases b with
      | position t => simp [Builtin.stored, Kindred, storedPositions_length, Coll.times] at hl ⊢; omega
      | _ => simp only [builtin_sig, Coll.sig] at hs; exact absurd hs (by decide)
    | euler n caps =>
      cases b with
      | euler t => simp [Builtin.stored, Kindred, storedRotations_length, Coll.times] at hl ⊢; omega
      | _ => simp only [builtin_sig, Coll.sig] at hs; exact absurd hs (by decide)
    | float n caps =>
      cases b with
      | float t => simp [Builtin.stored, Kindred, storedFloats_length, Coll.times] at hl ⊢; omega
      | _ => simp only [builtin_sig, Coll.sig] at hs; exact absurd hs (by decide)
    | event n caps =>
      cases b with
      | event => exact ⟨rfl, hne caps (by simpa [Coll.times] using hl)⟩
      | _ => simp only [builtin_sig, Coll.sig] at hs; exact absurd hs (by decide)
    | enum n ms caps =>
      cases b with
      | enum => exact ⟨rfl, rfl, hne caps (by simpa [Coll.times] using hl)⟩
      | _ => simp only [builtin_sig, Coll.sig] at hs; exact absurd hs (by decide)

/-- The encoders of the commands of the program, and those of `Load`. -/
def cliBuiltins : List Builtin := [.event, .position 3, .euler 2, .enum]
def loadBuiltins : List Builtin := [.event, .position 2, .euler 1, .enum]

theorem v1_written (F : Flate) (hF : F.Lawful) (X X' : Ext) (unmarshal : Bytes → Except Err V1.Recording)
    (ws : List Builtin) (hw : ws = cliBuiltins ∨ ws = loadBuiltins) (v : V1.Recording) (orders : List (List Bytes))
    (hko : KeyOrders (protobufToStd X v) orders) :
    ∃ n out, write F ⟨ws.map Builtin.encoder, 2, true⟩ orders (protobufToStd X v) (⟨[]⟩ : Buf) = .ok (n, none, out) ∧
      (n ≤ sizeLimit → ∃ s, load F X' unmarshal (⟨out.bytes, .eof⟩ : Flat) =
        .ok (((protobufToStd X v).mapColls fun c => storedColl ws c (storedTimes 2 c.times), n, none), s)) := by
  refine C17_roundtrip F hF X' unmarshal ws loadBuiltins 2 (by decide) true orders _ (good_v1 X v)
    (fun c hc => (flat_v1 X v c hc).1) hko ?_ ?_
  · intro c hc
    have := (flat_v1 X v c hc).2
    simp only [accepts_iff]
    rcases hw with rfl | rfl
    · rcases this with h | h | h | h <;> rw [h]
      exacts [⟨.event, by decide, rfl⟩, ⟨.position 3, by decide, rfl⟩, ⟨.euler 2, by decide, rfl⟩,
        ⟨.enum, by decide, rfl⟩]
    · rcases this with h | h | h | h <;> rw [h]
      exacts [⟨.event, by decide, rfl⟩, ⟨.position 2, by decide, rfl⟩, ⟨.euler 1, by decide, rfl⟩,
        ⟨.enum, by decide, rfl⟩]
  · rcases hw with rfl | rfl <;> decide

/-- C46: a converted version 1 recording is always accepted, by the default writer and by the writer of the upgrade
command, and `Load` reads the result as the same tree: the same ids, names, children and metadata, and each collection
with its type, name, number of captures, and exact event names, event metadata and enum values (`Kindred`). -/
theorem C46_writable (F : Flate) (hF : F.Lawful) (X X' : Ext) (unmarshal : Bytes → Except Err V1.Recording)
    (cfg : WriterCfg) (hc : cfg = recoludeWriter ∨ cfg = cliWriter) (v : V1.Recording) (orders : List (List Bytes))
    (hko : KeyOrders (protobufToStd X v) orders) :
    ∃ n out, write F cfg orders (protobufToStd X v) (⟨[]⟩ : Buf) = .ok (n, none, out) ∧
      (n ≤ sizeLimit → ∃ f s, load F X' unmarshal (⟨out.bytes, .eof⟩ : Flat) =
        .ok (((protobufToStd X v).mapColls f, n, none), s) ∧ ∀ c ∈ (protobufToStd X v).flat, Kindred c (f c)) := by
  obtain ⟨ws, hw, rfl⟩ : ∃ ws, (ws = cliBuiltins ∨ ws = loadBuiltins) ∧ cfg = ⟨ws.map Builtin.encoder, 2, true⟩ := by
    rcases hc with rfl | rfl
    · exact ⟨loadBuiltins, .inr rfl, rfl⟩
    · exact ⟨cliBuiltins, .inl rfl, rfl⟩
  obtain ⟨n, out, h1, h2⟩ := v1_written F hF X X' unmarshal ws hw v orders hko
  refine ⟨n, out, h1, fun hn => ?_⟩
  obtain ⟨s, hs⟩ := h2 hn
  exact ⟨_, s, hs, fun c hc => kindred_stored ws c (flat_v1 X v c hc).1 _ (storedTimes_length _ _)⟩

theorem flat_read {d rest : Bytes} {fin : Err} (h : d ≠ []) :
    (Src.read d.length (⟨d ++ rest, fin⟩ : Flat)) = (d, none, ⟨rest, fin⟩) := by
  simp only [Src.read]
  rw [if_neg (by simp [h])]
  simp

/-- C46, the upgrade command: a version 1 file (version, count 1, length, compressed message) is turned into a file
which `Load` reads as the converted recording, in the sense of `C46_writable`. -/
theorem C46_upgrade (F : Flate) (hF : F.Lawful) (X X' : Ext) (unmarshal um' : Bytes → Except Err V1.Recording)
    (orders : Rec → List (List Bytes)) (v : V1.Recording) (len data plain rest : Bytes) (fin : Err)
    (hl : len.length = 8) (hd : leNat len = data.length) (hne : data ≠ []) (hm : data.length ≤ maxAlloc)
    (hi : X.inflateAll data = .ok plain) (hu : unmarshal plain = .ok v)
    (hko : KeyOrders (protobufToStd X v) (orders (protobufToStd X v))) :
    ∃ n out, upgrade F X unmarshal orders (⟨[1] ++ ([1, 0, 0, 0] ++ (len ++ (data ++ rest))), fin⟩ : Flat) (⟨[]⟩ : Buf) =
        .ok (none, out) ∧
      write F cliWriter (orders (protobufToStd X v)) (protobufToStd X v) (⟨[]⟩ : Buf) = .ok (n, none, out) ∧
      (n ≤ sizeLimit → ∃ f s, load F X' um' (⟨out.bytes, .eof⟩ : Flat) =
        .ok (((protobufToStd X v).mapColls f, n, none), s) ∧ ∀ c ∈ (protobufToStd X v).flat, Kindred c (f c)) := by
  obtain ⟨n, out, h1, h2⟩ := C46_writable F hF X X' um' cliWriter (.inr rfl) v _ hko
  refine ⟨n, out, ?_, h1, h2⟩
  have hload : ∃ s, load F X unmarshal (⟨[1] ++ ([1, 0, 0, 0] ++ (len ++ (data ++ rest))), fin⟩ : Flat) =
      .ok ((protobufToStd X v, 13 + data.length, none), s) := by
    have hlen : len ≠ [] := by intro h; simp [h] at hl
    have r1 := flat_read (d := [1]) (rest := [1, 0, 0, 0] ++ (len ++ (data ++ rest))) (fin := fin) (by simp)
    have r2 := flat_read (d := [1, 0, 0, 0]) (rest := len ++ (data ++ rest)) (fin := fin) (by simp)
    have r3 := flat_read (d := len) (rest := data ++ rest) (fin := fin) hlen
    have r4 := flat_read (d := data) (rest := rest) (fin := fin) hne
    rw [hl] at r3
    rw [← hd] at r4
    have hv1 : (V1.readRecording X unmarshal).run (⟨[1, 0, 0, 0] ++ (len ++ (data ++ rest)), fin⟩ : Flat) =
        .ok ((protobufToStd X v, 12 + data.length, none), ⟨rest, fin⟩) := by
      rw [V1.readRecording, Prog.run]
      change Src.read (σ := Flat) 4 _ = _ at r2
      rw [r2]
      have h4 : leNat [1, 0, 0, 0] = 1 := by decide
      simp only [List.length_cons, List.length_nil, ne_eq, not_true_eq_false, if_false, h4, Prog.run]
      rw [r3]
      have hmk : leNat len * 1 ≤ maxAlloc := by omega
      simp only [hl, not_true_eq_false, if_false, Prog.make, hmk, if_true, Prog.bind_eq, Prog.bind, Prog.run]
      rw [r4]
      simp only [hd, not_true_eq_false, if_false, hi, hu, Prog.run]
    refine ⟨⟨rest, fin⟩, ?_⟩
    rw [load, read]
    have hp : (readPrelude X unmarshal [eventEncoder, positionEncoder 2, eulerEncoder 1, enumEncoder]).run
        (⟨[1] ++ ([1, 0, 0, 0] ++ (len ++ (data ++ rest))), fin⟩ : Flat) =
        .ok (.inl (protobufToStd X v, 13 + data.length, none), ⟨rest, fin⟩) := by
      rw [readPrelude, Prog.run]
      change Src.read (σ := Flat) 1 _ = _ at r1
      rw [r1]
      show ((V1.readRecording X unmarshal).bind fun r => Prog.pure (Sum.inl (r.1, r.2.1 + 1, r.2.2))).run _ = _
      rw [Prog.run_bind, hv1]
      simp only [Except.bind]
      rw [Prog.run]
      have : 12 + data.length + 1 = 13 + data.length := by omega
      rw [this]
    rw [hp]
    rfl
  obtain ⟨s, hs⟩ := hload
  rw [upgrade, hs]
  simp only [bind, Except.bind, h1]

/-- The sample recording, uncompressed, as a version 1 file, and what the upgrade command makes of it. -/
example : storeFlate.Lawful ∧ KeyOrders (protobufToStd oneExt v1Sample) (visitedBlocks (protobufToStd oneExt v1Sample) |>.map
      fun b => b.map (·.1)) ∧ leNat [2, 0, 0, 0, 0, 0, 0, 0] = 2 ∧ oneExt.inflateAll [7, 7] = .ok [7, 7] ∧
    (upgrade storeFlate oneExt (fun _ => .ok v1Sample) (fun r => (visitedBlocks r).map fun b => b.map (·.1))
      (⟨v1File, .eof⟩ : Flat) (⟨[]⟩ : Buf)).map (fun r => (r.1, decide (200 < r.2.bytes.length))) = .ok (none, true) := by
  refine ⟨storeFlate_lawful, ?_, by decide, rfl, by decide +kernel⟩
  rw [KeyOrders, List.forall₂_map_left_iff, List.forall₂_same]
  exact fun b _ => List.Perm.refl _

end Rap
