import Verif.Proof.Loaded

/-!
# C60: whatever can be loaded can be saved again

`Read` and `Write` put together, starting from an arbitrary input: not from a recording somebody built, but from bytes
of unknown origin that `Read` accepted.
-/

namespace Rap

/-- Writing encoders for everything a reader with the encoders `rs` can return: one of each signature of `rs` and of the
collections of version 1 files. -/
def CanRewrite (rs ws : List Builtin) : Prop :=
  (∀ b ∈ rs, ∃ b' ∈ ws, b'.encoder.sig = b.encoder.sig) ∧
    ∀ s ∈ [sigEvent, sigPosition, sigEuler, sigEnum], ∃ b ∈ ws, b.encoder.sig = s

theorem LoadedRec.flat {S : Coll → Prop} {rec : Rec} (h : LoadedRec S rec) : ∀ c ∈ rec.flat, S c := by
  induction h with
  | mk id name colls recs md bins refs hc hr hmd hb href ih =>
    intro c hm
    rw [Rec.flat, List.mem_append] at hm
    rcases hm with hm | hm
    · exact hc c (by simpa using hm)
    · obtain ⟨r, h1, h2⟩ := mem_flatList hm
      exact ih r h1 c h2

theorem somes_of {α : Type} (l : List (Option α)) (h : none ∉ l) : ∃ l' : List α, l = l'.map some := by
  induction l with
  | nil => exact ⟨[], rfl⟩
  | cons a l ih =>
    obtain ⟨l', rfl⟩ := ih fun hn => h (by simp [hn])
    cases a with
    | none => exact absurd (by simp) h
    | some a => exact ⟨a :: l', rfl⟩

theorem LoadedRec.good {S : Coll → Prop} (hS : ∀ c, S c → GoodColl c) {rec : Rec} (h : LoadedRec S rec)
    (hc : Complete rec) : GoodRec rec := by
  induction h with
  | mk id name colls recs md bins refs h1 hr hmd hb href ih =>
    obtain ⟨cs, rfl⟩ := somes_of colls (hc _ (.self _)).2
    exact .mk _ _ cs _ _ _ _ (fun c hm => hS c (h1 c (by simpa using hm)))
      (fun r hm => ih r hm fun x hx => hc x (.child hm hx)) hmd hb href

/-- C60: a recording that `Read` returned without error from any source is, if it has no nil collection (see C35), built
of metadata, references, binaries and collections as users of the package build them, and its collections have
signatures of the reader's encoders or of version 1 files. -/
theorem C60_wellformed {σ : Type} [Drain σ] [Bounded σ] (F : Flate) (X : Ext)
    (unmarshal : Bytes → Except Err V1.Recording) (rs : List Builtin) (s s' : σ) (rec : Rec) (n : Nat)
    (h : read F X unmarshal (rs.map Builtin.encoder) s = .ok ((rec, n, none), s')) (hc : Complete rec) :
    GoodRec rec ∧ ∀ c ∈ rec.flat, Native c ∧
      ((∃ b ∈ rs, b.encoder.sig = c.sig) ∨ c.sig ∈ [sigEvent, sigPosition, sigEuler, sigEnum]) := by
  have hl := read_loaded F X unmarshal rs s s' rec n h
  exact ⟨hl.good (fun c h => h.1) hc, fun c hm => (hl.flat c hm).2⟩

/-- C60: such a recording can be written, with any selection of encoders for these signatures, any of their techniques,
any time technique, compressed or not; reading the result gives the recording with each collection as its technique
stores it. -/
theorem C60_saved {σ : Type} [Drain σ] [Bounded σ] (F : Flate) (hF : F.Lawful) (X X' : Ext)
    (unmarshal unmarshal' : Bytes → Except Err V1.Recording) (rs ws rs' : List Builtin) (s s' : σ) (rec : Rec) (n : Nat)
    (h : read F X unmarshal (rs.map Builtin.encoder) s = .ok ((rec, n, none), s')) (hc : Complete rec)
    (hws : CanRewrite rs ws) (hrs : ∀ b ∈ ws, ∃ b' ∈ rs', b'.encoder.sig = b.encoder.sig) (tech : Nat) (ht : tech ≤ 2)
    (compress : Bool) (orders : List (List Bytes)) (hko : KeyOrders rec orders) :
    ∃ m out, write F ⟨ws.map Builtin.encoder, tech, compress⟩ orders rec (⟨[]⟩ : Buf) = .ok (m, none, out) ∧
      (m ≤ sizeLimit → ∃ t, read F X' unmarshal' (rs'.map Builtin.encoder) (⟨out.bytes, .eof⟩ : Flat) =
        .ok ((rec.mapColls fun c => storedColl ws c (storedTimes tech c.times), m, none), t)) := by
  obtain ⟨hg, hf⟩ := C60_wellformed F X unmarshal rs s s' rec n h hc
  refine C17_roundtrip F hF X' unmarshal' ws rs' tech ht compress orders rec hg (fun c hm => (hf c hm).1) hko ?_ hrs
  intro c hm
  simp only [accepts_iff]
  rcases (hf c hm).2 with ⟨b, hb, hs⟩ | hs
  · obtain ⟨b', hb', hs'⟩ := hws.1 b hb
    exact ⟨b', hb', (hs'.trans hs).symm⟩
  · obtain ⟨b', hb', hs'⟩ := hws.2 _ hs
    exact ⟨b', hb', hs'.symm⟩

/-- C60: with lossless techniques and 64-bit times, loading and saving changes nothing, whatever the loaded file was: the
saved file is read as the very recording that was loaded. -/
theorem C60_stable {σ : Type} [Drain σ] [Bounded σ] (F : Flate) (hF : F.Lawful) (X X' : Ext)
    (unmarshal unmarshal' : Bytes → Except Err V1.Recording) (rs ws rs' : List Builtin) (s s' : σ) (rec : Rec) (n : Nat)
    (h : read F X unmarshal (rs.map Builtin.encoder) s = .ok ((rec, n, none), s')) (hc : Complete rec)
    (hws : CanRewrite rs ws) (hll : ∀ b ∈ ws, Lossless b) (hrs : ∀ b ∈ ws, ∃ b' ∈ rs', b'.encoder.sig = b.encoder.sig)
    (compress : Bool) (orders : List (List Bytes)) (hko : KeyOrders rec orders) :
    ∃ m out, write F ⟨ws.map Builtin.encoder, 0, compress⟩ orders rec (⟨[]⟩ : Buf) = .ok (m, none, out) ∧
      (m ≤ sizeLimit → ∃ t, read F X' unmarshal' (rs'.map Builtin.encoder) (⟨out.bytes, .eof⟩ : Flat) =
        .ok ((rec, m, none), t)) := by
  obtain ⟨hg, hf⟩ := C60_wellformed F X unmarshal rs s s' rec n h hc
  refine C17_lossless_identity F hF X' unmarshal' ws rs' hll compress orders rec hg (fun c hm => (hf c hm).1) hko ?_ hrs
  intro c hm
  simp only [accepts_iff]
  rcases (hf c hm).2 with ⟨b, hb, hs⟩ | hs
  · obtain ⟨b', hb', hs'⟩ := hws.1 b hb
    exact ⟨b', hb', (hs'.trans hs).symm⟩
  · obtain ⟨b', hb', hs'⟩ := hws.2 _ hs
    exact ⟨b', hb', hs'.symm⟩

/-- C60: and if a collection is nil, `Write` returns an error before it touches the output, with any encoders at all: it
does not panic and leaves no half-written file. -/
theorem C60_refused {σ τ : Type} [Drain σ] [Snk τ] (F : Flate) (X : Ext)
    (unmarshal : Bytes → Except Err V1.Recording) (registered : List Encoder) (s s' : σ) (rec : Rec) (n : Nat)
    (h : read F X unmarshal registered s = .ok ((rec, n, none), s')) (hc : ¬ Complete rec) (F' : Flate)
    (cfg : WriterCfg) (orders : List (List Bytes)) (out : τ) :
    ∃ e, write F' cfg orders rec out = .ok (0, some e, out) := by
  have hs := C35_only_collections_partial F X unmarshal registered s s' rec n h
  simp only [Complete, not_forall] at hc
  obtain ⟨r, hw, hn⟩ := hc
  refine C21_rejected_before_writing F' cfg orders rec (hs rec (.self _)).1 r hw ?_ out
  cases r with
  | nil => trivial
  | mk id name colls recs md bins refs =>
    left
    by_contra hx
    exact hn ⟨by simp, hx⟩

/-- The file of C35, whose collection has an unknown technique, is read with a nil collection. -/
example : ∃ rec n s, read storeFlate noExt noProto defaultEncoders (⟨badTechniqueFile, .eof⟩ : Flat) =
    .ok ((rec, n, none), s) ∧ ¬ Complete rec :=
  let ⟨n, s, h, hc⟩ := C35_decode_error_leaves_nil
  ⟨_, n, s, h, hc⟩

/-- A source in pieces, a file with an event and its metadata; reader and writer with all five kinds. -/
def againFile : Bytes :=
  [2, 1, 14] ++ sigEvent ++ [0, 0, 9, 1, 2, 104, 105, 2, 1, 107, 1, 108, 0, 0, 0, 0, 1, 0, 1, 101, 0, 1] ++
    [0, 0, 0, 0, 0, 0, 240, 63] ++ [6, 0, 2, 0, 1, 3, 4, 0, 0, 0]

/-- All kinds of encoders, lossless. -/
def allBuiltins : List Builtin := [.event, .enum, .position 0, .euler 0, .float 0]

/-- Result of a read that is a complete recording with one event collection of one capture. -/
def oneEvent {σ : Type} (r : Go ((Rec × Nat × Option Err) × σ)) : Bool :=
  match r with
  | .ok ((.mk [] [] [some (.event [101] [(0x3FF0000000000000, [104, 105], [([107], .bool true), ([108], .bool false)])])] []
      [] [] [], _, none), _) => true
  | _ => false

example : ∃ rec n s, read storeFlate noExt noProto (allBuiltins.map Builtin.encoder)
    (⟨[againFile.take 9, againFile.drop 9], .eof⟩ : Chunked) = .ok ((rec, n, none), s) ∧ Complete rec ∧
    CanRewrite allBuiltins allBuiltins ∧ (∀ b ∈ allBuiltins, Lossless b) ∧ KeyOrders rec [[]] := by
  have h : oneEvent (read storeFlate noExt noProto (allBuiltins.map Builtin.encoder)
    (⟨[againFile.take 9, againFile.drop 9], .eof⟩ : Chunked)) = true := by decide +kernel
  unfold oneEvent at h
  split at h
  · rename_i n s hx
    refine ⟨_, n, s, hx, ?_, by unfold CanRewrite; decide, by simp [allBuiltins, Lossless], ?_⟩
    · intro r hw
      cases hw with
      | self => simp [Rec.colls]
      | child hm _ => cases hm
    · exact .cons (by simp) .nil
  · cases h

/-! ## C60 for the commands -/

/-- C60, the upgrade command on any file at all that `Load` accepts: it fails only for a nil collection, and then before
writing; otherwise the new file is loaded as the same tree, with the same ids, names, references, binaries and metadata,
and each collection with its type, name, number of captures, and exact event names, event metadata and enum values. -/
theorem C60_upgrade {σ : Type} [Drain σ] [Bounded σ] (F : Flate) (hF : F.Lawful) (X X' : Ext)
    (unmarshal unmarshal' : Bytes → Except Err V1.Recording) (orders : Rec → List (List Bytes)) (s s' : σ) (rec : Rec)
    (n : Nat) (h : load F X unmarshal s = .ok ((rec, n, none), s')) (hko : KeyOrders rec (orders rec)) :
    (Complete rec → ∃ m out, upgrade F X unmarshal orders s (⟨[]⟩ : Buf) = .ok (none, out) ∧
      write F cliWriter (orders rec) rec (⟨[]⟩ : Buf) = .ok (m, none, out) ∧
      (m ≤ sizeLimit → ∃ f t, load F X' unmarshal' (⟨out.bytes, .eof⟩ : Flat) = .ok ((rec.mapColls f, m, none), t) ∧
        ∀ c ∈ rec.flat, Kindred c (f c))) ∧
    (¬ Complete rec → ∃ e, upgrade F X unmarshal orders s (⟨[]⟩ : Buf) = .ok (some e, ⟨[]⟩)) := by
  constructor
  · intro hc
    obtain ⟨m, out, h1, h2⟩ := C60_saved F hF X X' unmarshal unmarshal' loadBuiltins cliBuiltins loadBuiltins s s' rec n h
      hc (by unfold CanRewrite; decide) (by decide) 2 (by decide) true (orders rec) hko
    refine ⟨m, out, ?_, h1, fun hm => ?_⟩
    · rw [upgrade, h]
      simp only [Bind.bind, Except.bind]
      rw [show cliWriter = ⟨cliBuiltins.map Builtin.encoder, 2, true⟩ from rfl, h1]
    · obtain ⟨t, ht⟩ := h2 hm
      refine ⟨_, t, ht, fun c hcm => ?_⟩
      exact kindred_stored _ c ((C60_wellformed F X unmarshal loadBuiltins s s' rec n h hc).2 c hcm).1 _
        (storedTimes_length _ _)
  · intro hc
    obtain ⟨e, he⟩ := C60_refused F X unmarshal _ s s' rec n h hc F cliWriter (orders rec) (⟨[]⟩ : Buf)
    refine ⟨e, ?_⟩
    rw [upgrade, h]
    simp only [Bind.bind, Except.bind]
    rw [he]

example : ∃ rec n s, load storeFlate noExt noProto (⟨againFile, .eof⟩ : Flat) = .ok ((rec, n, none), s) ∧ Complete rec ∧
    KeyOrders rec [[]] := by
  have h : oneEvent (load storeFlate noExt noProto (⟨againFile, .eof⟩ : Flat)) = true := by decide +kernel
  unfold oneEvent at h
  split at h
  · rename_i n s hx
    refine ⟨_, n, s, hx, ?_, ?_⟩
    · intro r hw
      cases hw with
      | self => simp [Rec.colls]
      | child hm _ => cases hm
    · exact .cons (by simp) .nil
  · cases h

end Rap
