import Verif.Model.Benchmark
import Verif.Props.Again
import Verif.Props.SummaryText

/-!
# C61: what the benchmark command prints
-/

namespace Rap

/-- The lines about one collection. -/
def CollectionLines (c : Coll) (text : Bytes) : Prop :=
  ∃ d, text = b!"  Name: " ++ c.name ++ b!"\n  Signature: " ++ c.sig ++ b!"\n  Captures: " ++ d ++ b!"\n" ∧
    IsDecimal d c.captures.length

/-- The text describes a recording of this name, these collections and this number of children. -/
def RecordingLines (name : Bytes) (cs : List Coll) (children : Nat) (text : Bytes) : Prop :=
  ∃ d k parts, text = b!"Name: " ++ name ++ b!"\nCollections: " ++ d ++ b!"\n" ++ parts.flatten ++
      b!"Sub Recordings: " ++ k ++ b!"\n" ∧
    IsDecimal d cs.length ∧ IsDecimal k children ∧ List.Forall₂ CollectionLines cs parts

theorem captures_length (c : Coll) : c.captures.length = c.times.length := by
  cases c <;> simp [Coll.captures, Coll.times]

set_option maxRecDepth 4000 in
theorem printCollections_lines (cs : List Coll) : ∃ parts : List Bytes, printCollections (cs.map some) = .ok parts.flatten ∧
    List.Forall₂ CollectionLines cs parts := by
  induction cs with
  | nil => exact ⟨[], rfl, .nil⟩
  | cons c cs ih =>
    obtain ⟨parts, h1, h2⟩ := ih
    refine ⟨_ :: parts, ?_, .cons ⟨V1.decimal c.times.length, rfl, ?_⟩ h2⟩
    · rw [List.map_cons, printCollections, h1]
      simp only [Bind.bind, Except.bind, List.flatten_cons, List.append_assoc]
      rfl
    · rw [captures_length]; exact decimal_natCast _

set_option maxRecDepth 4000 in
theorem printRecording_lines (id name : Bytes) (cs : List Coll) (recs : List Rec) (md : Block)
    (bins : List (Option Bin)) (refs : List (Option BinRef)) : ∃ text, printRecording (.mk id name (cs.map some) recs md bins refs) = .ok text ∧
      RecordingLines name cs recs.length text := by
  obtain ⟨parts, h1, h2⟩ := printCollections_lines cs
  refine ⟨_, ?_, V1.decimal cs.length, V1.decimal recs.length, parts, rfl, decimal_natCast _, decimal_natCast _, h2⟩
  rw [printRecording, h1]
  simp only [Bind.bind, Except.bind, List.append_assoc, List.length_map]
  rfl

theorem printCollections_nil (colls : List (Option Coll)) (h : none ∈ colls) :
    printCollections colls = .error .nilDeref := by
  induction colls with
  | nil => cases h
  | cons a l ih =>
    cases a with
    | none => rfl
    | some c =>
      rw [printCollections, ih (by simpa using h)]
      rfl

theorem kindred_printed {c d : Coll} (h : Kindred c d) : c.name = d.name ∧ c.sig = d.sig ∧
    c.times.length = d.times.length := by
  have hl : ∀ {α : Type} {l l' : List (F64 × α)}, l.map (·.2) = l'.map (·.2) → l.length = l'.length := by
    intro α l l' h
    simpa using congrArg List.length h
  cases c <;> cases d <;> simp only [Kindred] at h
  · exact ⟨h.1, rfl, by simpa [Coll.times] using h.2⟩
  all_goals first
    | exact ⟨h.1, rfl, by simpa [Coll.times] using h.2⟩
    | exact ⟨h.1, rfl, by simpa [Coll.times] using hl h.2⟩
    | exact ⟨h.1, rfl, by simpa [Coll.times] using hl h.2.2⟩

theorem printCollections_kindred (f : Coll → Coll) (colls : List (Option Coll))
    (h : ∀ c, some c ∈ colls → Kindred c (f c)) :
    printCollections (colls.map (Option.map f)) = printCollections colls := by
  induction colls with
  | nil => rfl
  | cons a l ih =>
    cases a with
    | none => rfl
    | some c =>
      obtain ⟨h1, h2, h3⟩ := kindred_printed (h c (by simp))
      rw [List.map_cons, Option.map_some, printCollections, printCollections, ih fun c hc => h c (by simp [hc]),
        ← h1, ← h2, ← h3]

theorem mapCollsList_length (f : Coll → Coll) (rs : List Rec) : (Rec.mapCollsList f rs).length = rs.length := by
  induction rs with
  | nil => rfl
  | cons r rs ih => simp [Rec.mapCollsList, ih]

theorem printRecording_kindred (f : Coll → Coll) (rec : Rec) (h : ∀ c ∈ rec.flat, Kindred c (f c)) :
    printRecording (rec.mapColls f) = printRecording rec := by
  cases rec with
  | nil => rfl
  | mk id name colls recs md bins refs =>
    have hc : ∀ c, some c ∈ colls → Kindred c (f c) := by
      intro c hm
      refine h c ?_
      rw [Rec.flat, List.mem_append]
      exact .inl (by simpa using hm)
    rw [Rec.mapColls, printRecording, printRecording, printCollections_kindred f colls hc, mapCollsList_length,
      List.length_map]

/-- C61: on any file that `Load` accepts and that leaves no collection nil, the benchmark prints one and the same
description of the recording twice: of the recording loaded and of the one saved and read back. It gives the name, the
number of collections, the name, signature and number of captures of each, and the number of children. The original size
is the number of bytes `Load` reports, the new size the length of the compressed file, in units of 1024 bytes. -/
theorem C61_report {σ : Type} [Drain σ] [Bounded σ] (F : Flate) (hF : F.Lawful) (X : Ext)
    (unmarshal : Bytes → Except Err V1.Recording) (orders : Rec → List (List Bytes)) (elapsed : Bytes) (s s' : σ)
    (id name : Bytes) (colls : List (Option Coll)) (recs : List Rec) (md : Block) (bins : List (Option Bin))
    (refs : List (Option BinRef)) (n : Nat)
    (h : load F X unmarshal s = .ok ((.mk id name colls recs md bins refs, n, none), s'))
    (hc : Complete (.mk id name colls recs md bins refs))
    (hko : KeyOrders (.mk id name colls recs md bins refs) (orders (.mk id name colls recs md bins refs))) :
    ∃ m packed, write F ⟨benchEncoders, 2, true⟩ (orders (.mk id name colls recs md bins refs))
        (.mk id name colls recs md bins refs) (⟨[]⟩ : Buf) = .ok (m, none, packed) ∧
      (m ≤ sizeLimit → ∃ text a b cs, benchmark F X unmarshal orders elapsed s =
          .ok (.ok (b!"Time to read in: " ++ elapsed ++ b!"\n" ++ text ++ b!"Original Size: " ++ a ++ b!" kb\n\n" ++
            text ++ b!"New Size: " ++ b ++ b!" kb\n")) ∧
        colls = cs.map some ∧ RecordingLines name cs recs.length text ∧
        IsDecimal a (n / 1024) ∧ IsDecimal b (packed.bytes.length / 1024)) := by
  obtain ⟨m, out, h1, h2⟩ := C60_saved F hF X X unmarshal unmarshal loadBuiltins loadBuiltins loadBuiltins s s' _ n h
    hc (by unfold CanRewrite; decide) (by decide) 2 (by decide) true _ hko
  refine ⟨m, out, h1, fun hm => ?_⟩
  obtain ⟨t, ht⟩ := h2 hm
  obtain ⟨cs, rfl⟩ := somes_of colls (hc _ (.self _)).2
  obtain ⟨text, hp, hl⟩ := printRecording_lines id name cs recs md bins refs
  refine ⟨text, V1.decimal (n / 1024 : Nat), V1.decimal (out.bytes.length / 1024 : Nat), cs, ?_, rfl, hl,
    decimal_natCast _, decimal_natCast _⟩
  have hk := printRecording_kindred (fun c => storedColl loadBuiltins c (storedTimes 2 c.times)) _ fun c hcm =>
    kindred_stored loadBuiltins c ((C60_wellformed F X unmarshal loadBuiltins s s' _ n h hc).2 c hcm).1 _
      (storedTimes_length _ _)
  rw [benchmark, h]
  simp only [Bind.bind, Except.bind]
  rw [hp]
  dsimp only
  rw [show benchEncoders = loadBuiltins.map Builtin.encoder from rfl, h1]
  dsimp only
  rw [ht]
  dsimp only
  rw [hk, hp]
  simp only [kb, List.append_assoc]
  rfl

/-- See `againFile`: one event collection with one event, read from two pieces. -/
example : ∃ colls n s, load storeFlate noExt noProto (⟨[againFile.take 9, againFile.drop 9], .eof⟩ : Chunked) =
    .ok ((.mk [] [] colls [] [] [] [], n, none), s) ∧ Complete (.mk [] [] colls [] [] [] []) ∧ colls.length = 1 ∧
    KeyOrders (.mk [] [] colls [] [] [] []) [[]] := by
  have h : oneEvent (load storeFlate noExt noProto (⟨[againFile.take 9, againFile.drop 9], .eof⟩ : Chunked)) = true := by
    decide +kernel
  unfold oneEvent at h
  split at h
  · rename_i n s hx
    refine ⟨_, n, s, hx, ?_, rfl, .cons (by simp) .nil⟩
    intro r hw
    cases hw with
    | self => simp [Rec.colls]
    | child hm _ => cases hm
  · cases h

/-- C61: the benchmark fails with the error of a file that cannot be read. -/
theorem C61_unreadable {σ : Type} [Drain σ] (F : Flate) (X : Ext) (unmarshal : Bytes → Except Err V1.Recording)
    (orders : Rec → List (List Bytes)) (elapsed : Bytes) (s s' : σ) (r : Rec) (n : Nat) (e : Err)
    (h : load F X unmarshal s = .ok ((r, n, some e), s')) : benchmark F X unmarshal orders elapsed s = .ok (.error e) := by
  rw [benchmark, h]; rfl

example : ∃ r n e s', load storeFlate noExt noProto (⟨[], .eof⟩ : Flat) = .ok ((r, n, some e), s') := ⟨_, _, _, _, rfl⟩

/-- C61: a file whose recording has a nil collection makes the benchmark panic. -/
theorem C61_nil_collection {σ : Type} [Drain σ] (F : Flate) (X : Ext) (unmarshal : Bytes → Except Err V1.Recording)
    (orders : Rec → List (List Bytes)) (elapsed : Bytes) (s s' : σ) (id name : Bytes) (colls : List (Option Coll))
    (recs : List Rec) (md : Block) (bins : List (Option Bin)) (refs : List (Option BinRef)) (n : Nat)
    (h : load F X unmarshal s = .ok ((.mk id name colls recs md bins refs, n, none), s')) (hn : none ∈ colls) :
    benchmark F X unmarshal orders elapsed s = .error .nilDeref := by
  rw [benchmark, h]
  simp only [Bind.bind, Except.bind]
  rw [printRecording, printCollections_nil colls hn]
  rfl

example : ∃ n s, load storeFlate noExt noProto (⟨badTechniqueFile, .eof⟩ : Flat) =
    .ok ((.mk [] [] [none] [] [] [] [], n, none), s) :=
  let ⟨n, s, h, _⟩ := C35_decode_error_leaves_nil
  ⟨n, s, h⟩

/-- C61: the two sizes do not measure the same thing. For a file the package wrote compressed, the original size is
that of the same file without compression, while the new size is with compression. -/
theorem C61_uncompressed_size (F : Flate) (hF : F.Lawful) (X : Ext) (unmarshal : Bytes → Except Err V1.Recording)
    (ws : List Builtin) (tech : Nat) (ht : tech ≤ 2) (orders' : List (List Bytes)) (rec : Rec)
    (hg : GoodRec rec) (hn : ∀ c ∈ rec.flat, Native c) (hko : KeyOrders rec orders')
    (hacc : ∀ c ∈ rec.flat, ∃ b ∈ ws, b.encoder.accepts c)
    (hws : ∀ b ∈ ws, ∃ b' ∈ loadBuiltins, b'.encoder.sig = b.encoder.sig) (m k : Nat) (packed plain : Buf)
    (h : write F ⟨ws.map Builtin.encoder, tech, true⟩ orders' rec (⟨[]⟩ : Buf) = .ok (m, none, packed))
    (h' : write F ⟨ws.map Builtin.encoder, tech, false⟩ orders' rec (⟨[]⟩ : Buf) = .ok (k, none, plain))
    (hm : m ≤ sizeLimit) (orders : Rec → List (List Bytes)) (elapsed out : Bytes)
    (ho : benchmark F X unmarshal orders elapsed (⟨packed.bytes, .eof⟩ : Flat) = .ok (.ok out)) :
    ∃ first second a b, out = first ++ b!"Original Size: " ++ a ++ b!" kb\n\n" ++ second ++ b!"New Size: " ++ b ++
        b!" kb\n" ∧ IsDecimal a (plain.bytes.length / 1024) := by
  obtain ⟨n, out', hw, hr⟩ := C17_roundtrip F hF X unmarshal ws loadBuiltins tech ht true orders' rec hg hn hko hacc hws
  rw [h] at hw
  simp only [Except.ok.injEq, Prod.mk.injEq, true_and] at hw
  obtain ⟨rfl, rfl⟩ := hw
  obtain ⟨t, hr⟩ := hr hm
  have hplain : plain.bytes.length = m := by
    obtain ⟨buf, hb⟩ := write_other h F false ⟨[]⟩
    change write F ⟨ws.map Builtin.encoder, tech, false⟩ orders' rec _ = _ at hb
    rw [h'] at hb
    simp only [Except.ok.injEq, Prod.mk.injEq, true_and] at hb
    obtain ⟨rfl, rfl⟩ := hb
    obtain ⟨ms, off, hs, blocks, idx, x, ws, -, -, -, h4, h5⟩ := write_shape F _ orders' rec _ _ _ h'
    simp only [Bool.false_eq_true, if_false, List.nil_append] at h5
    rw [h5, h4, List.length_append]
  rw [benchmark, load, show [eventEncoder, positionEncoder 2, eulerEncoder 1, enumEncoder] =
    loadBuiltins.map Builtin.encoder from rfl, hr] at ho
  simp only [Bind.bind, Except.bind] at ho
  split at ho
  · cases ho
  rename_i first _
  split at ho
  · cases ho
  rename_i w _
  split at ho
  · cases ho
  split at ho
  · cases ho
  split at ho
  · cases ho
  split at ho
  · cases ho
  rename_i second _
  simp only [Except.ok.injEq] at ho
  refine ⟨b!"Time to read in: " ++ elapsed ++ b!"\n" ++ first, second, V1.decimal (m / 1024 : Nat),
    V1.decimal (w.2.2.bytes.length / 1024 : Nat), ?_, ?_⟩
  · rw [← ho]
    simp only [kb, List.append_assoc]
    rfl
  · rw [hplain]; exact decimal_natCast _

/-- A recording with a name and metadata. -/
def bareRec : Rec := .mk [] b!"walk" [] [] [(b!"k", .bool true)] [] []

/-- Its compressed file. -/
def barePacked : Bytes :=
  [2, 0, 1] ++ ([1, 1, 107, 0, 4, 119, 97, 108, 107, 1, 0, 3, 0, 0, 0, 0].flatMap fun x => [1, x]) ++ [0]

/-- The benchmark has printed something. -/
def benchmarked : Go (Except Err Bytes) → Bool
  | .ok (.ok _) => true
  | _ => false

/-- The write reported this count and gave these bytes. -/
def wrote (n : Nat) (bytes : Bytes) : Go (Nat × Option Err × Buf) → Bool
  | .ok (m, none, b) => m = n ∧ b.bytes = bytes
  | _ => false

example : GoodRec bareRec ∧ KeyOrders bareRec [[b!"k"]] ∧
    wrote 19 barePacked (write storeFlate ⟨loadBuiltins.map Builtin.encoder, 0, true⟩ [[b!"k"]] bareRec (⟨[]⟩ : Buf)) ∧
    wrote 19 [2, 0, 0, 1, 1, 107, 0, 4, 119, 97, 108, 107, 1, 0, 3, 0, 0, 0, 0]
      (write storeFlate ⟨loadBuiltins.map Builtin.encoder, 0, false⟩ [[b!"k"]] bareRec (⟨[]⟩ : Buf)) ∧
    benchmarked (benchmark storeFlate noExt noProto (fun _ => [[b!"k"]]) b!"2ms" (⟨barePacked, .eof⟩ : Flat)) := by
  refine ⟨.mk _ _ [] _ _ [] [] (by simp) (by simp) ?_ (by simp) (by simp), .cons (by simp) .nil, by decide +kernel,
    by decide +kernel, by decide +kernel⟩
  exact ⟨by simp, by simpa using .bool true⟩

end Rap
