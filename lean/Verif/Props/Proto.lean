import Verif.Proof.ProtoMsg
import Verif.Props.V1File

/-!
# C73: version 1 messages in the protobuf wire format
-/

namespace Rap
open Wire

/-- C73: what `proto.Unmarshal` returns without error is the recording that the bytes say, whatever the order in which Go goes
through maps. -/
theorem C73_value (order : List (Bytes × Bytes) → List (Bytes × Bytes)) (ho : ∀ l, (order l).Perm l) (b : Bytes) (r : V1.Recording)
    (h : V1.protoUnmarshal order b = .ok r) : Message r b := message_sound ho h

/-- C73: every serialisation of a recording, with its fields in any order, unknown fields among them, and numbers of any length, is
decoded to that recording. -/
theorem C73_complete (order : List (Bytes × Bytes) → List (Bytes × Bytes)) (ho : ∀ l, (order l).Perm l) (b : Bytes)
    (r : V1.Recording) (h : Message r b) : ∃ r', V1.protoUnmarshal order b = .ok r' ∧ SameMessage r r' := message_complete ho h

theorem sameEvent_join {a b c : V1.CustomEvent} (h : SameEvent a c) (h' : SameEvent b c) : SameEvent a b := by
  obtain ⟨h1, h2, h3, h4⟩ := h
  obtain ⟨k1, k2, k3, k4⟩ := h'
  exact ⟨h1.trans k1.symm, h2.trans k2.symm, h3.trans k3.symm, h4.trans k4.symm⟩

theorem forall₂_join {α : Type} {S : α → α → Prop} (hS : ∀ a b c, S a c → S b c → S a b) :
    {l l' m : List α} → List.Forall₂ S l m → List.Forall₂ S l' m → List.Forall₂ S l l'
  | _, _, _, .nil, .nil => .nil
  | _, _, _, .cons h t, .cons h' t' => .cons (hS _ _ _ h h') (forall₂_join hS t t')

theorem sameSubject_join {a b c : V1.Subject} (h : SameSubject a c) (h' : SameSubject b c) : SameSubject a b := by
  obtain ⟨h1, h2, h3, h4, h5, h6, h7⟩ := h
  obtain ⟨k1, k2, k3, k4, k5, k6, k7⟩ := h'
  exact ⟨h1.trans k1.symm, h2.trans k2.symm, h3.trans k3.symm, forall₂_join (S := SameEvent) (fun _ _ _ => sameEvent_join) h4 k4, h5.trans k5.symm,
    h6.trans k6.symm, h7.trans k7.symm⟩

/-- C73: bytes say at most one recording. -/
theorem C73_unique (b : Bytes) (r r' : V1.Recording) (h : Message r b) (h' : Message r' b) : SameMessage r r' := by
  obtain ⟨x, hx, h1, h2, h3, h4⟩ := C73_complete id (fun _ => .refl _) b r h
  obtain ⟨y, hy, k1, k2, k3, k4⟩ := C73_complete id (fun _ => .refl _) b r' h'
  cases hx.symm.trans hy
  exact ⟨h1.trans k1.symm, h2.trans k2.symm, forall₂_join (S := SameSubject) (fun _ _ _ => sameSubject_join) h3 k3, forall₂_join (S := SameEvent) (fun _ _ _ => sameEvent_join) h4 k4⟩

theorem isList_mem {α : Type} {R : α → Bytes → Prop} {num : Nat} {fs : List (Nat × Value)} {l : List α} (h : IsList R num fs l)
    {x : α} (hx : x ∈ l) : ∃ b, R x b := by
  unfold IsList at h
  generalize bytesOf num fs = bs at h
  induction h with
  | nil => cases hx
  | cons h _ ih =>
    rcases List.mem_cons.mp hx with rfl | hx
    · exact ⟨_, h⟩
    · exact ih hx

theorem event_nodup {e : V1.CustomEvent} (h : ∃ b, Event e b) : (e.data.map (·.1)).Nodup := by
  obtain ⟨b, fs, -, -, -, -, kvs, -, h, -⟩ := h
  exact h

theorem message_maps {r : V1.Recording} {b : Bytes} (h : Message r b) : V1.Maps r := by
  obtain ⟨fs, -, -, ⟨kvs, -, h1, -⟩, h2, h3⟩ := h
  refine ⟨h1, fun e he => event_nodup (isList_mem h3 he), fun s hs => ?_⟩
  obtain ⟨b, fs, -, -, -, ⟨kvs, -, h1, -⟩, h4, -⟩ := isList_mem h2 hs
  exact ⟨h1, fun e he => event_nodup (isList_mem h4 he)⟩

/-! ## Files and examples -/

deriving instance DecidableEq for V1.VectorCapture, V1.LifeEvent, V1.CustomEvent, V1.Subject, V1.Recording

/-- The sample of C45 as a protobuf writer writes it. -/
def v1Bytes : Bytes :=
  [10, 3, 114, 117, 110, 18, 6, 10, 1, 97, 18, 1, 49, 18, 6, 10, 1, 98, 18, 1, 120, 26, 87, 8, 249, 255, 255, 255, 255, 255, 255, 255,
    255, 1, 18, 4, 99, 117, 98, 101, 34, 17, 13, 0, 0, 128, 63, 18, 4, 106, 117, 109, 112, 26, 4, 104, 105, 103, 104, 34, 19, 13, 0,
    0, 0, 64, 18, 4, 108, 97, 110, 100, 34, 6, 10, 1, 107, 18, 1, 49, 42, 0, 42, 7, 13, 0, 0, 128, 63, 16, 3, 50, 5, 21, 0, 0, 128,
    63, 50, 10, 13, 0, 0, 128, 63, 21, 0, 0, 0, 64]

/-- The bytes of the sample are the sample. -/
example : Message v1Sample v1Bytes := C73_value id (fun _ => .refl _) _ _ (by decide +kernel)

/-- Fields in another order, the name twice, a key of the metadata twice, a tag in two bytes, a number in place of the name, and
unknown fields of each wire type, with a group in a group. -/
def oddBytes : Bytes :=
  [0x12, 4, 0x12, 2, 0x31, 0x32, 10, 1, 0x41, 8, 5, 0x12, 5, 0x0A, 0, 0x12, 1, 0x33, 0x8A, 0x00, 1, 0x42, 0x48, 0x80, 0x00, 0x49, 1, 2, 3, 4,
    5, 6, 7, 8, 0x4A, 2, 1, 1, 0x4B, 0x53, 8, 0, 0x54, 0x4C, 0x4D, 1, 2, 3, 4]

example : Message ⟨[0x42], [([], [0x33])], [], []⟩ oddBytes := C73_value id (fun _ => .refl _) _ _ (by decide +kernel)

/-- Not messages: a name that is not UTF-8 (even one that is replaced), field number 0, a group that does not end, the end of a group
that did not begin, wire types 6 and 7, a length that is too large, numbers of more than ten bytes or 64 bits. -/
example : ∀ b ∈ ([[10, 1, 0xFF], [10, 1, 0xFF, 10, 1, 0x41], [0, 0], [0x4B, 8, 0], [0x4C], [0x4B, 0x54], [0x4E], [0x4F], [10, 2, 0x41], [10],
    [8], [8, 255, 255, 255, 255, 255, 255, 255, 255, 255, 2], [8, 255, 255, 255, 255, 255, 255, 255, 255, 255, 129, 0],
    [0x80, 0x80, 0x80, 0x80, 0x10, 0]] : List Bytes), ∀ r, ¬ Message r b := by
  intro b hb r hr
  obtain ⟨r', h, -⟩ := C73_complete id (fun _ => .refl _) b r hr
  have : (V1.protoUnmarshal id b).toOption.isSome = false := by
    clear hr h r r'
    revert b
    decide +kernel
  rw [h] at this
  cases this

theorem parsedMap_iff (X : Ext) (m : List (Bytes × Bytes)) (b : Block) :
    V1.ParsedMap X m b ↔ (m.map fun kv => (kv.1, parsed X kv.2)).Perm b := by
  have key : ∀ (m : List (Bytes × Bytes)) (values : List Property),
      List.Forall₂ (fun kv p => (∀ f, X.parseFloat32 kv.2 = some f → p = .f32 f) ∧ (X.parseFloat32 kv.2 = none → p = .str kv.2))
        m values ↔ values = m.map fun kv => parsed X kv.2 := by
    intro m values
    constructor
    · intro h
      induction h with
      | nil => rfl
      | cons h _ ih =>
        rw [List.map_cons, ← ih]
        congr 1
        unfold parsed
        split
        · rename_i f hf; exact h.1 f hf
        · rename_i hf; exact h.2 hf
    · rintro rfl
      rw [List.forall₂_map_right_iff, List.forall₂_same]
      intro kv _
      unfold parsed
      refine ⟨fun f hf => by rw [hf], fun hf => by rw [hf]⟩
  unfold V1.ParsedMap
  have e : List.zip (m.map (·.1)) (m.map fun kv => parsed X kv.2) = m.map fun kv => (kv.1, parsed X kv.2) := by
    rw [List.zip_map']
  constructor
  · rintro ⟨values, h1, h2⟩
    rw [(key m values).mp h2, e] at h1
    exact h1
  · intro h
    exact ⟨_, by rwa [e], (key m _).mpr rfl⟩

theorem sameEvent_trans {e e' : V1.CustomEvent} {c : F64 × Bytes × Block} (h : SameEvent e e') (h' : V1.SameEvent e' c) :
    V1.SameEvent e c := by
  obtain ⟨h1, h2, h3, h4⟩ := h
  obtain ⟨k1, k2, k3, k4⟩ := h'
  refine ⟨h1 ▸ k1, k2.trans h2.symm, fun hd => ?_, fun hd => ?_⟩
  · rw [h3]
    exact k3 (by rw [hd] at h4; exact h4.nil_eq.symm)
  · exact (h4.map _).trans (k4 fun hd' => hd (by rw [hd'] at h4; exact h4.eq_nil))

theorem forall₂_via {α β : Type} {S : α → α → Prop} {R : α → β → Prop} (h : ∀ a b c, S a b → R b c → R a c) :
    {l m : List α} → {n : List β} → List.Forall₂ S l m → List.Forall₂ R m n → List.Forall₂ R l n
  | _, _, _, .nil, .nil => .nil
  | _, _, _, .cons x t, .cons y t' => .cons (h _ _ _ x y) (forall₂_via h t t')

theorem sameSubject_trans (X : Ext) {s s' : V1.Subject} {r : Rec} (h : SameSubject s s') (h' : V1.SameSubject X s' r) :
    V1.SameSubject X s r := by
  obtain ⟨h1, h2, h3, h4, h5, h6, h7⟩ := h
  obtain ⟨id, ps, rs, es, ls, md, hr, k1, k2, k3, k4, k5, k6⟩ := h'
  rw [parsedMap_iff] at k6
  refine ⟨id, ps, rs, es, ls, md, h2 ▸ hr, h1 ▸ k1, h6 ▸ k2, h7 ▸ k3, forall₂_via (R := V1.SameEvent) (fun _ _ _ => sameEvent_trans) h4 k4, h5 ▸ k5, ?_⟩
  rw [parsedMap_iff]
  exact (h3.map _).trans k6

theorem sameRecording_trans (X : Ext) {v v' : V1.Recording} {r : Rec} (h : SameMessage v v') (h' : V1.SameRecording X v' r) :
    V1.SameRecording X v r := by
  obtain ⟨h1, h2, h3, h4⟩ := h
  obtain ⟨es, cs, md, hr, k1, k2, k3⟩ := h'
  rw [parsedMap_iff] at k3
  refine ⟨es, cs, md, h1 ▸ hr, forall₂_via (R := V1.SameEvent) (fun _ _ _ => sameEvent_trans) h4 k1, forall₂_via (R := V1.SameSubject X) (fun _ _ _ => sameSubject_trans X) h3 k2, ?_⟩
  rw [parsedMap_iff]
  exact (h2.map _).trans k3

/-- C73: a version 1 file whose data decompress to a serialisation of a recording is loaded as that recording, in the sense of C45. -/
theorem C73_loaded (F : Flate) (X : Ext) (order : List (Bytes × Bytes) → List (Bytes × Bytes)) (ho : ∀ l, (order l).Perm l)
    (v : V1.Recording) (len data plain rest : Bytes) (fin : Err) (hl : len.length = 8) (hd : leNat len = data.length)
    (hne : data ≠ []) (hm : data.length ≤ maxAlloc) (hi : X.inflateAll data = .ok plain) (hv : Message v plain) :
    ∃ r, load F X (V1.protoUnmarshal order) (⟨1 :: ([1, 0, 0, 0] ++ (len ++ (data ++ rest))), fin⟩ : Flat) =
      .ok ((r, 13 + data.length, none), ⟨rest, fin⟩) ∧ V1.SameRecording X v r := by
  obtain ⟨v', h1, h2⟩ := C73_complete order ho plain v hv
  exact ⟨_, C54_loaded F X _ v' len data plain rest fin hl hd hne hm hi h1,
    sameRecording_trans X h2 (C45_complete X v' (message_maps (C73_value order ho plain v' h1)))⟩

/-- C73: conversely, a version 1 file that is loaded without error holds data that decompress to a serialisation of a recording, and
the result is that recording. -/
theorem C73_accepted (F : Flate) (X : Ext) (order : List (Bytes × Bytes) → List (Bytes × Bytes)) (ho : ∀ l, (order l).Perm l)
    (body : Bytes) (fin : Err) (r : Rec) (n : Nat) (s : Flat)
    (h : load F X (V1.protoUnmarshal order) (⟨1 :: body, fin⟩ : Flat) = .ok ((r, n, none), s)) :
    ∃ len data plain rest v, body = [1, 0, 0, 0] ++ (len ++ (data ++ rest)) ∧ len.length = 8 ∧ leNat len = data.length ∧
      X.inflateAll data = .ok plain ∧ Message v plain ∧ V1.SameRecording X v r := by
  obtain ⟨v, rest, ⟨len, data, plain, h1, h2, h3, h4, h5⟩, rfl, -⟩ := C54_accepted F X _ body fin r n s h
  have := C73_value order ho plain v h5
  exact ⟨len, data, plain, rest, v, h1, h2, h3, h4, this, C45_complete X v (message_maps this)⟩

/-- The hypotheses of `C73_loaded` and `C73_accepted` hold for the file with the sample, stored by a compression that does nothing. -/
example : (∀ l : List (Bytes × Bytes), (l.reverse).Perm l) ∧ leNat [110, 0, 0, 0, 0, 0, 0, 0] = v1Bytes.length ∧
    oneExt.inflateAll v1Bytes = .ok v1Bytes ∧
    (load storeFlate oneExt (V1.protoUnmarshal List.reverse)
      (⟨1 :: ([1, 0, 0, 0] ++ ([110, 0, 0, 0, 0, 0, 0, 0] ++ (v1Bytes ++ []))), .eof⟩ : Flat)).map (fun a => a.1.2) =
        .ok (123, none) :=
  ⟨List.reverse_perm, by decide, rfl, by decide +kernel⟩

end Rap
