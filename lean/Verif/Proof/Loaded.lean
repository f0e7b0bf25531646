import Verif.Props.Robust
import Verif.Props.V1

/-!
# What `Read` can return

Every recording `Read` returns without an error is built from values the package itself can write.
-/

namespace Rap

/-- A reader obeying the rule of `io.Reader` that no call returns more bytes than were asked for. -/
class Bounded (σ : Type) [Src σ] : Prop where
  read : ∀ n (s : σ), (Src.read n s).1.length ≤ n
  full : ∀ n (s : σ), (Src.readFull n s).1.length ≤ n

instance : Bounded Flat where
  read n s := by
    simp only [Src.read]
    split <;> simp
  full n s := by
    simp only [Src.readFull]
    split
    · simp
    · simp; omega

theorem Chunked.fill_le (n : Nat) (cs : List Bytes) : (Chunked.fill n cs).1.length ≤ n := by
  induction cs generalizing n with
  | nil => simp [Chunked.fill]
  | cons c cs ih =>
    rw [Chunked.fill]
    split
    · simp
    · split
      · have := ih (n - c.length)
        simp only [List.length_append]
        omega
      · simp

instance : Bounded Chunked where
  read n s := by
    simp only [Src.read]
    cases s.chunks with
    | nil => simp
    | cons c cs =>
      simp only
      split
      · assumption
      · simp
  full n s := by
    have := Chunked.fill_le n s.chunks
    simp only [Src.readFull]
    split <;> rename_i h <;> rw [h] at this <;> exact this

theorem ER.doRead_le {σ : Type} [Src σ] [Bounded σ] (n : Nat) (e : ER σ) : (ER.doRead n e).1.length ≤ n := by
  unfold ER.doRead
  split
  · simp
  · exact Bounded.full n e.src

instance {σ : Type} [Src σ] [Bounded σ] : Bounded (ER σ) where
  read n s := ER.doRead_le n s
  full n s := by
    simp only [Src.readFull]
    split
    · simp
    · exact ER.doRead_le n s

namespace Prog

variable {α β σ : Type}

/-- Every result the program can return on a bounded source satisfies `Q`. -/
def Gives (Q : α → Prop) : Prog α → Prop
  | .pure a => Q a
  | .panic _ => True
  | .read n k => ∀ b e, b.length ≤ n → (k b e).Gives Q
  | .readFull n k => ∀ b e, b.length ≤ n → (k b e).Gives Q
  | .erErr k => ∀ e, (k e).Gives Q

theorem Gives.run [Src σ] [Bounded σ] {Q : α → Prop} {p : Prog α} (h : p.Gives Q) {s s' : σ} {a : α}
    (hr : p.run s = .ok (a, s')) : Q a := by
  induction p generalizing s with
  | pure x => simp only [Prog.run, Except.ok.injEq, Prod.mk.injEq] at hr; rw [← hr.1]; exact h
  | panic x => simp [Prog.run] at hr
  | read n k ih => exact ih _ _ (h _ _ (Bounded.read n s)) hr
  | readFull n k ih => exact ih _ _ (h _ _ (Bounded.full n s)) hr
  | erErr k ih => exact ih _ (h _) hr

theorem Gives.bind {Q : α → Prop} {R : β → Prop} {p : Prog α} {f : α → Prog β} (h : p.Gives Q)
    (hf : ∀ a, Q a → (f a).Gives R) : (p.bind f).Gives R := by
  induction p with
  | pure x => exact hf x h
  | panic x => trivial
  | read n k ih => exact fun b e hb => ih b e (h b e hb)
  | readFull n k ih => exact fun b e hb => ih b e (h b e hb)
  | erErr k ih => exact fun e => ih e (h e)

theorem Post.gives {Q : α → Prop} {p : Prog α} (h : p.Post Q) : p.Gives Q := by
  induction p with
  | pure x => exact h
  | panic x => trivial
  | read n k ih => exact fun b e _ => ih b e (h b e)
  | readFull n k ih => exact fun b e _ => ih b e (h b e)
  | erErr k ih => exact fun e => ih e (h e)

theorem Gives.any {R : β → Prop} {p : Prog α} {f : α → Prog β} (hf : ∀ a, (f a).Gives R) : (p.bind f).Gives R :=
  Gives.bind (Post.gives (Post.trivial p)) fun a _ => hf a

theorem Post.ofGo {Q : α → Prop} {g : Go α} (h : ∀ a, g = .ok a → Q a) : (Prog.ofGo g).Post Q := by
  cases g with
  | ok a => exact h a rfl
  | error p => trivial

end Prog

open Prog

/-! ## Metadata -/

theorem post_uvarintLoop (fuel i : Nat) (b : UInt8) (x s t : Nat) (hx : x < 2 ^ 64) :
    (readUvarintLoop fuel i b x s t).Post fun r => r.1 < 2 ^ 64 := by
  induction fuel generalizing i b x s t with
  | zero => exact hx
  | succ fuel ih =>
    intro got err
    cases err with
    | some e => exact hx
    | none =>
      dsimp only
      split
      · split
        · exact hx
        · exact Nat.mod_lt _ (by decide)
      · exact ih _ _ _ _ _ (Nat.mod_lt _ (by decide))

theorem post_uvarint : readUvarint.Post fun r => r.1 < 2 ^ 64 := post_uvarintLoop _ _ _ _ _ _ (by decide)

/-- What the reader of a value of the given code returns. -/
def ReadAs (code : UInt8) (r : Except Err Property) : Prop := ∀ p, r = .ok p → Constructible p ∧ p.code = .ok code

theorem readAs_error (code : UInt8) (e : Err) : ReadAs code (.error e) := fun p h => by cases h

theorem readAs_ok {code : UInt8} {p : Property} (h : Constructible p) (hc : p.code = .ok code) : ReadAs code (.ok p) := by
  intro q hq
  cases hq
  exact ⟨h, hc⟩

theorem newInt_toInt (v : BitVec 32) : Property.newInt v.toInt = .int32 v := by
  simp [Property.newInt]

theorem map_of_forall {α β : Type} {P : β → Prop} {f : α → β} (l : List β) (h : ∀ b ∈ l, P b)
    (hf : ∀ b, P b → ∃ a, b = f a) : ∃ l' : List α, l = l'.map f ∧ ∀ a ∈ l', P (f a) := by
  induction l with
  | nil => exact ⟨[], rfl, by simp⟩
  | cons b l ih =>
    obtain ⟨a, ha⟩ := hf b (h b (by simp))
    obtain ⟨l', rfl, hl'⟩ := ih fun x hx => h x (by simp [hx])
    exact ⟨a :: l', by simp [ha], by
      intro x hx
      rcases List.mem_cons.1 hx with rfl | hx
      · rw [← ha]; exact h b (by simp)
      · exact hl' x hx⟩

theorem constructible_array (c : UInt8) (l : List Property) (h : ∀ p ∈ l, Constructible p ∧ p.code = .ok c)
    (hc : c = 0 ∨ c = 1 ∨ c = 2 ∨ c = 6 ∨ c = 7 ∨ c = 11 ∨ c = 12) : Constructible (.array c l) := by
  have key : ∀ p : Property, Constructible p ∧ p.code = .ok c →
      (c = 0 → ∃ s, p = .str s) ∧ (c = 1 → ∃ i, p = .newInt i) ∧ (c = 2 → ∃ f, p = .f32 f) ∧
      (c = 6 → ∃ v : F64 × F64, p = .vec2 v.1 v.2) ∧ (c = 7 → ∃ v : F64 × F64 × F64, p = .vec3 v.1 v.2.1 v.2.2) ∧
      (c = 11 → ∃ b, p = .block b) ∧ (c = 12 → ∃ t, p = .time t) := by
    rintro p ⟨hp, hcode⟩
    cases hp <;>
      simp only [Property.code, Property.newInt, Property.newStringArray, Property.newIntArray, Property.newFloat32Array,
        Property.newVector2Array, Property.newVector3Array, Property.newTimestampArray, Property.newMetadataArray,
        Property.newBinaryArray, Property.newBoolArray, Except.ok.injEq] at hcode <;> (try split at hcode) <;> subst hcode <;>
      refine ⟨?_, ?_, ?_, ?_, ?_, ?_, ?_⟩ <;> first
        | (intro h; exact absurd h (by decide))
        | (intro _; exact ⟨_, rfl⟩)
        | (intro _; exact ⟨(_, _), rfl⟩)
        | (intro _; exact ⟨(_, _, _), rfl⟩)
  rcases hc with rfl | rfl | rfl | rfl | rfl | rfl | rfl
  · obtain ⟨l', rfl, -⟩ := map_of_forall l h fun p hp => (key p hp).1 rfl
    exact .stringArray l'
  · obtain ⟨l', rfl, -⟩ := map_of_forall l h fun p hp => (key p hp).2.1 rfl
    exact .intArray l'
  · obtain ⟨l', rfl, -⟩ := map_of_forall l h fun p hp => (key p hp).2.2.1 rfl
    exact .float32Array l'
  · obtain ⟨l', rfl, -⟩ := map_of_forall (f := fun v : F64 × F64 => Property.vec2 v.1 v.2) l h
      fun p hp => (key p hp).2.2.2.1 rfl
    exact .vector2Array l'
  · obtain ⟨l', rfl, -⟩ := map_of_forall (f := fun v : F64 × F64 × F64 => Property.vec3 v.1 v.2.1 v.2.2) l h
      fun p hp => (key p hp).2.2.2.2.1 rfl
    exact .vector3Array l'
  · obtain ⟨l', rfl, hl⟩ := map_of_forall l h fun p hp => (key p hp).2.2.2.2.2.1 rfl
    exact .metadataArray l' fun b hb => (hl b hb).1
  · obtain ⟨l', rfl, -⟩ := map_of_forall l h fun p hp => (key p hp).2.2.2.2.2.2 rfl
    exact .timestampArray l'

theorem GoodBlock.nil : GoodBlock [] := ⟨by simp, by simp⟩

theorem GoodBlock.set {b : Block} (h : GoodBlock b) (k : Bytes) {p : Property} (hp : Constructible p) :
    GoodBlock (mapSet b k p) := by
  refine ⟨nodup_mapSet h.1 _ _, fun kv hkv => ?_⟩
  rcases mem_mapSet hkv with rfl | h'
  · exact hp
  · exact h.2 kv h'

theorem Prog.Post.imp {α : Type} {Q R : α → Prop} {p : Prog α} (h : p.Post Q) (hi : ∀ a, Q a → R a) : p.Post R := by
  induction p with
  | pure x => exact hi x h
  | panic x => trivial
  | read n k ih => exact fun b e => ih b e (h b e)
  | readFull n k ih => exact fun b e => ih b e (h b e)
  | erErr k ih => exact fun e => ih e (h e)

/-- A value that can be built, or an error. -/
def ReadGood (r : Except Err Property) : Prop := ∀ p, r = .ok p → Constructible p

theorem post_propertyWith {rd : UInt8 → Prog (Except Err Property)} (h : ∀ c, (rd c).Post (ReadAs c)) :
    (readPropertyWith rd).Post ReadGood := by
  intro got err
  cases err with
  | some e => exact fun p h => by cases h
  | none =>
    have := h (got.headD 0)
    exact Post.imp this fun r hr p hp => (hr p hp).1

theorem post_blockLoop {rd : UInt8 → Prog (Except Err Property)} (h : ∀ c, (rd c).Post (ReadAs c)) (keys : List Bytes)
    (acc : Block) (ha : GoodBlock acc) : (readBlockLoop rd keys acc).Post (ReadAs 11) := by
  induction keys generalizing acc with
  | nil => exact readAs_ok (.block acc ha.1 ha.2) rfl
  | cons k keys ih =>
    refine Post.bind (post_propertyWith h) fun r hr => ?_
    cases r with
    | error e => exact readAs_error _ _
    | ok p => exact ih _ (ha.set k (hr p rfl))

theorem post_elemLoop {rd : Prog (Except Err Property)} {c : UInt8} (h : rd.Post (ReadAs c))
    (hc : c = 0 ∨ c = 1 ∨ c = 2 ∨ c = 6 ∨ c = 7 ∨ c = 11 ∨ c = 12) (n : Nat) (acc : List Property)
    (ha : ∀ p ∈ acc, Constructible p ∧ p.code = .ok c) : (readElemLoop rd c n acc).Post (ReadAs (13 + c)) := by
  induction n generalizing acc with
  | zero => exact readAs_ok (constructible_array c _ (by simpa using ha) hc) rfl
  | succ n ih =>
    refine Post.bind h fun r hr => ?_
    cases r with
    | error e => exact readAs_error _ _
    | ok p =>
      refine ih _ fun q hq => ?_
      rcases List.mem_cons.1 hq with rfl | hq
      · exact hr _ rfl
      · exact ha q hq

theorem post_ite {α : Type} {Q : α → Prop} {c : Prop} [Decidable c] {p q : Prog α} (h1 : c → p.Post Q)
    (h2 : ¬ c → q.Post Q) : (if c then p else q).Post Q := by
  by_cases h : c
  · rw [if_pos h]; exact h1 h
  · rw [if_neg h]; exact h2 h

theorem post_propData (fuel : Nat) (c : UInt8) : (readPropData fuel c).Post (ReadAs c) := by
  induction fuel generalizing c with
  | zero => trivial
  | succ fuel ih =>
    rw [readPropData]
    refine post_ite (fun h => ?_) fun _ => ?_
    · subst h
      refine Post.any ?_
      rintro ⟨s, n, err⟩
      cases err with
      | some e => exact readAs_error _ _
      | none => exact readAs_ok (.str s) rfl
    refine post_ite (fun h => ?_) fun _ => ?_
    · subst h
      refine Post.any fun r => ?_
      cases r with
      | error e => exact readAs_error _ _
      | ok v => exact readAs_ok (.int _) rfl
    refine post_ite (fun h => ?_) fun _ => ?_
    · subst h
      refine Post.any fun r => ?_
      cases r with
      | error e => exact readAs_error _ _
      | ok v => exact readAs_ok (.f32 _) rfl
    refine post_ite (fun h => ?_) fun _ => ?_
    · subst h; exact readAs_ok (.bool true) rfl
    refine post_ite (fun h => ?_) fun _ => ?_
    · subst h; exact readAs_ok (.bool false) rfl
    refine post_ite (fun h => ?_) fun _ => ?_
    · subst h
      intro got err
      cases err with
      | some e => exact readAs_error _ _
      | none => exact readAs_ok (.byte _) rfl
    refine post_ite (fun h => ?_) fun _ => ?_
    · subst h
      refine Post.any fun r => ?_
      cases r with
      | error e => exact readAs_error _ _
      | ok v => exact readAs_ok (.vec2 _ _) rfl
    refine post_ite (fun h => ?_) fun _ => ?_
    · subst h
      refine Post.any fun r => ?_
      cases r with
      | error e => exact readAs_error _ _
      | ok v => exact readAs_ok (.vec3 _ _ _) rfl
    refine post_ite (fun h => ?_) fun _ => ?_
    · subst h
      refine Post.any ?_
      rintro ⟨keys, n, err⟩
      cases err with
      | some e => exact readAs_error _ _
      | none => exact post_blockLoop ih keys [] .nil
    refine post_ite (fun h => ?_) fun _ => ?_
    · subst h
      refine Post.any fun r => ?_
      cases r with
      | error e => exact readAs_error _ _
      | ok v => exact readAs_ok (.time _) rfl
    refine post_ite (fun h => ?_) fun _ => ?_
    · subst h
      refine Post.any ?_
      rintro ⟨all, n, err⟩
      cases err with
      | some e => exact readAs_error _ _
      | none => exact readAs_ok (.rawBools all) rfl
    refine post_ite (fun h => ?_) fun _ => ?_
    · subst h
      refine Post.any ?_
      rintro ⟨all, n, err⟩
      cases err with
      | some e => exact readAs_error _ _
      | none => exact readAs_ok (.binaryArray all) rfl
    refine post_ite (fun h => ?_) fun _ => ?_
    · refine Post.any ?_
      rintro ⟨len, n, err⟩
      cases err with
      | some e => exact readAs_error _ _
      | none =>
        refine Post.any fun _ => ?_
        have := post_elemLoop (c := c - 13) (ih (c - 13))
          (by rcases h with rfl | rfl | rfl | rfl | rfl | rfl | rfl <;> decide) len [] (by simp)
        rwa [show 13 + (c - 13) = c by rcases h with rfl | rfl | rfl | rfl | rfl | rfl | rfl <;> rfl] at this
    · exact readAs_error _ _

theorem post_property (fuel : Nat) : (readProperty fuel).Post ReadGood := post_propertyWith (post_propData fuel)

/-- A good block, or an error. -/
def ReadBlock (r : Except Err Block) : Prop := ∀ b, r = .ok b → GoodBlock b

theorem post_mdLoop (fuel : Nat) (keys : List Bytes) (is : List Nat) (acc : Block) (ha : GoodBlock acc) :
    (readMdLoop fuel keys is acc).Post ReadBlock := by
  induction is generalizing acc with
  | nil => intro b hb; cases hb; exact ha
  | cons i is ih =>
    rw [readMdLoop]
    split
    · trivial
    · refine Post.bind (post_property fuel) fun r hr => ?_
      cases r with
      | error e => exact fun b hb => by cases hb
      | ok p => exact ih _ (ha.set _ (hr p rfl))

theorem post_metadata (fuel : Nat) (keys : List Bytes) : (readMetadata fuel keys).Post ReadBlock := by
  refine Post.any ?_
  rintro ⟨is, n, err⟩
  cases err with
  | some e => exact fun b hb => by cases hb
  | none => exact post_mdLoop fuel keys is [] .nil

theorem ReadBlock.orEmpty {r : Except Err Block} (h : ReadBlock r) : GoodBlock (blockOrEmpty r) := by
  cases r with
  | error e => exact .nil
  | ok b => exact h b rfl

/-! ## Collections -/

theorem post_eventBlock (fuel : Nat) (keys : List Bytes) (is : List Nat) (acc : Block) (ha : GoodBlock acc) :
    (eventBlock fuel keys is acc).Post ReadBlock := by
  induction is generalizing acc with
  | nil => intro b hb; cases hb; exact ha
  | cons i is ih =>
    refine Post.bind (post_property fuel) fun r hr => ?_
    cases r with
    | error e => exact fun b hb => by cases hb
    | ok p =>
      dsimp only
      split
      · trivial
      · exact ih _ (ha.set _ (hr p rfl))

theorem post_eventGood (fuel : Nat) (names keys : List Bytes) (ts : List F64) :
    (eventCaptures fuel names keys ts).Post fun r => ∀ caps, r = .ok caps → ∀ cap ∈ caps, GoodBlock cap.2.2 := by
  induction ts with
  | nil => intro caps h; cases h; simp
  | cons t ts ih =>
    refine Post.any ?_
    rintro ⟨i, n, err⟩
    cases err with
    | some e => exact fun b hb => by cases hb
    | none =>
      refine Post.any ?_
      rintro ⟨is, n, err⟩
      cases err with
      | some e => exact fun b hb => by cases hb
      | none =>
        refine Post.bind (post_eventBlock fuel keys is [] .nil) fun r hr => ?_
        cases r with
        | error e => exact fun b hb => by cases hb
        | ok block =>
          dsimp only
          split
          · trivial
          · refine Post.bind ih fun rest hrest => ?_
            cases rest with
            | error e => exact fun b hb => by cases hb
            | ok rest =>
              intro caps h
              cases h
              intro cap hcap
              rcases List.mem_cons.1 hcap with rfl | hcap
              · exact hr _ rfl
              · exact hrest _ rfl cap hcap

/-- What a decoder of the package makes: a collection of its own kind, with metadata that can be built. -/
theorem builtin_decode_good (b : Builtin) (name header body : Bytes) (times : List F64) (c : Coll) (e : Option Err)
    (h : b.encoder.decode name header body times = .ok (some c, e)) :
    GoodColl c ∧ Native c ∧ b.encoder.sig = c.sig := by
  cases b with
  | event =>
    simp only [Builtin.encoder, eventEncoder, eventDecode, Bind.bind, Except.bind] at h
    split at h
    · simp at h
    · rename_i v hv
      obtain ⟨names, keys, err⟩ := v
      cases err with
      | some x => simp at h
      | none =>
        simp only at h
        split at h
        · simp at h
        · rename_i v hv
          cases v with
          | error x => simp at h
          | ok caps =>
            simp only [Except.ok.injEq, Prod.mk.injEq, Option.some.injEq] at h
            rw [← h.1]
            exact ⟨(post_eventGood _ _ _ _).onBytes hv caps rfl, trivial, rfl⟩
  | enum =>
    simp only [Builtin.encoder, enumEncoder, enumDecode, Bind.bind, Except.bind] at h
    split at h
    · simp at h
    · rename_i v hv
      obtain ⟨names, n, err⟩ := v
      cases err with
      | some x => simp at h
      | none =>
        simp only at h
        split at h
        · simp at h
        · simp only [Except.ok.injEq, Prod.mk.injEq, Option.some.injEq] at h
          rw [← h.1]
          exact ⟨trivial, trivial, rfl⟩
  | position t =>
    simp only [Builtin.encoder, positionEncoder, positionDecode, Bind.bind, Except.bind] at h
    split at h
    · simp at h
    · rename_i v hv
      cases v with
      | error x => simp at h
      | ok caps =>
        simp only [Except.ok.injEq, Prod.mk.injEq, Option.some.injEq] at h
        rw [← h.1]
        exact ⟨trivial, trivial, rfl⟩
  | euler t =>
    simp only [Builtin.encoder, eulerEncoder, eulerDecode, Bind.bind, Except.bind] at h
    split at h
    · simp at h
    · rename_i v hv
      cases v with
      | error x => simp at h
      | ok caps =>
        simp only [Except.ok.injEq, Prod.mk.injEq, Option.some.injEq] at h
        rw [← h.1]
        exact ⟨trivial, trivial, rfl⟩
  | float t =>
    simp only [Builtin.encoder, floatEncoder, floatDecode, Bind.bind, Except.bind] at h
    split at h
    · simp at h
    · split at h
      · simp at h
      · simp only [Except.ok.injEq, Prod.mk.injEq, Option.some.injEq] at h
        rw [← h.1]
        exact ⟨trivial, trivial, rfl⟩

/-! ## Recordings -/

/-- A recording whose collections, where not nil, satisfy `S` and whose other parts are well formed. -/
inductive LoadedRec (S : Coll → Prop) : Rec → Prop where
  | mk (id name : Bytes) (colls : List (Option Coll)) (recs : List Rec) (md : Block) (bins : List Bin)
      (refs : List BinRef) : (∀ c, some c ∈ colls → S c) → (∀ r ∈ recs, LoadedRec S r) → GoodBlock md →
      (∀ b ∈ bins, GoodBin b) → (∀ r ∈ refs, GoodRef r) →
      LoadedRec S (.mk id name colls recs md (bins.map some) (refs.map some))

theorem post_streams (T : RTables) (S : Coll → Prop) (hS : ∀ e ∈ T.encs, ∀ name body times c err,
    e.1.decode name e.2 body times = .ok (some c, err) → S c) (n : Nat) :
    (readStreams T n).Post fun l => ∀ c, some c ∈ l → S c := by
  induction n with
  | zero => intro c h; simp at h
  | succ n ih =>
    refine Post.any fun _ => Post.any fun nm => Post.any fun tm => Post.any fun bd => ?_
    obtain ⟨name, _, _⟩ := nm
    obtain ⟨times, _⟩ := tm
    obtain ⟨body, _, _⟩ := bd
    dsimp only
    split
    · trivial
    · rename_i enc header hx
      refine Post.bind (Q := fun r => ∀ c, r.1 = some c → S c) (Post.ofGo ?_) ?_
      · rintro ⟨c, err⟩ hd c' hc
        dsimp only at hc
        subst hc
        exact hS _ (List.mem_of_getElem? hx) _ _ _ _ _ hd
      · rintro ⟨c, err⟩ hc
        refine Post.bind ih fun rest hrest => ?_
        intro c' hc'
        rcases List.mem_cons.1 hc' with h | h
        · exact hc c' h.symm
        · exact hrest c' h

theorem post_refs (T : RTables) (n : Nat) :
    (readRefs T n).Post fun l => ∃ l' : List BinRef, l = l'.map some ∧ ∀ r ∈ l', GoodRef r := by
  induction n with
  | zero => exact ⟨[], rfl, by simp⟩
  | succ n ih =>
    refine Post.any fun _ => Post.any fun _ => Post.bind post_uvarint fun sz hsz =>
      Post.bind (post_metadata _ _) fun md hmd => Post.bind ih ?_
    rintro _ ⟨l', rfl, hl⟩
    refine ⟨⟨_, _, sz.1, blockOrEmpty md⟩ :: l', rfl, fun r hr => ?_⟩
    rcases List.mem_cons.1 hr with rfl | hr
    · exact ⟨hmd.orEmpty, hsz⟩
    · exact hl r hr

theorem gives_bins (T : RTables) (n : Nat) :
    (readBins T n).Gives fun l => ∃ l' : List Bin, l = l'.map some ∧ ∀ b ∈ l', GoodBin b := by
  induction n with
  | zero => exact ⟨[], rfl, by simp⟩
  | succ n ih =>
    refine Gives.any fun _ => Gives.bind post_uvarint.gives fun sz hsz =>
      Gives.bind (post_metadata _ _).gives fun md hmd => Gives.any fun _ => ?_
    intro got e hgot
    refine Gives.bind ih ?_
    rintro _ ⟨l', rfl, hl⟩
    refine ⟨newBinary _ _ _ :: l', rfl, fun b hb => ?_⟩
    rcases List.mem_cons.1 hb with rfl | hb
    · refine ⟨hmd.orEmpty, ?_⟩
      have : (got ++ List.replicate (sz.1 - got.length) (0 : UInt8)).length = sz.1 := by
        simp only [List.length_append, List.length_replicate]; omega
      show u64 _ = _
      rw [this, u64, Nat.mod_eq_of_lt hsz]
      exact this.symm
    · exact hl b hb

theorem gives_children {P : Rec → Prop} {rd : Prog (Except Err Rec)}
    (h : rd.Gives fun r => ∀ rec, r = .ok rec → P rec) (n : Nat) :
    (readChildren rd n).Gives fun r => ∀ recs, r = .ok recs → ∀ x ∈ recs, P x := by
  induction n with
  | zero => intro recs hr; cases hr; simp
  | succ n ih =>
    refine Gives.bind h fun r hr => ?_
    cases r with
    | error e => exact fun recs h => by cases h
    | ok r =>
      refine Gives.bind ih fun rs hrs => ?_
      cases rs with
      | error e => exact fun recs h => by cases h
      | ok rs =>
        intro recs h
        cases h
        intro x hx
        rcases List.mem_cons.1 hx with rfl | hx
        · exact hr _ rfl
        · exact hrs _ rfl x hx

theorem gives_buildRec (T : RTables) (S : Coll → Prop) (hS : ∀ e ∈ T.encs, ∀ name body times c err,
    e.1.decode name e.2 body times = .ok (some c, err) → S c) (fuel : Nat) :
    (buildRec T fuel).Gives fun r => ∀ rec, r = .ok rec → LoadedRec S rec := by
  induction fuel with
  | zero => trivial
  | succ fuel ih =>
    refine Gives.any fun _ => Gives.any fun _ => Gives.bind (post_metadata _ _).gives fun md hmd => ?_
    cases md with
    | error e => exact fun recs h => by cases h
    | ok md =>
      refine Gives.any fun _ => Gives.any fun _ => Gives.bind (post_streams T S hS _).gives fun colls hcolls =>
        Gives.any fun _ => Gives.any fun _ => Gives.bind (post_refs T _).gives ?_
      rintro _ ⟨refs, rfl, hrefs⟩
      refine Gives.any fun _ => Gives.any fun _ => Gives.bind (gives_bins T _) ?_
      rintro _ ⟨bins, rfl, hbins⟩
      refine Gives.any fun _ => Gives.any fun _ => Gives.bind (gives_children ih _) fun recs hrecs => ?_
      cases recs with
      | error e => exact fun recs h => by cases h
      | ok recs =>
        intro e
        cases e with
        | some e => exact fun recs h => by cases h
        | none =>
          intro rec h
          cases h
          exact .mk _ _ _ _ _ _ _ hcolls (hrecs _ rfl) (hmd _ rfl) hbins hrefs

theorem loaded_v1 (S : Coll → Prop) : (rec : Rec) → GoodRec rec → (∀ c ∈ rec.flat, S c) → LoadedRec S rec := by
  intro rec h
  induction h with
  | mk id name colls recs md bins refs hc hr hmd hb href ih =>
    intro hS
    refine .mk _ _ _ _ _ _ _ (fun c hm => hS c ?_) (fun r hm => ih r hm fun c hc => hS c ?_) hmd hb href
    · rw [Rec.flat, List.mem_append]
      left
      simpa using hm
    · rw [Rec.flat, List.mem_append]
      right
      clear ih hS hr
      induction recs with
      | nil => cases hm
      | cons x recs ih =>
        rw [Rec.flatList, List.mem_append]
        rcases List.mem_cons.1 hm with rfl | hm
        · exact .inl hc
        · exact .inr (ih hm)

theorem post_readEncoders (reg : List Encoder) :
    (readEncoders reg).Post fun r => ∀ es, r.1 = .ok es → ∀ e ∈ es, e ∈ reg := by
  refine Post.any ?_
  rintro ⟨sigs, n, err⟩
  cases err with
  | some e => exact fun es h => by cases h
  | none =>
    refine Post.any ?_
    rintro ⟨vs, n, err⟩
    cases err with
    | some e => exact fun es h => by cases h
    | none => exact fun es h => findEncoders_mem h

/-- Version 1: the result is a converted recording. -/
theorem post_v1 (X : Ext) (unmarshal : Bytes → Except Err V1.Recording) :
    (V1.readRecording X unmarshal).Post fun r => r.2.2 = none → ∃ v, r.1 = V1.protobufToStd X v := by
  intro b err
  cases err with
  | some e => exact fun h => by simp at h
  | none =>
    dsimp only
    split
    · exact fun h => by simp at h
    split
    · exact fun h => by simp at h
    intro b8 err
    cases err with
    | some e => exact fun h => by simp at h
    | none =>
      dsimp only
      split
      · exact fun h => by simp at h
      refine Post.any fun _ data err => ?_
      cases err with
      | some e => exact fun h => by simp at h
      | none =>
        dsimp only
        split
        · exact fun h => by simp at h
        split
        · exact fun h => by simp at h
        split
        · exact fun h => by simp at h
        · exact fun _ => ⟨_, rfl⟩

theorem post_prelude (X : Ext) (unmarshal : Bytes → Except Err V1.Recording) (reg : List Encoder) :
    (readPrelude X unmarshal reg).Post fun r =>
      (∀ rec n, r = .inl (rec, n, none) → ∃ v, rec = V1.protobufToStd X v) ∧
      (∀ es f t, r = .inr (es, f, t) → ∀ e ∈ es, e ∈ reg) := by
  intro got err
  cases err with
  | some e => exact ⟨fun _ _ h => by simp at h, fun _ _ _ h => by simp at h⟩
  | none =>
    dsimp only
    split
    · refine Post.bind (post_v1 X unmarshal) ?_
      rintro ⟨r, n, e⟩ hr
      refine ⟨fun rec n' h => ?_, fun _ _ _ h => by simp at h⟩
      simp only [Sum.inl.injEq, Prod.mk.injEq] at h
      obtain ⟨rfl, -, rfl⟩ := h
      exact hr rfl
    split
    · exact ⟨fun _ _ h => by simp at h, fun _ _ _ h => by simp at h⟩
    refine Post.bind (post_readEncoders reg) ?_
    rintro ⟨r, n⟩ hr
    cases r with
    | error e => exact ⟨fun _ _ h => by simp at h, fun _ _ _ h => by simp at h⟩
    | ok encs =>
      intro got err
      cases err with
      | some e => exact ⟨fun _ _ h => by simp at h, fun _ _ _ h => by simp at h⟩
      | none =>
        refine ⟨fun _ _ h => by simp at h, fun es f t h => ?_⟩
        simp only [Sum.inr.injEq, Prod.mk.injEq] at h
        rw [← h.1]
        exact hr _ rfl

theorem readBody_loaded {σ : Type} [Drain σ] [Bounded σ] (encs : List Encoder) (S : Coll → Prop)
    (hS : ∀ e ∈ encs, ∀ name header body times c err, e.decode name header body times = .ok (some c, err) → S c)
    (total : Nat) (s s' : σ) (rec : Rec) (n : Nat) (h : readBody encs total s = .ok ((rec, n, none), s')) :
    LoadedRec S rec := by
  unfold readBody at h
  cases ht : (readTables encs total).run s with
  | error q => simp [ht, Bind.bind, Except.bind] at h
  | ok r =>
    obtain ⟨⟨r, t⟩, s1⟩ := r
    rw [ht] at h
    cases r with
    | error e =>
      simp only [Bind.bind, Except.bind, Except.ok.injEq, Prod.mk.injEq] at h
      exact absurd h.1.2.2 (by simp)
    | ok hk =>
      obtain ⟨headers, keys⟩ := hk
      simp only [Bind.bind, Except.bind] at h
      split at h
      · simp at h
      · rename_i v hv
        obtain ⟨r, er⟩ := v
        cases r with
        | error e => simp at h
        | ok rec' =>
          simp only [Except.ok.injEq, Prod.mk.injEq] at h
          rw [← h.1.1]
          refine (gives_buildRec _ S ?_ _).run hv rec' rfl
          rintro ⟨e, hd⟩ he name body times c err hdec
          exact hS e (List.of_mem_zip he).1 _ _ _ _ _ _ hdec

/-- The signatures of the collections in converted version 1 files. -/
def v1Sigs : List Bytes := [sigEvent, sigPosition, sigEuler, sigEnum]

/-- What is known of a collection `Read` returns. -/
def LoadedColl (rs : List Builtin) (c : Coll) : Prop :=
  GoodColl c ∧ Native c ∧ ((∃ b ∈ rs, b.encoder.sig = c.sig) ∨ c.sig ∈ v1Sigs)

theorem GoodRec.flat_good {rec : Rec} (h : GoodRec rec) : ∀ c ∈ rec.flat, GoodColl c := by
  induction h with
  | mk id name colls recs md bins refs hc hr hmd hb href ih =>
    intro c hm
    rw [Rec.flat, List.mem_append] at hm
    rcases hm with hm | hm
    · exact hc c (by simpa using hm)
    · obtain ⟨r, h1, h2⟩ := mem_flatList hm
      exact ih r h1 c h2

theorem read_loaded {σ : Type} [Drain σ] [Bounded σ] (F : Flate) (X : Ext)
    (unmarshal : Bytes → Except Err V1.Recording) (rs : List Builtin) (s s' : σ) (rec : Rec) (n : Nat)
    (h : read F X unmarshal (rs.map Builtin.encoder) s = .ok ((rec, n, none), s')) : LoadedRec (LoadedColl rs) rec := by
  have hS : ∀ es : List Encoder, (∀ e ∈ es, e ∈ rs.map Builtin.encoder) → ∀ e ∈ es, ∀ name header body times c err,
      e.decode name header body times = .ok (some c, err) → LoadedColl rs c := by
    intro es hes e he name header body times c err hd
    obtain ⟨b, hb, rfl⟩ := List.mem_map.1 (hes e he)
    obtain ⟨h1, h2, h3⟩ := builtin_decode_good b _ _ _ _ _ _ hd
    exact ⟨h1, h2, .inl ⟨b, hb, h3⟩⟩
  unfold read at h
  cases hp : (readPrelude X unmarshal (rs.map Builtin.encoder)).run s with
  | error q => simp [hp, Bind.bind, Except.bind] at h
  | ok r =>
    obtain ⟨r, s1⟩ := r
    have hpost := (post_prelude X unmarshal (rs.map Builtin.encoder)).run hp
    rw [hp] at h
    cases r with
    | inl r =>
      simp only [Bind.bind, Except.bind, Except.ok.injEq, Prod.mk.injEq] at h
      obtain ⟨v, rfl⟩ := hpost.1 rec n (by rw [h.1])
      refine loaded_v1 _ _ (good_v1 X v) fun c hc => ?_
      obtain ⟨h1, h2⟩ := flat_v1 X v c hc
      exact ⟨(good_v1 X v).flat_good c hc, h1, .inr (by simpa [v1Sigs] using h2)⟩
    | inr r =>
      obtain ⟨encs, flag, total⟩ := r
      have hes := hS encs (hpost.2 _ _ _ rfl)
      simp only [Bind.bind, Except.bind] at h
      split at h
      · split at h
        · simp at h
        · rename_i v hv
          obtain ⟨v, sv⟩ := v
          simp only [Except.ok.injEq, Prod.mk.injEq] at h
          rw [h.1] at hv
          exact readBody_loaded _ _ hes _ _ _ _ _ hv
      · exact readBody_loaded _ _ hes _ _ _ _ _ h

end Rap
