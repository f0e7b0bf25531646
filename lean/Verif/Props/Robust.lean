import Verif.Proof.Safe
import Verif.Props.File
import Verif.Spec.Query

/-! # C35, C36, C37: reading arbitrary input -/

namespace Rap

open Prog

theorem findEncoder_mem {sig : Bytes} {v : Nat} {registered : List Encoder} {found : Option Encoder} {e : Encoder}
    (h : findEncoder sig v registered found = .ok e) : e ∈ registered ∨ found = some e := by
  induction registered generalizing found with
  | nil =>
    cases found with
    | none => simp [findEncoder] at h
    | some x => simp only [findEncoder, Except.ok.injEq] at h; exact .inr (by rw [h])
  | cons x xs ih =>
    simp only [findEncoder] at h
    split at h
    · split at h
      · rcases ih h with h | h
        · exact .inl (by simp [h])
        · simp only [Option.some.injEq] at h; exact .inl (by simp [h])
      · simp at h
    · rcases ih h with h | h
      · exact .inl (by simp [h])
      · exact .inr h

theorem findEncoders_mem {registered : List Encoder} {sigs : List Bytes} {vs : List Nat} {encs : List Encoder}
    (h : findEncoders registered sigs vs = .ok encs) : ∀ e ∈ encs, e ∈ registered := by
  induction sigs generalizing vs encs with
  | nil => simp only [findEncoders, Except.ok.injEq] at h; subst h; simp
  | cons s sigs ih =>
    cases vs with
    | nil => simp only [findEncoders, Except.ok.injEq] at h; subst h; simp
    | cons v vs =>
      simp only [findEncoders] at h
      split at h
      · simp at h
      · rename_i e he
        split at h
        · simp at h
        · rename_i es hes
          simp only [Except.ok.injEq] at h
          subst h
          intro x hx
          rcases List.mem_cons.1 hx with rfl | hx
          · exact (findEncoder_mem he).elim id (by simp)
          · exact ih hes x hx

theorem post_readPrelude (X : Ext) (unmarshal : Bytes → Except Err V1.Recording) (registered : List Encoder) :
    (readPrelude X unmarshal registered).Post fun r => ∀ encs f n, r = .inr (encs, f, n) → ∀ e ∈ encs, e ∈ registered := by
  intro got err
  cases err with
  | some e => exact fun _ _ _ h => by simp at h
  | none =>
    dsimp only
    split
    · exact Post.any fun r => by obtain ⟨a, b, c⟩ := r; exact fun _ _ _ h => by simp at h
    split
    · exact fun _ _ _ h => by simp at h
    have : (readEncoders registered).Post fun r => ∀ encs, r.1 = .ok encs → ∀ e ∈ encs, e ∈ registered := by
      refine Post.any ?_
      rintro ⟨sigs, n, err⟩
      cases err with
      | some e => exact fun _ h => by simp at h
      | none =>
        refine Post.any ?_
        rintro ⟨vs, n, err⟩
        cases err with
        | some e => exact fun _ h => by simp at h
        | none => exact fun encs h => findEncoders_mem h
    refine Post.bind this ?_
    rintro ⟨r, n⟩ hr
    cases r with
    | error e => exact fun _ _ _ h => by simp at h
    | ok encs =>
      intro got err
      cases err with
      | some e => exact fun _ _ _ h => by simp at h
      | none =>
        intro encs' f n h
        simp only [Sum.inr.injEq, Prod.mk.injEq] at h
        rw [← h.1]
        exact hr encs rfl

theorem readBody_expected {σ : Type} [Finite σ] (encs : List Encoder) (he : ∀ e ∈ encs, DecodesSafely e) (total : Nat)
    (s : σ) :
    (∀ p, readBody encs total s = .error p → Expected p) ∧
    (∀ rec n s', readBody encs total s = .ok ((rec, n, none), s') → ∃ s'' : σ, rec.depth ≤ (Drain.rest s'').1.length ∧
      ∃ x, (readTables encs total).run s = .ok (x, s'')) := by
  unfold readBody
  cases ht : (readTables encs total).run s with
  | error q =>
    refine ⟨fun p h => ?_, fun rec n s' h => by simp [Bind.bind, Except.bind] at h⟩
    simp only [Bind.bind, Except.bind, Except.error.injEq] at h
    rw [← h]; exact (op_readTables encs total).run ht
  | ok r =>
    obtain ⟨⟨r, t⟩, s1⟩ := r
    cases r with
    | error e =>
      refine ⟨fun p h => by simp [Bind.bind, Except.bind] at h, fun rec n s' h => ?_⟩
      simp only [Bind.bind, Except.bind, Except.ok.injEq, Prod.mk.injEq] at h
      exact absurd h.1.2.2 (by simp)
    | ok hk =>
      obtain ⟨headers, keys⟩ := hk
      simp only [Bind.bind, Except.bind]
      have hT : RTables.Safe ⟨keys, encs.zip headers, (Drain.rest s1).1.length + 2⟩ :=
        fun x hx => he _ (List.of_mem_zip hx).1
      have hm : erMeasure (ER.new s1) = (Drain.rest s1).1.length := by simp [erMeasure, ER.new]
      have hs := Safe.run measured_er (s := ER.new s1) (safe_buildRec _ hT ((Drain.rest s1).1.length + 2)
        (erMeasure (ER.new s1)) (by omega) (by simp only; omega))
      rcases hs with ⟨r, er, h1, h2, h3⟩ | ⟨x, h1, h2⟩
      · rw [h1]
        cases r with
        | error e => exact ⟨fun p h => by simp at h, fun rec n s' h => by simp at h⟩
        | ok rec =>
          refine ⟨fun p h => by simp at h, fun rec' n s' h => ⟨s1, ?_, _, rfl⟩⟩
          simp only [Except.ok.injEq, Prod.mk.injEq] at h
          rw [← h.1.1, ← hm]
          exact h3 rec rfl
      · rw [h1]
        refine ⟨fun p h => ?_, fun rec n s' h => by simp at h⟩
        simp only [Except.error.injEq] at h
        rw [← h]; exact h2

theorem read_expected {σ : Type} [Finite σ] (F : Flate) (X : Ext) (unmarshal : Bytes → Except Err V1.Recording)
    (registered : List Encoder) (he : ∀ e ∈ registered, DecodesSafely e) (s : σ) (p : Panic)
    (h : read F X unmarshal registered s = .error p) : Expected p := by
  unfold read at h
  cases hp : (readPrelude X unmarshal registered).run s with
  | error q =>
    rw [hp] at h
    simp only [Bind.bind, Except.bind, Except.error.injEq] at h
    rw [← h]; exact (op_readPrelude X unmarshal registered).run hp
  | ok r =>
    obtain ⟨r, s1⟩ := r
    rw [hp] at h
    cases r with
    | inl r => simp [Bind.bind, Except.bind] at h
    | inr r =>
      obtain ⟨encs, flag, total⟩ := r
      have hm := (post_readPrelude X unmarshal registered).run hp encs flag total rfl
      have he' : ∀ e ∈ encs, DecodesSafely e := fun e h => he e (hm e h)
      simp only [Bind.bind, Except.bind] at h
      split at h
      · split at h
        · rename_i q hq
          simp only [Except.error.injEq] at h
          rw [← h]; exact (readBody_expected encs he' total _).1 _ hq
        · simp at h
      · exact (readBody_expected encs he' total _).1 _ h

theorem builtin_safe (b : Builtin) : DecodesSafely b.encoder := by
  cases b with
  | event => exact event_safe
  | enum => exact enum_safe
  | position t => exact position_safe t
  | euler t => exact euler_safe t
  | float t => exact float_safe t

/-! ## C37 -/

/-- C37: the recursions of the reader (nested recordings, nested metadata, nested event metadata) never exhaust the
bounds the model gives them, which are the bytes left plus two; the input may be anything, delivered in pieces of any
kind. So every read ends with a result. -/
theorem C37_terminates {σ : Type} [Finite σ] (F : Flate) (X : Ext) (unmarshal : Bytes → Except Err V1.Recording)
    (rs : List Builtin) (s : σ) : read F X unmarshal (rs.map Builtin.encoder) s ≠ .error .outOfFuel := by
  intro h
  have : ∀ e ∈ rs.map Builtin.encoder, DecodesSafely e := by
    intro e he
    obtain ⟨b, -, rfl⟩ := List.mem_map.1 he
    exact builtin_safe b
  rcases read_expected F X unmarshal _ this s _ h with h | h <;> simp at h

theorem run_flat_le {α : Type} {p : Prog α} {s : Flat} {a : α} {s' : Flat} (h : p.run s = .ok (a, s')) :
    s'.data.length ≤ s.data.length := by
  induction p generalizing s with
  | pure a => simp only [Prog.run, Except.ok.injEq, Prod.mk.injEq] at h; rw [h.2]; exact Nat.le_refl _
  | panic x => simp [Prog.run] at h
  | read n k ih =>
    simp only [Prog.run, Src.read] at h
    split at h
    · exact ih _ _ h
    · have := ih _ _ h
      simp only [List.length_drop] at this; omega
  | readFull n k ih =>
    simp only [Prog.run, Src.readFull] at h
    split at h
    · have := ih _ _ h
      simp only [List.length_drop] at this; omega
    · have := ih _ _ h
      simp only [List.length_nil] at this; omega
  | erErr k ih => exact ih _ h

/-- C37: a recording read from uncompressed input of version 2 has at most as many levels as the input has bytes. -/
theorem C37_depth_bounded (F : Flate) (X : Ext) (unmarshal : Bytes → Except Err V1.Recording)
    (rs : List Builtin) (d : Bytes) (fin : Err) (encs : List Encoder) (flag : UInt8) (total : Nat) (s s' : Flat)
    (hpre : (readPrelude X unmarshal (rs.map Builtin.encoder)).run (⟨d, fin⟩ : Flat) =
      .ok (.inr (encs, flag, total), s)) (hflag : flag ≠ 1)
    (rec : Rec) (n : Nat) (h : read F X unmarshal (rs.map Builtin.encoder) (⟨d, fin⟩ : Flat) = .ok ((rec, n, none), s')) :
    rec.depth ≤ d.length := by
  unfold read at h
  rw [hpre] at h
  simp only [Bind.bind, Except.bind, if_neg hflag] at h
  have he : ∀ e ∈ encs, DecodesSafely e := by
    intro e hm
    have := (post_readPrelude X unmarshal _).run hpre encs flag total rfl e hm
    obtain ⟨b, -, rfl⟩ := List.mem_map.1 this
    exact builtin_safe b
  obtain ⟨s2, h1, x, h2⟩ := (readBody_expected encs he total s).2 _ _ _ h
  have h3 := run_flat_le h2
  have h4 := run_flat_le hpre
  exact Nat.le_trans h1 (Nat.le_trans h3 h4)

/-! ## C36 -/

/-- The external code of the samples below. -/
def noExt : Ext := ⟨fun _ => .error .eof, fun _ => none⟩
/-- See `noExt`. -/
def noProto (_ : Bytes) : Except Err V1.Recording := .error .eof

/-- The panic a call ended in. -/
def panicOf {α : Type} : Go α → Option Panic
  | .ok _ => none
  | .error p => some p

theorem error_of_panicOf {α : Type} {x : Go α} {p : Panic} (h : panicOf x = some p) : x = .error p := by
  cases x with
  | ok a => simp [panicOf] at h
  | error q => simp only [panicOf, Option.some.injEq] at h; rw [h]

/-- Input with a child recording: it is read, and 2 levels are at most 18 bytes. -/
example : (readPrelude noExt noProto (losslessEncoders.map Builtin.encoder)).run
      (⟨[2, 0, 0, 0, 0, 0, 0, 0, 0, 0, 1, 0, 0, 0, 0, 0, 0, 0], .eof⟩ : Flat) =
        .ok (.inr ([], 0, 3), ⟨[0, 0, 0, 0, 0, 0, 0, 1, 0, 0, 0, 0, 0, 0, 0], .eof⟩) ∧
    read storeFlate noExt noProto (losslessEncoders.map Builtin.encoder)
      (⟨[2, 0, 0, 0, 0, 0, 0, 0, 0, 0, 1, 0, 0, 0, 0, 0, 0, 0], .eof⟩ : Flat) =
        .ok ((.mk [] [] [] [.mk [] [] [] [] [] [] []] [] [] [], 18, none), ⟨[], .eof⟩) := by
  exact ⟨rfl, rfl⟩

/-- C36 is false: a metadata key index beyond the key table. -/
theorem C36_key_index_panics : read storeFlate noExt noProto defaultEncoders (⟨[2, 0, 0, 0, 0, 0, 1, 5], .eof⟩ : Flat) =
    .error .indexOutOfRange := error_of_panicOf (by decide +kernel)

/-- C36 is false: an encoder index beyond the encoder table. -/
theorem C36_encoder_index_panics :
    read storeFlate noExt noProto defaultEncoders (⟨[2, 0, 0, 0, 0, 0, 0, 1, 7], .eof⟩ : Flat) =
    .error .indexOutOfRange := error_of_panicOf (by decide +kernel)

/-- C36 is false: a length no slice can have. -/
theorem C36_length_panics : read storeFlate noExt noProto defaultEncoders
    (⟨[2, 255, 255, 255, 255, 255, 255, 255, 255, 255, 1], .eof⟩ : Flat) = .error .makeSlice :=
  error_of_panicOf (by decide +kernel)

/-- C36 is false: an enum member beyond the (empty) member table. -/
theorem C36_enum_member_panics : read storeFlate noExt noProto defaultEncoders
    (⟨[2, 1, 13] ++ sigEnum ++ [0, 0, 1, 0, 0, 0, 0, 0, 1, 0, 0, 0, 0, 2, 1, 5, 0, 0, 0], .eof⟩ : Flat) =
    .error .indexOutOfRange := error_of_panicOf (by decide +kernel)

/-- C36 is false: exactly the lengths no slice can have (`maxAlloc` bytes) panic in the readers of strings and of blocks
of bytes, and those of lists of strings (16 bytes each) and of integers (8 bytes each) panic in the readers of lists. -/
theorem C36_lengths_panic (len : Nat) (h : len < 2 ^ 64) (rest : Bytes) (fin : Err) :
    (readString.run (⟨putUvarint len ++ rest, fin⟩ : Flat) = .error .makeSlice ↔ maxAlloc < len) ∧
    (readBytesArray.run (⟨putUvarint len ++ rest, fin⟩ : Flat) = .error .makeSlice ↔ maxAlloc < len) ∧
    (maxAlloc < len * 16 → readStringArray.run (⟨putUvarint len ++ rest, fin⟩ : Flat) = .error .makeSlice) ∧
    (maxAlloc < len * 8 → readUvarIntArray.run (⟨putUvarint len ++ rest, fin⟩ : Flat) = .error .makeSlice) := by
  have hu := Prog.clean_flat fin (clean_readUvarint len rest h)
  have key : ∀ {α : Type} (f : Nat × Nat × Option Err → Prog α), (readUvarint.bind f).run
      (⟨putUvarint len ++ rest, fin⟩ : Flat) = (f (len, (putUvarint len).length, none)).run (⟨rest, fin⟩ : Flat) := by
    intro α f
    rw [Prog.run_bind, hu]
    rfl
  refine ⟨?_, ?_, fun hl => ?_, fun hl => ?_⟩
  · rw [readString]
    simp only [Prog.bind_eq, key, Prog.make, Nat.mul_one]
    by_cases hl : len ≤ maxAlloc
    · rw [if_pos hl]
      simp only [Prog.bind, Prog.run]
      refine ⟨fun hx => ?_, fun hx => by omega⟩
      split at hx <;> cases hx
    · rw [if_neg hl]
      exact ⟨fun _ => by omega, fun _ => rfl⟩
  · rw [readBytesArray]
    simp only [Prog.bind_eq, key, Prog.make, Nat.mul_one]
    by_cases hl : len ≤ maxAlloc
    · rw [if_pos hl]
      simp only [Prog.bind, Prog.run]
      refine ⟨fun hx => ?_, fun hx => by omega⟩
      split at hx
      · cases hx
      · split at hx <;> cases hx
    · rw [if_neg hl]
      exact ⟨fun _ => by omega, fun _ => rfl⟩
  · rw [readStringArray]
    simp only [Prog.bind_eq, key, Prog.make]
    rw [if_neg (by omega)]
    rfl
  · rw [readUvarIntArray]
    simp only [Prog.bind_eq, key, Prog.make]
    rw [if_neg (by omega)]
    rfl

/-- A length over the limit. -/
example : 2 ^ 48 + 1 < 2 ^ 64 ∧ maxAlloc < 2 ^ 48 + 1 := by decide

/-- C36: whatever the input and however it is delivered, the only panics are an index out of range and a length out of
range; no nil is dereferenced, no type assertion fails, no recursion runs away. What is missing is their absence,
which is false. -/
theorem C36_only_range_panics_partial {σ : Type} [Finite σ] (F : Flate) (X : Ext)
    (unmarshal : Bytes → Except Err V1.Recording) (rs : List Builtin) (s : σ) (p : Panic)
    (h : read F X unmarshal (rs.map Builtin.encoder) s = .error p) : p = .indexOutOfRange ∨ p = .makeSlice := by
  refine read_expected F X unmarshal _ ?_ s p h
  intro e he
  obtain ⟨b, -, rfl⟩ := List.mem_map.1 he
  exact builtin_safe b

/-! ## C35 -/

/-- A file whose only collection, positions, has technique byte 9. -/
def badTechniqueFile : Bytes :=
  [2, 1, 17] ++ sigPosition ++ [0, 0, 0, 0, 0, 0, 0, 1, 0, 0, 0, 0, 1, 9, 0, 0, 0]

/-- Result of a read that is a recording with one collection, which is nil, and no error. -/
def nilCollection : Go ((Rec × Nat × Option Err) × Flat) → Bool
  | .ok ((.mk [] [] [none] [] [] [] [], _, none), _) => true
  | _ => false

/-- C35 is false: the error of `Decode` is dropped and the collection is nil. -/
theorem C35_decode_error_leaves_nil : ∃ n s, read storeFlate noExt noProto defaultEncoders
    (⟨badTechniqueFile, .eof⟩ : Flat) = .ok ((.mk [] [] [none] [] [] [] [], n, none), s) ∧
    ¬ Complete (.mk [] [] [none] [] [] [] []) := by
  have h : nilCollection (read storeFlate noExt noProto defaultEncoders (⟨badTechniqueFile, .eof⟩ : Flat)) = true := by
    decide +kernel
  unfold nilCollection at h
  split at h
  · rename_i n s hx
    refine ⟨n, s, hx, fun h => ?_⟩
    have := (h _ (.self _)).2
    simp [Rec.colls] at this
  · simp at h

/-- No recording, binary or reference of the tree is nil. -/
def OnlyCollsNil (rec : Rec) : Prop := ∀ r, Within r rec → r ≠ .nil ∧ none ∉ r.bins ∧ none ∉ r.refs

theorem post_readRefs (T : RTables) (n : Nat) : (readRefs T n).Post fun l => none ∉ l := by
  induction n with
  | zero => simp [readRefs, Post]
  | succ n ih =>
    refine Post.any fun _ => Post.any fun _ => Post.any fun _ => Post.any fun _ => ?_
    exact Post.bind ih fun l hl => by simp [Post, hl]

theorem post_readBins (T : RTables) (n : Nat) : (readBins T n).Post fun l => none ∉ l := by
  induction n with
  | zero => simp [readBins, Post]
  | succ n ih =>
    refine Post.any fun _ => Post.any fun _ => Post.any fun _ => Post.any fun _ _ _ => ?_
    exact Post.bind ih fun l hl => by simp [Post, hl]

theorem post_readChildren {P : Rec → Prop} {rd : Prog (Except Err Rec)}
    (h : rd.Post fun r => ∀ rec, r = .ok rec → P rec) (n : Nat) :
    (readChildren rd n).Post fun r => ∀ recs, r = .ok recs → ∀ x ∈ recs, P x := by
  induction n with
  | zero => intro recs hr; simp only [Except.ok.injEq] at hr; subst hr; simp
  | succ n ih =>
    refine Post.bind h fun r hr => ?_
    cases r with
    | error e => exact fun recs h => by simp at h
    | ok r =>
      refine Post.bind ih fun rs hrs => ?_
      cases rs with
      | error e => exact fun recs h => by simp at h
      | ok rs =>
        intro recs h
        simp only [Except.ok.injEq] at h
        subst h
        intro x hx
        rcases List.mem_cons.1 hx with rfl | hx
        · exact hr _ rfl
        · exact hrs _ rfl x hx

theorem post_buildRec (T : RTables) (fuel : Nat) :
    (buildRec T fuel).Post fun r => ∀ rec, r = .ok rec → OnlyCollsNil rec := by
  induction fuel with
  | zero => trivial
  | succ fuel ih =>
    refine Post.any fun _ => Post.any fun _ => Post.any fun md => ?_
    cases md with
    | error e => exact fun recs h => by simp at h
    | ok md =>
      refine Post.any fun _ => Post.any fun _ => Post.any fun _ => Post.any fun _ => Post.any fun _ =>
        Post.bind (post_readRefs T _) fun refs hrefs => Post.any fun _ => Post.any fun _ =>
        Post.bind (post_readBins T _) fun bins hbins => Post.any fun _ => Post.any fun _ =>
        Post.bind (post_readChildren ih _) fun recs hrecs => ?_
      cases recs with
      | error e => exact fun recs h => by simp at h
      | ok recs =>
        intro e
        cases e with
        | some e => exact fun recs h => by simp at h
        | none =>
          intro rec h
          simp only [Except.ok.injEq] at h
          subst h
          intro r hw
          cases hw with
          | self => exact ⟨by simp, hbins, hrefs⟩
          | child hm hw => exact hrecs recs rfl _ hm r hw

theorem v1_onlyCollsNil (X : Ext) (r : V1.Recording) : OnlyCollsNil (V1.protobufToStd X r) := by
  intro x hw
  cases hw with
  | self => simp [V1.protobufToStd, Rec.bins, Rec.refs]
  | child hm hw =>
    simp only [List.mem_map] at hm
    obtain ⟨s, -, rfl⟩ := hm
    cases hw with
    | self => simp [V1.subjectToStd, Rec.bins, Rec.refs]
    | child hm hw => simp at hm

theorem post_prelude_shape (X : Ext) (unmarshal : Bytes → Except Err V1.Recording) (registered : List Encoder) :
    (readPrelude X unmarshal registered).Post fun r => ∀ rec n, r = .inl (rec, n, none) → OnlyCollsNil rec := by
  intro got err
  cases err with
  | some e => exact fun _ _ h => by simp at h
  | none =>
    dsimp only
    split
    · have : (V1.readRecording X unmarshal).Post fun r => r.2.2 = none → OnlyCollsNil r.1 := by
        intro b err
        cases err with
        | some e => exact fun h => by simp at h
        | none =>
          dsimp only
          split
          · exact fun h => by simp at h
          split
          · exact fun h => by simp at h
          intro b8 err
          cases err with
          | some e => exact fun h => by simp at h
          | none =>
            dsimp only
            split
            · exact fun h => by simp at h
            refine Post.any fun _ data err => ?_
            cases err with
            | some e => exact fun h => by simp at h
            | none =>
              dsimp only
              split
              · exact fun h => by simp at h
              split
              · exact fun h => by simp at h
              split
              · exact fun h => by simp at h
              · exact fun _ => v1_onlyCollsNil X _
      refine Post.bind this ?_
      rintro ⟨r, n, e⟩ hr rec n' h
      simp only [Sum.inl.injEq, Prod.mk.injEq] at h
      obtain ⟨rfl, -, rfl⟩ := h
      exact hr rfl
    split
    · exact fun _ _ h => by simp at h
    refine Post.any ?_
    rintro ⟨r, n⟩
    cases r with
    | error e => exact fun _ _ h => by simp at h
    | ok encs =>
      intro got err
      cases err <;> exact fun _ _ h => by simp at h

theorem readBody_shape {σ : Type} [Drain σ] (encs : List Encoder) (total : Nat) (s s' : σ) (rec : Rec) (n : Nat)
    (h : readBody encs total s = .ok ((rec, n, none), s')) : OnlyCollsNil rec := by
  unfold readBody at h
  cases ht : (readTables encs total).run s with
  | error q => simp [ht, Bind.bind, Except.bind] at h
  | ok r =>
    obtain ⟨⟨r, t⟩, s1⟩ := r
    rw [ht] at h
    cases r with
    | error e =>
      simp only [Bind.bind, Except.bind, Except.ok.injEq, Prod.mk.injEq] at h
      exact absurd h.1.2.2 (by simp)
    | ok hk =>
      obtain ⟨headers, keys⟩ := hk
      simp only [Bind.bind, Except.bind] at h
      split at h
      · simp at h
      · rename_i v hv
        obtain ⟨r, er⟩ := v
        cases r with
        | error e => simp at h
        | ok rec' =>
          simp only [Except.ok.injEq, Prod.mk.injEq] at h
          rw [← h.1.1]
          exact (post_buildRec _ _).run hv rec' rfl

/-- C35: in whatever `Read` returns without error, no recording, binary or reference is nil. What is missing are the
collections, for which it is false. -/
theorem C35_only_collections_partial {σ : Type} [Drain σ] (F : Flate) (X : Ext)
    (unmarshal : Bytes → Except Err V1.Recording) (registered : List Encoder) (s s' : σ) (rec : Rec) (n : Nat)
    (h : read F X unmarshal registered s = .ok ((rec, n, none), s')) :
    ∀ r, Within r rec → r ≠ .nil ∧ none ∉ r.bins ∧ none ∉ r.refs := by
  unfold read at h
  cases hp : (readPrelude X unmarshal registered).run s with
  | error q => simp [hp, Bind.bind, Except.bind] at h
  | ok r =>
    obtain ⟨r, s1⟩ := r
    rw [hp] at h
    cases r with
    | inl r =>
      simp only [Bind.bind, Except.bind, Except.ok.injEq, Prod.mk.injEq] at h
      exact (post_prelude_shape X unmarshal registered).run hp rec n (by rw [h.1])
    | inr r =>
      obtain ⟨encs, flag, total⟩ := r
      simp only [Bind.bind, Except.bind] at h
      split at h
      · split at h
        · simp at h
        · rename_i v hv
          obtain ⟨v, sv⟩ := v
          simp only [Except.ok.injEq, Prod.mk.injEq] at h
          rw [h.1] at hv
          exact readBody_shape _ _ _ _ _ _ hv
      · exact readBody_shape _ _ _ _ _ _ h

/-- C35: a collection is nil only where `Decode` returned an error, which `Read` drops. -/
theorem C35_nil_means_dropped_error_partial (b : Builtin) (name header body : Bytes) (times : List F64) (e : Option Err)
    (h : b.encoder.decode name header body times = .ok (none, e)) : e ≠ none := by
  cases b with
  | event =>
    simp only [Builtin.encoder, eventEncoder, eventDecode, Bind.bind, Except.bind] at h
    split at h
    · simp at h
    · rename_i v hv
      obtain ⟨names, keys, err⟩ := v
      cases err with
      | some x => simp only [Except.ok.injEq, Prod.mk.injEq] at h; rw [← h.2]; simp
      | none =>
        simp only at h
        split at h
        · simp at h
        · rename_i v hv
          cases v with
          | error x => simp only [Except.ok.injEq, Prod.mk.injEq] at h; rw [← h.2]; simp
          | ok c => simp at h
  | enum =>
    simp only [Builtin.encoder, enumEncoder, enumDecode, Bind.bind, Except.bind] at h
    split at h
    · simp at h
    · rename_i v hv
      obtain ⟨names, n, err⟩ := v
      cases err with
      | some x => simp only [Except.ok.injEq, Prod.mk.injEq] at h; rw [← h.2]; simp
      | none =>
        simp only at h
        split at h <;> simp at h
  | position t =>
    simp only [Builtin.encoder, positionEncoder, positionDecode, Bind.bind, Except.bind] at h
    split at h
    · simp at h
    · rename_i v hv
      cases v with
      | error x => simp only [Except.ok.injEq, Prod.mk.injEq] at h; rw [← h.2]; simp
      | ok c => simp at h
  | euler t =>
    simp only [Builtin.encoder, eulerEncoder, eulerDecode, Bind.bind, Except.bind] at h
    split at h
    · simp at h
    · rename_i v hv
      cases v with
      | error x => simp only [Except.ok.injEq, Prod.mk.injEq] at h; rw [← h.2]; simp
      | ok c => simp at h
  | float t =>
    simp only [Builtin.encoder, floatEncoder, floatDecode, Bind.bind, Except.bind] at h
    split at h
    · simp only [Except.ok.injEq, Prod.mk.injEq] at h; rw [← h.2]; simp
    · split at h <;> simp at h

theorem mapCollsList_eq (f : Coll → Coll) (rs : List Rec) : Rec.mapCollsList f rs = rs.map (Rec.mapColls f) := by
  induction rs with
  | nil => rfl
  | cons r rs ih => simp [Rec.mapCollsList, ih]

theorem mapColls_complete (f : Coll → Coll) : (rec : Rec) → GoodRec rec → Complete (rec.mapColls f) :=
  fun rec h => by
    induction h with
    | mk id name colls recs md bins refs _ _ _ _ _ ih =>
      intro r hw
      rw [Rec.mapColls] at hw
      cases hw with
      | self => simp [Rec.colls]
      | child hm hw =>
        rw [mapCollsList_eq] at hm
        obtain ⟨r0, h0, rfl⟩ := List.mem_map.1 hm
        exact ih r0 h0 r hw

/-- C35 holds for the files `Write` produces. -/
theorem C35_written_files_partial (F : Flate) (hF : F.Lawful) (X : Ext) (unmarshal : Bytes → Except Err V1.Recording)
    (ws rs : List Builtin) (tech : Nat) (ht : tech ≤ 2) (compress : Bool) (orders : List (List Bytes)) (rec : Rec)
    (hg : GoodRec rec) (hnative : ∀ c ∈ rec.flat, Native c) (hko : KeyOrders rec orders)
    (hws : ∀ c ∈ rec.flat, ∃ b ∈ ws, b.encoder.accepts c)
    (hrs : ∀ b ∈ ws, ∃ b' ∈ rs, b'.encoder.sig = b.encoder.sig) :
    ∃ n out', write F ⟨ws.map Builtin.encoder, tech, compress⟩ orders rec (⟨[]⟩ : Buf) = .ok (n, none, out') ∧
      (n ≤ sizeLimit → ∃ r s, read F X unmarshal (rs.map Builtin.encoder) (⟨out'.bytes, .eof⟩ : Flat) =
        .ok ((r, n, none), s) ∧ Complete r) := by
  obtain ⟨n, out', h1, h2⟩ := C17_roundtrip F hF X unmarshal ws rs tech ht compress orders rec hg hnative hko hws hrs
  refine ⟨n, out', h1, fun hn => ?_⟩
  obtain ⟨s, hs⟩ := h2 hn
  exact ⟨_, s, hs, mapColls_complete _ rec hg⟩

end Rap
