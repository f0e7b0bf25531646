import Verif.Proof.Size
import Verif.Props.AnyReader

/-!
# C66: a recording is no larger than the file it came from

Lengths written in a file are taken at their word when memory is set aside, but nothing is kept that was not paid for with
bytes: whatever the bytes are, what `Read` returns holds at most as many objects, texts and data bytes as it reports bytes
read, and it reports no more bytes than it was given.
-/

namespace Rap

variable {F : Flate}

/-- The decoders of the package make nothing out of nothing. -/
theorem builtins_paid (rs : List Builtin) {es : List Encoder} (hes : ∀ e ∈ es, e ∈ rs.map Builtin.encoder) :
    ∀ e ∈ es, ∀ name header body times c err, e.decode name header body times = .ok (some c, err) →
      c.held ≤ 1 + name.length + times.length + body.length := by
  intro e he name header body times c err hd
  obtain ⟨b, hb, rfl⟩ := List.mem_map.1 (hes e he)
  exact builtin_decode_held b _ _ _ _ _ _ hd

/-- Nothing is returned by a prelude of version 2 that ends the call. -/
theorem prelude2_nothing (reg : List Encoder) :
    (prelude2 reg).Post fun r => ∀ rec n e, r = .inl (rec, n, e) → rec = .nil := by
  refine Prog.Post.any fun ⟨r, n⟩ => ?_
  cases r with
  | error e => intro rec n e h; simp at h; exact h.1.symm
  | ok encs =>
    intro b e
    cases e with
    | none => intro rec n e h; simp at h
    | some e => intro rec n e h; simp at h; exact h.1.symm

theorem prelude_nothing (X : Ext) (um : Bytes → Except Err V1.Recording) (reg : List Encoder) (data : Bytes) (fin : Err)
    (h1 : data.head? ≠ some 1) (rec : Rec) (n : Nat) (e : Option Err) (s' : Flat)
    (h : (readPrelude X um reg).run (⟨data, fin⟩ : Flat) = .ok (.inl (rec, n, e), s')) : rec = .nil := by
  cases data with
  | nil =>
    simp only [readPrelude, Prog.run, Src.read, List.isEmpty_nil, if_true, Except.ok.injEq, Prod.mk.injEq,
      Sum.inl.injEq] at h
    exact h.1.1.symm
  | cons b data =>
    have hb : ¬ b.toNat = 1 := by
      intro hb
      apply h1
      rw [List.head?_cons, UInt8.toNat_inj.1 (show b.toNat = (1 : UInt8).toNat from hb)]
    simp only [readPrelude, Prog.run, Src.read, List.isEmpty_cons, Bool.false_eq_true, if_false, List.take_succ_cons,
      List.take_zero, List.headD_cons, if_neg hb] at h
    by_cases hb2 : b.toNat ≠ 2
    · rw [if_pos hb2] at h
      simp only [Prog.run, Except.ok.injEq, Prod.mk.injEq, Sum.inl.injEq] at h
      exact h.1.1.symm
    · rw [if_neg hb2] at h
      exact (prelude2_nothing reg).run (p := prelude2 reg) h rec n e rfl

/-- `Read` reports no more bytes than the source has or, after the flag for compression, than the source has up to the flag
and the decompressor made of the rest. -/
theorem C66_count (X : Ext) (um : Bytes → Except Err V1.Recording) (rs : List Builtin) (data : Bytes) (fin : Err)
    (rec : Rec) (n : Nat) (e : Option Err) (s' : Flat)
    (h : read F X um (rs.map Builtin.encoder) (⟨data, fin⟩ : Flat) = .ok ((rec, n, e), s')) :
    n ≤ data.length ∨ ∃ k ≤ data.length, n ≤ k + (F.inflate (data.drop k) fin).1.length := by
  unfold read at h
  cases hp : (readPrelude X um (rs.map Builtin.encoder)).run (⟨data, fin⟩ : Flat) with
  | error q => simp [hp, Bind.bind, Except.bind] at h
  | ok r =>
    obtain ⟨r, s1⟩ := r
    obtain ⟨j, h1, h2, h3, m, h4⟩ := (spends_prelude X um (rs.map Builtin.encoder)).flat hp
    have hpost := (post_prelude X um (rs.map Builtin.encoder)).run hp
    rw [hp] at h
    dsimp only at h2 h3 h4
    cases r with
    | inl r =>
      simp only [Bind.bind, Except.bind, Except.ok.injEq, Prod.mk.injEq] at h
      obtain ⟨rfl, -⟩ := h
      have h1 : n ≤ j := h1
      exact .inl (by omega)
    | inr r =>
      obtain ⟨encs, flag, total⟩ := r
      have h1 : total ≤ j := h1
      have hes := builtins_paid rs (hpost.2 _ _ _ rfl)
      simp only [Bind.bind, Except.bind] at h
      split at h
      · split at h
        · cases h
        · rename_i v hv
          obtain ⟨⟨rec', n', e'⟩, s2⟩ := v
          simp only [Except.ok.injEq, Prod.mk.injEq] at h
          obtain ⟨⟨rfl, rfl, rfl⟩, -⟩ := h
          obtain ⟨h5, -⟩ := readBody_paid hes hv
          simp only [Drain.rest, h3] at h5
          have hj : data.drop j = s1.data := by
            have : j = min m data.length := by
              have := congrArg List.length h4
              simp at this
              omega
            rw [h4, this]
            rcases Nat.le_total m data.length with hm | hm
            · rw [Nat.min_eq_left hm]
            · rw [Nat.min_eq_right hm, List.drop_length, List.drop_of_length_le hm]
          exact .inr ⟨j, by omega, by rw [hj]; omega⟩
      · obtain ⟨h5, -⟩ := readBody_paid hes h
        exact .inl (by omega)

/-- What `Read` returns for a file that is not of version 1 holds no more than the bytes it reports. -/
theorem C66_held (X : Ext) (um : Bytes → Except Err V1.Recording) (rs : List Builtin) (data : Bytes) (fin : Err)
    (h1 : data.head? ≠ some 1) (rec : Rec) (n : Nat) (e : Option Err) (s' : Flat)
    (h : read F X um (rs.map Builtin.encoder) (⟨data, fin⟩ : Flat) = .ok ((rec, n, e), s')) : rec.held ≤ n := by
  unfold read at h
  cases hp : (readPrelude X um (rs.map Builtin.encoder)).run (⟨data, fin⟩ : Flat) with
  | error q => simp [hp, Bind.bind, Except.bind] at h
  | ok r =>
    obtain ⟨r, s1⟩ := r
    have hpost := (post_prelude X um (rs.map Builtin.encoder)).run hp
    rw [hp] at h
    cases r with
    | inl r =>
      simp only [Bind.bind, Except.bind, Except.ok.injEq, Prod.mk.injEq] at h
      obtain ⟨rfl, -⟩ := h
      rw [prelude_nothing X um _ data fin h1 rec n e _ hp]
      simp [Rec.held]
    | inr r =>
      obtain ⟨encs, flag, total⟩ := r
      have hes := builtins_paid rs (hpost.2 _ _ _ rfl)
      simp only [Bind.bind, Except.bind] at h
      split at h
      · split at h
        · cases h
        · rename_i v hv
          obtain ⟨⟨rec', n', e'⟩, s2⟩ := v
          simp only [Except.ok.injEq, Prod.mk.injEq] at h
          obtain ⟨⟨rfl, rfl, rfl⟩, -⟩ := h
          exact (readBody_paid hes hv).2
      · exact (readBody_paid hes h).2

/-- C66: whatever bytes `Read` is given, if they are not of version 1 the recording returned holds no more than there are
bytes in the source or, if they are compressed, before and after decompression. -/
theorem C66_no_larger_than_file (X : Ext) (um : Bytes → Except Err V1.Recording) (rs : List Builtin) (data : Bytes)
    (fin : Err) (h1 : data.head? ≠ some 1) (rec : Rec) (n : Nat) (e : Option Err) (s' : Flat)
    (h : read F X um (rs.map Builtin.encoder) (⟨data, fin⟩ : Flat) = .ok ((rec, n, e), s')) :
    rec.held ≤ data.length ∨ ∃ k ≤ data.length, rec.held ≤ k + (F.inflate (data.drop k) fin).1.length := by
  have hn := C66_held X um rs data fin h1 rec n e s' h
  rcases C66_count X um rs data fin rec n e s' h with h2 | ⟨k, hk, h2⟩
  · exact .inl (by omega)
  · exact .inr ⟨k, hk, by omega⟩

/-- The same for every `io.Reader` that keeps its contract (C63), with any way of handing out decompressed bytes. -/
theorem C66_any_reader {R G : IoReader} (inflated : Bytes → Err → G.At) (hF : ∀ fin, (F.inflate [] fin).1 = [])
    (hi : ∀ b e, G.content (inflated b e).st = b ∧ G.fin (inflated b e).st = e) (X : Ext)
    (um : Bytes → Except Err V1.Recording) (rs : List Builtin) (s s' : R.At) (hv : (R.content s.st).head? ≠ some 1)
    (rec : Rec) (n : Nat) (h : readVia inflated F X um (rs.map Builtin.encoder) s = .ok ((rec, n, none), s')) :
    rec.held ≤ (R.content s.st).length ∨ ∃ k ≤ (R.content s.st).length,
      rec.held ≤ k + (F.inflate ((R.content s.st).drop k) (R.fin s.st)).1.length := by
  obtain ⟨t', ht, -⟩ := (C63_any_reader F inflated hF hi X um (rs.map Builtin.encoder) s hv rec n _).1 ⟨s', h, rfl⟩
  exact C66_no_larger_than_file X um rs _ _ hv rec n none t' ht

/-- A file with the key "k" (30 times over) and five children that each map it to true. -/
def sharedKey : Bytes :=
  [2, 0, 0, 1, 30] ++ List.replicate 30 107 ++ [0, 0, 0, 0, 0, 0, 5] ++ (List.replicate 5 [0, 0, 1, 0, 3, 0, 0, 0, 0]).flatten

/-- The child in `sharedKey`. -/
def sharedChild : Rec := .mk [] [] [] [] [(List.replicate 30 107, .bool true)] [] []

/-- The theorems apply: the file is read and the recording holds 16 of the 87 bytes. -/
example : sharedKey.head? ≠ some 1 ∧ sharedKey.length = 87 ∧
    (∃ s', read storeFlate plainExt (fun _ => .error .eof) ([].map Builtin.encoder) (⟨sharedKey, .eof⟩ : Flat) =
      .ok ((.mk [] [] [] (List.replicate 5 sharedChild) [] [] [], 87, none), s')) ∧
    (Rec.mk [] [] [] (List.replicate 5 sharedChild) [] [] []).held = 16 :=
  ⟨by decide, by decide, ⟨_, rfl⟩, by decide +kernel⟩

/-- The same for a compressed file: the bytes before the flag count as well as those the decompressor makes. -/
example : ∃ s', read storeFlate plainExt (fun _ => .error .eof) ([].map Builtin.encoder)
    (⟨[2, 0, 1, 1, 0, 1, 1, 1, 97, 1, 0, 1, 0, 1, 0, 1, 0, 1, 0, 1, 0, 0], .eof⟩ : Flat) = .ok ((.mk [97] [] [] [] [] [] [], 12, none), s') :=
  ⟨_, rfl⟩

/-- How many bytes the keys of the metadata of a recording (without its children) have. -/
def keyText : Rec → Nat
  | .nil => 0
  | .mk _ _ _ _ md _ _ => (md.map fun kv => kv.1.length).sum

/-- What C66 leaves out: the texts of metadata keys. They are stored once in a file and shared by all blocks in memory, but
counted once for each block they come to more than the file, so that a text form of the recording can be larger. -/
theorem C66_keys_are_shared : ∃ s', read storeFlate plainExt (fun _ => .error .eof) [] (⟨sharedKey, .eof⟩ : Flat) =
      .ok ((.mk [] [] [] (List.replicate 5 sharedChild) [] [] [], 87, none), s') ∧
    ((List.replicate 5 sharedChild).map keyText).sum = 150 :=
  ⟨_, rfl, by decide +kernel⟩

end Rap
