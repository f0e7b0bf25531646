import Verif.Model.Reader
import Verif.Proof.Prog
import Verif.Props.File

/-!
# The way a source hands out its bytes

A Go `io.Reader` may return fewer bytes than asked for. `Chunked` is a source that delivers its bytes in given pieces, and
`Flat` one that delivers as much as asked for.
-/

namespace Rap
open Prog

/-! ## Programs that read single bytes or full buffers -/

theorem rr_uvarintLoop (fuel i : Nat) (b : UInt8) (x s t : Nat) :
    (readUvarintLoop fuel i b x s t).RawReads (· = 1) := by
  induction fuel generalizing i b x s t with
  | zero => trivial
  | succ n ih =>
    refine ⟨rfl, fun got err => ?_⟩
    cases err with
    | some e => trivial
    | none =>
      dsimp only
      split
      · split <;> trivial
      · exact ih ..

theorem rr_uvarint : readUvarint.RawReads (· = 1) := rr_uvarintLoop ..

theorem rr_string : readString.RawReads (· = 1) := by
  refine RawReads.bind rr_uvarint fun ⟨len, n, err⟩ => ?_
  cases err with
  | some e => trivial
  | none =>
    refine RawReads.bind (RawReads.make ..) fun _ => fun b e => ?_
    cases e <;> trivial

theorem rr_stringLoop (k : Nat) (acc : List Bytes) (n : Nat) : (readStringLoop k acc n).RawReads (· = 1) := by
  induction k generalizing acc n with
  | zero => trivial
  | succ k ih =>
    refine RawReads.bind rr_string fun ⟨_, _, err⟩ => ?_
    cases err with
    | some e => trivial
    | none => exact ih ..

theorem rr_stringArray : readStringArray.RawReads (· = 1) := by
  refine RawReads.bind rr_uvarint fun ⟨len, n, err⟩ => ?_
  cases err with
  | some e => trivial
  | none => exact RawReads.bind (RawReads.make ..) fun _ => rr_stringLoop ..

theorem rr_bytesArray : readBytesArray.RawReads (· = 1) := by
  refine RawReads.bind rr_uvarint fun ⟨len, n, err⟩ => ?_
  cases err with
  | some e => trivial
  | none =>
    refine RawReads.bind (RawReads.make ..) fun _ => fun b e => ?_
    dsimp only
    split
    · trivial
    · split <;> trivial

theorem rr_versions (n total : Nat) : (readVersions n total).RawReads (· = 1) := by
  induction n generalizing total with
  | zero => trivial
  | succ n ih =>
    refine RawReads.bind rr_uvarint fun ⟨_, _, err⟩ => ?_
    cases err with
    | some e => trivial
    | none => exact RawReads.bind (ih _) fun ⟨_, _, _⟩ => trivial

theorem rr_encoders (reg : List Encoder) : (readEncoders reg).RawReads (· = 1) := by
  refine RawReads.bind rr_stringArray fun ⟨_, _, err⟩ => ?_
  cases err with
  | some e => trivial
  | none =>
    refine RawReads.bind (rr_versions ..) fun ⟨_, _, err⟩ => ?_
    cases err <;> trivial

theorem rr_headers (n total : Nat) : (readHeaders n total).RawReads (· = 1) := by
  induction n generalizing total with
  | zero => trivial
  | succ n ih =>
    refine RawReads.bind rr_bytesArray fun ⟨_, _, err⟩ => ?_
    cases err with
    | some e => trivial
    | none =>
      refine RawReads.bind (ih _) fun ⟨r, _⟩ => ?_
      cases r <;> trivial

theorem rr_tables (encs : List Encoder) (total : Nat) : (readTables encs total).RawReads (· = 1) := by
  refine RawReads.bind (rr_headers ..) fun ⟨r, _⟩ => ?_
  cases r with
  | error e => trivial
  | ok hs =>
    refine RawReads.bind rr_stringArray fun ⟨_, _, err⟩ => ?_
    cases err <;> trivial

/-! ## `read` on pieces and on the whole -/

theorem readBody_alike (encs : List Encoder) (total : Nat) (s : Chunked) (t : Flat) (h : Delivers s t) :
    Alike Delivers (readBody encs total s) (readBody encs total t) := by
  have h1 := run_chunked _ (rr_tables encs total) s t h
  show Alike Delivers (Except.bind _ _) (Except.bind _ _)
  revert h1
  cases (readTables encs total).run s with
  | error p => cases (readTables encs total).run t with
    | error q => exact fun h => h
    | ok r => exact fun h => h.elim
  | ok r =>
    cases (readTables encs total).run t with
    | error q => exact fun h => h.elim
    | ok r' =>
      obtain ⟨⟨a, n⟩, s'⟩ := r
      obtain ⟨⟨a', n'⟩, t'⟩ := r'
      rintro ⟨heq, hd⟩
      cases heq
      cases a with
      | error e => exact ⟨rfl, hd⟩
      | ok hk =>
        obtain ⟨headers, keys⟩ := hk
        simp only [Except.bind, Drain.rest, hd.1]
        have h2 := run_er_chunked (buildRec ⟨keys, encs.zip headers, t'.data.length + 2⟩ (t'.data.length + 2))
          (ER.new s') (ER.new t') ⟨hd, rfl, rfl⟩
        revert h2
        show Alike DeliversER _ _ → Alike Delivers (Except.bind _ _) (Except.bind _ _)
        generalize Prog.run (buildRec _ _) (ER.new s') = u
        generalize Prog.run (buildRec _ _) (ER.new t') = v
        cases u with
        | error p => cases v with
          | error q => exact fun h => h
          | ok r => exact fun h => h.elim
        | ok r =>
          cases v with
          | error q => exact fun h => h.elim
          | ok r' =>
            obtain ⟨a, s2⟩ := r
            obtain ⟨a', t2⟩ := r'
            rintro ⟨heq, hd2⟩
            cases heq
            simp only [Except.bind]
            cases a with
            | error e => exact ⟨by rw [hd2.2.2], hd2.1⟩
            | ok r => exact ⟨by rw [hd2.2.2], hd2.1⟩

theorem prelude_alike (X : Ext) (um : Bytes → Except Err V1.Recording) (reg : List Encoder) (s : Chunked) (t : Flat)
    (h : Delivers s t) (hv : t.data.head? ≠ some 1) :
    Alike Delivers ((readPrelude X um reg).run s) ((readPrelude X um reg).run t) := by
  obtain ⟨d, fin⟩ := t
  obtain ⟨h1, h2, h3⟩ := delivers_read1 1 s ⟨d, fin⟩ rfl h
  simp only [readPrelude, Prog.run, h1, h2]
  cases d with
  | nil => exact ⟨rfl, h3⟩
  | cons b d =>
    have hb : b ≠ 1 := fun hb => hv (by simp [hb])
    have hb' : b.toNat ≠ 1 := fun hc => hb (UInt8.toNat_inj.1 hc)
    simp only [Src.read, List.isEmpty_cons, Bool.false_eq_true, if_false, List.take_succ_cons, List.take_zero,
      List.headD_cons, if_neg hb'] at h3 ⊢
    apply run_chunked _ _ _ _ h3
    split
    · trivial
    · refine RawReads.bind (rr_encoders reg) fun ⟨r, _⟩ => ?_
      cases r with
      | error e => trivial
      | ok encs =>
        refine ⟨rfl, fun got err => ?_⟩
        cases err <;> trivial

theorem read_alike (F : Flate) (X : Ext) (um : Bytes → Except Err V1.Recording) (reg : List Encoder) (s : Chunked)
    (t : Flat) (h : Delivers s t) (hv : t.data.head? ≠ some 1) :
    Alike Delivers (read F X um reg s) (read F X um reg t) := by
  have h1 := prelude_alike X um reg s t h hv
  show Alike Delivers (Except.bind _ _) (Except.bind _ _)
  revert h1
  cases (readPrelude X um reg).run s with
  | error p => cases (readPrelude X um reg).run t with
    | error q => exact fun h => h
    | ok r => exact fun h => h.elim
  | ok r =>
    cases (readPrelude X um reg).run t with
    | error q => exact fun h => h.elim
    | ok r' =>
      obtain ⟨a, s'⟩ := r
      obtain ⟨a', t'⟩ := r'
      rintro ⟨heq, hd⟩
      cases heq
      cases a with
      | inl r => exact ⟨rfl, hd⟩
      | inr x =>
        obtain ⟨encs, flag, total⟩ := x
        simp only [Except.bind]
        split
        · rename_i hf
          have hr : Drain.rest s' = Drain.rest t' := by
            simp only [Drain.rest, hd.1, hd.2.1]
          simp only [hr]
          show Alike Delivers (Except.bind _ _) (Except.bind _ _)
          cases readBody encs total (⟨(F.inflate (Drain.rest t').1 (Drain.rest t').2).1,
            (F.inflate (Drain.rest t').1 (Drain.rest t').2).2⟩ : Flat) with
          | error p => exact rfl
          | ok r => exact ⟨rfl, hd⟩
        · exact readBody_alike encs total s' t' hd

/-- C25, for input that is not a version 1 file: whatever bytes a source contains, cutting them into non-empty pieces
changes nothing. Result, count, error or panic are the same, and so is what remains of the source. Missing:
version 1 files, for which the property is false, see `C25_version1_depends_on_delivery`. -/
theorem C25_delivery_is_irrelevant_partial (F : Flate) (X : Ext) (um : Bytes → Except Err V1.Recording)
    (reg : List Encoder) (pieces : List Bytes) (fin : Err) (hne : ∀ p ∈ pieces, p ≠ [])
    (hv : pieces.flatten.head? ≠ some 1) :
    (read F X um reg (⟨pieces, fin⟩ : Chunked)).map (fun r => (r.1, r.2.chunks.flatten, r.2.fin)) =
      (read F X um reg (⟨pieces.flatten, fin⟩ : Flat)).map (fun r => (r.1, r.2.data, r.2.fin)) := by
  have h := read_alike F X um reg ⟨pieces, fin⟩ ⟨pieces.flatten, fin⟩ ⟨rfl, rfl, hne⟩ hv
  revert h
  cases read F X um reg (⟨pieces, fin⟩ : Chunked) with
  | error p => cases read F X um reg (⟨pieces.flatten, fin⟩ : Flat) with
    | error q => intro h; cases h; rfl
    | ok r => exact fun h => h.elim
  | ok r => cases read F X um reg (⟨pieces.flatten, fin⟩ : Flat) with
    | error q => exact fun h => h.elim
    | ok r' =>
      obtain ⟨a, s⟩ := r
      obtain ⟨b, t⟩ := r'
      rintro ⟨rfl, h1, h2, _⟩
      simp only [Except.map, h1, h2]

/-- The hypotheses hold for an uncompressed file delivered byte by byte, and for a damaged one. -/
example : (∀ p ∈ ([[2], [0], [0, 0]] : List Bytes), p ≠ []) ∧ ([[2], [0], [0, 0]] : List Bytes).flatten.head? ≠ some 1 := by
  decide

/-- C25 for the files the writer produces: however the file is cut into pieces, the reader returns the recording stored
and the number of bytes written, as `C17_roundtrip_any_encoders` says for a file in memory. -/
theorem C25_written_file_in_pieces (F : Flate) (hF : F.Lawful) (X : Ext) (unmarshal : Bytes → Except Err V1.Recording)
    (cfg : WriterCfg) (registered : List Encoder) (orders : List (List Bytes)) (rec : Rec)
    (view : Coll → List F64 → Coll) (hg : GoodRec rec) (hko : KeyOrders rec orders) (ht : cfg.tech ≤ 2)
    (hsd : SigDetermines cfg.encoders) (hu : Understands cfg.encoders registered view rec)
    (out' : Buf) (n : Nat) (h : write F cfg orders rec (⟨[]⟩ : Buf) = .ok (n, none, out')) (hn : n ≤ sizeLimit)
    (pieces : List Bytes) (hne : ∀ p ∈ pieces, p ≠ []) (hp : pieces.flatten = out'.bytes) :
    ∃ s, read F X unmarshal registered (⟨pieces, .eof⟩ : Chunked) =
      .ok ((rec.mapColls fun c => view c (storedTimes cfg.tech c.times), n, none), s) := by
  obtain ⟨s, hs⟩ :=
    C17_roundtrip_any_encoders F hF X unmarshal cfg registered orders rec view hg hko ht hsd hu out' n h hn
  have hv : out'.bytes.head? ≠ some 1 := by
    obtain ⟨_, _, _, _, _, _, _, -, -, -, -, hb⟩ := write_shape F cfg orders rec _ _ n h
    rw [hb]
    simp [prelude]
  have := C25_delivery_is_irrelevant_partial F X unmarshal registered pieces .eof hne (by rw [hp]; exact hv)
  rw [hp, hs] at this
  revert this
  cases read F X unmarshal registered (⟨pieces, .eof⟩ : Chunked) with
  | error p => intro h; cases h
  | ok r =>
    intro h
    simp only [Except.map, Except.ok.injEq, Prod.mk.injEq] at h
    exact ⟨r.2, by rw [← h.1]⟩

/-! ## Version 1 files -/

/-- External code for the example: nothing is compressed and no text is a number. -/
def plainExt : Ext := ⟨fun b => .ok b, fun _ => none⟩

/-- A version 1 file of one recording, whose message takes two bytes. -/
def v1File : Bytes := [1] ++ [1, 0, 0, 0] ++ [2, 0, 0, 0, 0, 0, 0, 0] ++ [7, 7]

/-- C25 is false for version 1 files: from memory this file is read without an error; in two pieces, the second of which
starts inside the 4-byte count, reading fails. -/
theorem C25_version1_depends_on_delivery :
    ∃ (um : Bytes → Except Err V1.Recording) (pieces : List Bytes), pieces.flatten = v1File ∧ (∀ p ∈ pieces, p ≠ []) ∧
      (read storeFlate plainExt um [] (⟨v1File, .eof⟩ : Flat)).map (fun r => r.1.2) = .ok (15, none) ∧
      (read storeFlate plainExt um [] (⟨pieces, .eof⟩ : Chunked)).map (fun r => r.1.2) = .ok (3, some (.parse 1)) :=
  ⟨fun _ => .ok ⟨[], [], [], []⟩, [[1, 1, 0], [0, 0, 2, 0, 0, 0, 0, 0, 0, 0, 7, 7]], rfl, by decide, rfl, rfl⟩

end Rap
