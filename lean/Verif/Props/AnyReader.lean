import Verif.Proof.IoReader
import Verif.Proof.Sample
import Verif.Proof.Post

/-!
# Reading from any io.Reader
-/

namespace Rap
open Prog

/-! ## What is left of a failed run -/

theorem tables_empty (encs : List Encoder) (total : Nat) (fin : Err) {a : Except Err (List Bytes × List Bytes) × Nat}
    {t : Flat} (h : (readTables encs total).run (⟨[], fin⟩ : Flat) = .ok (a, t)) : IsErr a.1 := by
  have hb : readBytesArray.run (⟨[], fin⟩ : Flat) = .ok (([], 0, some fin), ⟨[], fin⟩) := rfl
  have hs : readStringArray.run (⟨[], fin⟩ : Flat) = .ok (([], 0, some fin), ⟨[], fin⟩) := rfl
  have hr : (readTables encs total).run (⟨[], fin⟩ : Flat) = .ok ((.error fin, total + 0), ⟨[], fin⟩) := by
    cases encs with
    | nil =>
      show (Prog.bind readStringArray _).run _ = _
      rw [run_bind, hs]; rfl
    | cons e es =>
      show (Prog.bind (Prog.bind readBytesArray _) _).run _ = _
      rw [run_bind, run_bind, hb]; rfl
  rw [hr] at h
  simp only [Except.ok.injEq, Prod.mk.injEq] at h
  rw [← h.1]; trivial

/-- A body read from no bytes at all is not a recording. -/
theorem body_empty (encs : List Encoder) (total : Nat) (fin : Err) {r : Rec} {n : Nat} {t : Flat}
    (h : readBody encs total (⟨[], fin⟩ : Flat) = .ok ((r, n, none), t)) : False := by
  unfold readBody at h
  cases hx : (readTables encs total).run (⟨[], fin⟩ : Flat) with
  | error p => rw [hx] at h; exact nomatch h
  | ok a =>
    obtain ⟨⟨a, m⟩, t'⟩ := a
    have := tables_empty encs total fin hx
    rw [hx] at h
    cases a with
    | ok _ => exact this.elim
    | error e => exact nomatch h

/-- Key table and recording: a successful run of the first in memory that uses up all bytes is followed by a failure. -/
theorem build_empty (T : RTables) (fuel : Nat) (fin : Err) {r : Rec} {er : ER Flat}
    (h : (buildRec T fuel).run (ER.new (⟨[], fin⟩ : Flat)) = .ok (.ok r, er)) : False := by
  cases fuel with
  | zero => exact nomatch h
  | succ fuel =>
    have hd := dead_buildRec T fuel
    obtain ⟨k, hk⟩ : ∃ k, buildRec T (fuel + 1) = .read 1 k := ⟨_, rfl⟩
    rw [hk] at hd h
    obtain ⟨a, ha, hq⟩ := Dead.run_er (hd fin) (⟨⟨[], fin⟩, some fin, 0⟩ : ER Flat) rfl
    have : (Prog.read 1 k).run (ER.new (⟨[], fin⟩ : Flat)) =
      (k [] (some fin)).run (⟨⟨[], fin⟩, some fin, 0⟩ : ER Flat) := rfl
    rw [this, ha] at h
    simp only [Except.ok.injEq, Prod.mk.injEq] at h
    rw [h.1] at hq
    exact hq

/-! ## The parts of `Read` -/

/-- The call ended without an error. -/
def Succeeds {σ : Type} (x : Go ((Rec × Nat × Option Err) × σ)) : Prop := ∃ r n s, x = .ok ((r, n, none), s)

/-- The same end, or a failure on both sides. -/
def SameOrFail {σ τ : Type} (R : σ → τ → Prop) (x : Go ((Rec × Nat × Option Err) × σ))
    (y : Go ((Rec × Nat × Option Err) × τ)) : Prop :=
  Alike R x y ∨ ¬ Succeeds x ∧ ¬ Succeeds y

theorem body_same {R : IoReader} (encs : List Encoder) (total : Nat) (s : R.At) (t : Flat) (h : Holds s t) :
    SameOrFail Holds (readBody encs total s) (readBody encs total t) := by
  rcases alert_run _ (al_tables encs total) s t h with h1 | ⟨⟨a, s', hs, ha⟩, ht⟩
  · left
    show Alike Holds (Except.bind _ _) (Except.bind _ _)
    revert h1
    cases (readTables encs total).run s with
    | error p => cases (readTables encs total).run t with
      | error q => exact fun h => h
      | ok r => exact fun h => h.elim
    | ok r =>
      cases (readTables encs total).run t with
      | error q => exact fun h => h.elim
      | ok r' =>
        obtain ⟨⟨a, n⟩, s'⟩ := r
        obtain ⟨⟨a', n'⟩, t'⟩ := r'
        rintro ⟨heq, hd⟩
        cases heq
        cases a with
        | error e => exact ⟨rfl, hd⟩
        | ok hk =>
          obtain ⟨headers, keys⟩ := hk
          simp only [Except.bind, Drain.rest, hd.1]
          have h2 := run_er_holds (buildRec ⟨keys, encs.zip headers, t'.data.length + 2⟩ (t'.data.length + 2))
            (ER.new s') (ER.new t') ⟨hd, rfl, rfl⟩
          revert h2
          show Alike HoldsER _ _ → Alike Holds (Except.bind _ _) (Except.bind _ _)
          generalize Prog.run (buildRec _ _) (ER.new s') = u
          generalize Prog.run (buildRec _ _) (ER.new t') = v
          cases u with
          | error p => cases v with
            | error q => exact fun h => h
            | ok r => exact fun h => h.elim
          | ok r =>
            cases v with
            | error q => exact fun h => h.elim
            | ok r' =>
              obtain ⟨a, s2⟩ := r
              obtain ⟨a', t2⟩ := r'
              rintro ⟨heq, hd2⟩
              cases heq
              simp only [Except.bind]
              cases a with
              | error e => exact ⟨by rw [hd2.2.2], hd2.1⟩
              | ok r => exact ⟨by rw [hd2.2.2], hd2.1⟩
  · right
    constructor
    · rintro ⟨r, n, s2, hr⟩
      unfold readBody at hr
      rw [hs] at hr
      obtain ⟨a, m⟩ := a
      cases a with
      | ok _ => exact ha.elim
      | error e => exact nomatch hr
    · rintro ⟨r, n, t2, hr⟩
      unfold readBody at hr
      cases hx : (readTables encs total).run t with
      | error p => rw [hx] at hr; exact nomatch hr
      | ok a =>
        obtain ⟨⟨a, m⟩, t'⟩ := a
        have he := ht _ _ hx
        rw [hx] at hr
        cases a with
        | error e => exact nomatch hr
        | ok hk =>
          obtain ⟨headers, keys⟩ := hk
          obtain ⟨d, fin⟩ := t'
          simp only at he
          subst he
          simp only [Bind.bind, Except.bind, Drain.rest, List.length_nil, Nat.zero_add] at hr
          cases hy : (buildRec ⟨keys, encs.zip headers, 2⟩ 2).run (ER.new (⟨[], fin⟩ : Flat)) with
          | error p => rw [hy] at hr; exact nomatch hr
          | ok b =>
            obtain ⟨b, er⟩ := b
            rw [hy] at hr
            cases b with
            | error e => exact nomatch hr
            | ok r => exact build_empty _ _ _ hy

/-- A call that ends in the prelude of a version 2 file ends with an error. -/
def EndsBadly : (Rec × Nat × Option Err) ⊕ (List Encoder × UInt8 × Nat) → Prop
  | .inl (_, _, e) => e.isSome
  | .inr _ => True

theorem prelude2_ends (reg : List Encoder) : (prelude2 reg).Post EndsBadly := by
  refine Post.any fun ⟨r, n⟩ => ?_
  cases r with
  | error e => exact rfl
  | ok encs =>
    intro b e
    cases e with
    | none => trivial
    | some e => exact rfl

/-- `Read` after the prelude. -/
def afterPrelude {σ τ : Type} [Drain σ] [Drain τ] (inflated : Bytes → Err → τ) (F : Flate) :
    ((Rec × Nat × Option Err) ⊕ (List Encoder × UInt8 × Nat)) × σ → Go ((Rec × Nat × Option Err) × σ)
  | (.inl r, s) => .ok (r, s)
  | (.inr (encs, flag, total), s) =>
    if flag = 1 then do
      let r := F.inflate (Drain.rest s).1 (Drain.rest s).2
      let (res, _) ← readBody encs total (inflated r.1 r.2)
      .ok (res, s)
    else readBody encs total s

theorem readVia_eq {σ τ : Type} [Drain σ] [Drain τ] (inflated : Bytes → Err → τ) (F : Flate) (X : Ext)
    (um : Bytes → Except Err V1.Recording) (reg : List Encoder) (s : σ) :
    readVia inflated F X um reg s = ((readPrelude X um reg).run s).bind (afterPrelude inflated F) := by
  unfold readVia
  show Except.bind _ _ = Except.bind _ _
  congr 1

theorem read_eq_via {σ : Type} [Drain σ] (F : Flate) (X : Ext)
    (um : Bytes → Except Err V1.Recording) (reg : List Encoder) (s : σ) :
    read F X um reg s = readVia Flat.mk F X um reg s := rfl

variable {R G : IoReader} (F : Flate) (inflated : Bytes → Err → G.At)

theorem after_same (hi : ∀ b e, Holds (inflated b e) ⟨b, e⟩) (encs : List Encoder) (flag : UInt8) (total : Nat)
    (s : R.At) (t : Flat) (h : Holds s t) :
    SameOrFail Holds (afterPrelude inflated F (.inr (encs, flag, total), s))
      (afterPrelude Flat.mk F (.inr (encs, flag, total), t)) := by
  simp only [afterPrelude]
  split
  · have hr : Drain.rest s = Drain.rest t := by simp only [Drain.rest, h.1, h.2]
    rw [hr]
    rcases body_same encs total _ _ (hi (F.inflate (Drain.rest t).1 (Drain.rest t).2).1
      (F.inflate (Drain.rest t).1 (Drain.rest t).2).2) with h1 | ⟨h1, h2⟩
    · left
      revert h1
      show _ → Alike Holds (Except.bind _ _) (Except.bind _ _)
      cases readBody encs total (inflated _ _) with
      | error p => cases readBody encs total (Flat.mk _ _) with
        | error q => exact fun h => h
        | ok r => exact fun h => h.elim
      | ok r =>
        cases readBody encs total (Flat.mk _ _) with
        | error q => exact fun h => h.elim
        | ok r' => exact fun h1 => ⟨h1.1, h⟩
    · right
      constructor
      · rintro ⟨r, n, s', hx⟩
        apply h1
        replace hx : Except.bind _ _ = _ := hx
        revert hx
        cases readBody encs total (inflated _ _) with
        | error p => exact fun h => nomatch h
        | ok r =>
          intro hx
          simp only [Except.bind, Except.ok.injEq, Prod.mk.injEq] at hx
          obtain ⟨⟨a, b, c⟩, s2⟩ := r
          simp only [Prod.mk.injEq] at hx
          obtain ⟨⟨rfl, rfl, rfl⟩, -⟩ := hx
          exact ⟨_, _, _, rfl⟩
      · rintro ⟨r, n, s', hx⟩
        apply h2
        replace hx : Except.bind _ _ = _ := hx
        revert hx
        cases readBody encs total (Flat.mk _ _) with
        | error p => exact fun h => nomatch h
        | ok r =>
          intro hx
          simp only [Except.bind, Except.ok.injEq, Prod.mk.injEq] at hx
          obtain ⟨⟨a, b, c⟩, s2⟩ := r
          simp only [Prod.mk.injEq] at hx
          obtain ⟨⟨rfl, rfl, rfl⟩, -⟩ := hx
          exact ⟨_, _, _, rfl⟩
  · exact body_same encs total s t h

/-- Nothing can follow a prelude that used up all bytes. -/
theorem after_empty (hF : ∀ fin, (F.inflate [] fin).1 = []) (r) (hr : EndsBadly r) (t : Flat) (ht : t.data = []) :
    ¬ Succeeds (afterPrelude Flat.mk F (r, t)) := by
  rintro ⟨rec, n, t', hx⟩
  obtain ⟨d, fin⟩ := t
  simp only at ht
  subst ht
  rcases r with ⟨a, b, c⟩ | ⟨encs, flag, total⟩
  · simp only [afterPrelude, Except.ok.injEq, Prod.mk.injEq] at hx
    obtain ⟨⟨rfl, rfl, rfl⟩, -⟩ := hx
    simp [EndsBadly] at hr
  · simp only [afterPrelude] at hx
    split at hx
    · rw [show (Drain.rest (⟨[], fin⟩ : Flat)) = ([], fin) from rfl] at hx
      simp only [hF] at hx
      replace hx : Except.bind _ _ = _ := hx
      revert hx
      cases hy : readBody encs total (Flat.mk [] (F.inflate [] fin).2) with
      | error p => exact fun h => nomatch h
      | ok r =>
        intro hx
        obtain ⟨⟨a, b, c⟩, s2⟩ := r
        simp only [Except.bind, Except.ok.injEq, Prod.mk.injEq] at hx
        obtain ⟨⟨rfl, rfl, rfl⟩, -⟩ := hx
        exact body_empty _ _ _ hy
    · exact body_empty _ _ _ hx

/-- `Read` of a file that is not of version 1, from an honest reader and from memory. -/
theorem via_same (hF : ∀ fin, (F.inflate [] fin).1 = []) (hi : ∀ b e, Holds (inflated b e) ⟨b, e⟩) (X : Ext)
    (um : Bytes → Except Err V1.Recording) (reg : List Encoder) (s : R.At) (t : Flat) (h : Holds s t)
    (hv : t.data.head? ≠ some 1) :
    SameOrFail Holds (readVia inflated F X um reg s) (readVia Flat.mk F X um reg t) := by
  rw [readVia_eq, readVia_eq]
  obtain ⟨d, fin⟩ := t
  simp only [readPrelude, Prog.run]
  rcases holds_read1 s ⟨d, fin⟩ h with ⟨h1, h2, h3⟩ | ⟨h1, h2⟩
  · rw [h1, h2]
    generalize (Src.read 1 s).2.2 = s1 at h3 ⊢
    cases d with
    | nil => exact .inl ⟨rfl, h3⟩
    | cons b d =>
      have hb : b ≠ 1 := fun hb => hv (by simp [hb])
      have hb' : b.toNat ≠ 1 := fun hc => hb (UInt8.toNat_inj.1 hc)
      simp only [Src.read, List.isEmpty_cons, Bool.false_eq_true, if_false, List.take_succ_cons, List.take_zero,
        List.headD_cons, if_neg hb'] at h3 ⊢
      split
      · exact .inl ⟨rfl, h3⟩
      · rcases alert_run _ (al_prelude2 reg) _ _ h3 with h4 | ⟨⟨a, s', hs, ha⟩, ht⟩
        · revert h4
          show _ → SameOrFail Holds (Except.bind ((prelude2 reg).run _) _) (Except.bind ((prelude2 reg).run _) _)
          cases (prelude2 reg).run s1 with
          | error p => cases (prelude2 reg).run (Flat.mk _ _) with
            | error q => exact fun h => .inl h
            | ok r => exact fun h => h.elim
          | ok r => cases (prelude2 reg).run (Flat.mk _ _) with
            | error q => exact fun h => h.elim
            | ok r' =>
              obtain ⟨a, s'⟩ := r
              obtain ⟨a', t'⟩ := r'
              rintro ⟨heq, hd⟩
              cases heq
              rcases a with r | ⟨encs, flag, total⟩
              · exact .inl ⟨rfl, hd⟩
              · exact after_same F inflated hi encs flag total s' t' hd
        · right
          constructor
          · show ¬ Succeeds (Except.bind ((prelude2 reg).run _) _)
            rw [hs]
            rintro ⟨r, n, s2, hx⟩
            rcases a with ⟨a, b, c⟩ | x
            · simp only [Except.bind, afterPrelude, Except.ok.injEq, Prod.mk.injEq] at hx
              obtain ⟨⟨rfl, rfl, rfl⟩, -⟩ := hx
              simp [Failed] at ha
            · exact ha.elim
          · show ¬ Succeeds (Except.bind ((prelude2 reg).run (Flat.mk _ _)) _)
            cases hx : (prelude2 reg).run (Flat.mk (List.drop 1 (b :: d)) fin) with
            | error p => rintro ⟨_, _, _, h⟩; exact nomatch h
            | ok r =>
              obtain ⟨r, t'⟩ := r
              exact after_empty F hF r ((prelude2_ends reg).run hx) t' (ht _ _ hx)
  · right
    constructor
    · rw [h1]
      rintro ⟨r, n, s2, hx⟩
      exact nomatch hx
    · rcases d with _ | ⟨b, _ | ⟨c, d⟩⟩
      · rintro ⟨r, n, s2, hx⟩
        exact nomatch hx
      · have hb : b ≠ 1 := fun hb => hv (by simp [hb])
        have hb' : b.toNat ≠ 1 := fun hc => hb (UInt8.toNat_inj.1 hc)
        simp only [Src.read, List.isEmpty_cons, Bool.false_eq_true, if_false, List.take_succ_cons, List.take_zero,
          List.headD_cons, if_neg hb']
        split
        · rintro ⟨r, n, s2, hx⟩; exact nomatch hx
        · show ¬ Succeeds (Except.bind ((prelude2 reg).run (Flat.mk [] fin)) _)
          cases hx : (prelude2 reg).run (Flat.mk [] fin) with
          | error p => rintro ⟨_, _, _, h⟩; exact nomatch h
          | ok r =>
            obtain ⟨r, t'⟩ := r
            exact after_empty F hF r ((prelude2_ends reg).run hx) t' (flat_empty _ _ rfl hx)
      · exact nomatch h2

/-! ## C63 -/

/-- C63: take any `io.Reader` that keeps the contract, holding the bytes of a file that is not of version 1, and a
decompressor that hands out its bytes through any such reader. `Read` succeeds exactly if it succeeds on the same bytes in
memory, with the same recording, the same count and the same bytes left over. (`hF`: decompressing nothing
gives nothing.) -/
theorem C63_any_reader (hF : ∀ fin, (F.inflate [] fin).1 = [])
    (hi : ∀ b e, G.content (inflated b e).st = b ∧ G.fin (inflated b e).st = e) (X : Ext)
    (um : Bytes → Except Err V1.Recording) (reg : List Encoder) (s : R.At) (hv : (R.content s.st).head? ≠ some 1)
    (rec : Rec) (n : Nat) (rest : Bytes) :
    (∃ s', readVia inflated F X um reg s = .ok ((rec, n, none), s') ∧ R.content s'.st = rest) ↔
      ∃ t', read F X um reg (⟨R.content s.st, R.fin s.st⟩ : Flat) = .ok ((rec, n, none), t') ∧ t'.data = rest := by
  have h := via_same F inflated hF hi X um reg s ⟨R.content s.st, R.fin s.st⟩ ⟨rfl, rfl⟩ hv
  rw [read_eq_via]
  rcases h with h | ⟨h1, h2⟩
  · constructor
    · rintro ⟨s', hs, hc⟩
      rw [hs] at h
      revert h
      cases readVia Flat.mk F X um reg (⟨R.content s.st, R.fin s.st⟩ : Flat) with
      | error p => exact fun h => h.elim
      | ok r =>
        obtain ⟨a, t'⟩ := r
        rintro ⟨rfl, hd⟩
        exact ⟨t', rfl, by rw [← hd.1, hc]⟩
    · rintro ⟨t', ht, hc⟩
      rw [ht] at h
      revert h
      cases readVia inflated F X um reg s with
      | error p => exact fun h => h.elim
      | ok r =>
        obtain ⟨a, s'⟩ := r
        rintro ⟨rfl, hd⟩
        exact ⟨s', rfl, by rw [hd.1, hc]⟩
  · constructor
    · rintro ⟨s', hs, -⟩; exact (h1 ⟨_, _, _, hs⟩).elim
    · rintro ⟨t', ht, -⟩; exact (h2 ⟨_, _, _, ht⟩).elim

/-- C63 for the files the writer produces: whatever reader holds the file, and however decompressed bytes are handed
out, `Read` returns the recording stored and the number of bytes written. -/
theorem C63_written_file (hL : F.Lawful) (hF : ∀ fin, (F.inflate [] fin).1 = [])
    (hi : ∀ b e, G.content (inflated b e).st = b ∧ G.fin (inflated b e).st = e) (X : Ext)
    (um : Bytes → Except Err V1.Recording) (cfg : WriterCfg) (registered : List Encoder) (orders : List (List Bytes))
    (rec : Rec) (view : Coll → List F64 → Coll) (hg : GoodRec rec) (hko : KeyOrders rec orders) (ht : cfg.tech ≤ 2)
    (hsd : SigDetermines cfg.encoders) (hu : Understands cfg.encoders registered view rec)
    (out' : Buf) (n : Nat) (h : write F cfg orders rec (⟨[]⟩ : Buf) = .ok (n, none, out')) (hn : n ≤ sizeLimit)
    (s : R.At) (hs : R.content s.st = out'.bytes) (he : R.fin s.st = .eof) :
    ∃ s', readVia inflated F X um registered s =
      .ok ((rec.mapColls fun c => view c (storedTimes cfg.tech c.times), n, none), s') := by
  obtain ⟨t, hr⟩ := C17_roundtrip_any_encoders F hL X um cfg registered orders rec view hg hko ht hsd hu out' n h hn
  have hv : (R.content s.st).head? ≠ some 1 := by
    obtain ⟨_, _, _, _, _, _, _, -, -, -, -, hb⟩ := write_shape F cfg orders rec _ _ n h
    rw [hs, hb]
    simp [prelude]
  have := (C63_any_reader F inflated hF hi X um registered s hv _ n t.data).2 ⟨t, by rw [hs, he]; exact hr, rfl⟩
  obtain ⟨s', h1, -⟩ := this
  exact ⟨s', h1⟩

/-- A reader that hands out one byte at a time and reports the end together with the last one. -/
def drip : Bytes × Err → Bytes × Option Err × (Bytes × Err)
  | ([], e) => ([], some e, ([], e))
  | ([b], e) => ([b], some e, ([], e))
  | (b :: c :: bs, e) => ([b], none, (c :: bs, e))

theorem drip_honest : Honest (fun _ => drip) (fun s => s.1) (fun s => s.2) := by
  rintro n ⟨d, e⟩ hn
  rcases d with _ | ⟨b, _ | ⟨c, d⟩⟩
  · exact ⟨rfl, Nat.zero_le _, rfl, .inr ⟨rfl, rfl⟩⟩
  · exact ⟨rfl, hn, rfl, .inr ⟨rfl, rfl⟩⟩
  · exact ⟨rfl, hn, rfl, .inl ⟨rfl, by simp [drip]⟩⟩

/-- See `drip`. -/
def dripReader : IoReader := ⟨Bytes × Err, fun _ => drip, fun s => s.1, fun s => s.2, drip_honest⟩

/-- An uncompressed file: a recording with the identifier "a" and nothing else. -/
def tinyFile : Bytes := [2, 0, 0, 0, 1, 97, 0, 0, 0, 0, 0, 0]

/-- The theorems apply to this reader, as source and as decompressor, and the small file is read through it. -/
example : (∀ fin, (storeFlate.inflate [] fin).1 = []) ∧
    (∀ b e, dripReader.content (⟨(b, e)⟩ : dripReader.At).st = b ∧ dripReader.fin (⟨(b, e)⟩ : dripReader.At).st = e) ∧
    (dripReader.content (⟨(tinyFile, .eof)⟩ : dripReader.At).st).head? ≠ some 1 ∧
    ∃ s', readVia (fun b e => (⟨(b, e)⟩ : dripReader.At)) storeFlate plainExt (fun _ => .error .eof) []
      (⟨(tinyFile, .eof)⟩ : dripReader.At) = .ok ((.mk [97] [] [] [] [] [] [], 12, none), s') :=
  ⟨fun _ => rfl, fun _ _ => ⟨rfl, rfl⟩, by decide, ⟨([], .eof)⟩, rfl⟩

/-- The sample recording is read back through this reader. -/
example : ∃ out s', write storeFlate sampleCfg sampleOrders sample (⟨[]⟩ : Buf) = .ok (289, none, out) ∧
    readVia (fun b e => (⟨(b, e)⟩ : dripReader.At)) storeFlate plainExt (fun _ => .error .eof) sampleCfg.encoders
      (⟨(out.bytes, .eof)⟩ : dripReader.At) =
      .ok ((sample.mapColls fun c => storedColl losslessEncoders c (storedTimes sampleCfg.tech c.times), 289, none), s') := by
  obtain ⟨out, h⟩ := sample_write
  obtain ⟨s', hs⟩ := C63_written_file (R := dripReader) storeFlate (fun b e => (⟨(b, e)⟩ : dripReader.At)) storeFlate_lawful
    (fun _ => rfl) (fun _ _ => ⟨rfl, rfl⟩) plainExt (fun _ => .error .eof) sampleCfg sampleCfg.encoders sampleOrders sample
    (storedColl losslessEncoders) sample_good sample_orders (by decide) (builtin_sigDetermines _)
    (builtin_understands _ _ _ fun c _ b hb => ⟨b, (Builtin.chosen_some hb).1, rfl⟩) out 289 h (by decide)
    ⟨(out.bytes, .eof)⟩ rfl rfl
  exact ⟨out, s', h, hs⟩

/-- What C63 does not promise: the contract of `io.Reader` allows a call to return no bytes and no error (it only discourages
it). `Read` takes such a call for a byte that it got, so that it accepts the file, without an error, as another
recording: identifier and name are "a" and "", but are read as "" and "a". -/
theorem C63_empty_read_is_misread : ∃ pieces : List Bytes, pieces.flatten = tinyFile ∧
    (read storeFlate plainExt (fun _ => .error .eof) [] (⟨tinyFile, .eof⟩ : Flat)).map Prod.fst =
      .ok (.mk [97] [] [] [] [] [] [], 12, none) ∧
    (read storeFlate plainExt (fun _ => .error .eof) [] (⟨pieces, .eof⟩ : Chunked)).map Prod.fst =
      .ok (.mk [] [97] [] [] [] [] [], 11, none) :=
  ⟨[[2, 0], [], [0, 0, 1, 97, 0, 0, 0, 0, 0, 0]], rfl, rfl, rfl⟩

end Rap
