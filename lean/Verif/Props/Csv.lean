import Verif.Spec.Csv
import Verif.Proof.Json
import Verif.Props.V1

/-!
# C44: CSV import groups every row exactly once
-/

namespace Rap

variable {T : CsvExt}

/-! ## The header -/

/-- The index of a column after the loop over `l`, which starts at position `i` of `header`. -/
theorem columnsFrom_field (name : Bytes) (f : CsvColumns → Option Nat)
    (hset : ∀ c i col, f (setColumn T c i col) = if T.trim col = name then some i else f c) :
    (l : List Bytes) → (i : Nat) → (c : CsvColumns) → f (columnsFrom T c i l) =
      match (l.zipIdx i).reverse.find? (fun p => T.trim p.1 = name) with
      | some p => some p.2
      | none => f c
  | [], i, c => rfl
  | col :: rest, i, c => by
    rw [columnsFrom, columnsFrom_field name f hset rest (i + 1), List.zipIdx_cons, List.reverse_cons, List.find?_append]
    cases h : List.find? (fun p => decide (T.trim p.1 = name)) (List.zipIdx rest (i + 1)).reverse with
    | some p => rfl
    | none =>
      rw [Option.none_or, hset]
      by_cases hc : T.trim col = name <;> simp [hc]

theorem isColumn_of_find {header : List Bytes} {name : Bytes} {p : Bytes × Nat}
    (h : header.zipIdx.reverse.find? (fun p => T.trim p.1 = name) = some p) : IsColumn T header name p.2 := by
  rw [List.find?_eq_some_iff_append] at h
  obtain ⟨h1, as, bs, h2, h3⟩ := h
  have h2' : header.zipIdx = bs.reverse ++ p :: as.reverse := by
    have := congrArg List.reverse h2
    simpa using this
  have hget : ∀ (j : Nat) (q : Bytes × Nat), header.zipIdx[j]? = some q → header[j]? = some q.1 ∧ q.2 = j := by
    intro j q hq
    rw [List.getElem?_zipIdx] at hq
    cases hj : header[j]? with
    | none => rw [hj] at hq; simp at hq
    | some a => rw [hj] at hq; simp at hq; subst hq; simp
  have hp : header.zipIdx[bs.length]? = some p := by rw [h2']; simp
  obtain ⟨hp1, hp2⟩ := hget _ _ hp
  rw [hp2]
  refine ⟨⟨p.1, hp1, of_decide_eq_true h1⟩, fun j a hj ha hn => ?_⟩
  have hz : header.zipIdx[j]? = some (a, j) := by rw [List.getElem?_zipIdx, ha]; simp
  rw [h2', List.getElem?_append_right (by simp; omega)] at hz
  obtain ⟨k, hk⟩ : ∃ k, j - bs.reverse.length = k + 1 := ⟨j - bs.length - 1, by simp; omega⟩
  rw [hk, List.getElem?_cons_succ] at hz
  have hm : (a, j) ∈ as := by
    have := List.mem_of_getElem? hz
    simpa using this
  have := h3 _ hm
  simp [hn] at this

theorem find_of_isColumn {header : List Bytes} {name : Bytes} {i : Nat} (h : IsColumn T header name i) :
    ∃ p, header.zipIdx.reverse.find? (fun p => T.trim p.1 = name) = some p ∧ p.2 = i := by
  cases hf : header.zipIdx.reverse.find? (fun p => T.trim p.1 = name) with
  | none =>
    obtain ⟨⟨a, ha, hn⟩, -⟩ := h
    rw [List.find?_eq_none] at hf
    have hz : header.zipIdx[i]? = some (a, i) := by rw [List.getElem?_zipIdx, ha]; simp
    have := hf (a, i) (by simpa using List.mem_of_getElem? hz)
    simp [hn] at this
  | some p =>
    refine ⟨p, rfl, ?_⟩
    obtain ⟨⟨a, ha, hn⟩, hl⟩ := h
    obtain ⟨⟨b, hb, hm⟩, hk⟩ := isColumn_of_find hf
    rcases lt_trichotomy p.2 i with h | h | h
    · exact absurd hn (hk _ _ h ha)
    · exact h
    · exact absurd hm (hl _ _ h hb)

def noColumns : CsvColumns := ⟨none, none, none, none, none, none⟩

/-- The index recorded for a name is that of its column, if there is one. -/
theorem columnsFrom_some {header : List Bytes} (name : Bytes) (f : CsvColumns → Option Nat) (h0 : f noColumns = none)
    (hset : ∀ c i col, f (setColumn T c i col) = if T.trim col = name then some i else f c) (i : Nat) :
    f (columnsFrom T noColumns 0 header) = some i ↔ IsColumn T header name i := by
  rw [columnsFrom_field name f hset]
  constructor
  · intro h
    split at h
    · next p hp => cases h; exact isColumn_of_find hp
    · rw [h0] at h; cases h
  · intro h
    obtain ⟨p, hp, rfl⟩ := find_of_isColumn h
    rw [hp]

theorem cell_pure {row : List Bytes} {o : Option Nat} {s : Bytes} : cell row o = pure s ↔ ∃ i, o = some i ∧ row[i]? = some s := by
  unfold cell
  cases o with
  | none => simp [GoE.panic_ne]
  | some i =>
    dsimp only
    cases hr : row[i]? with
    | none => simp [GoE.panic_ne, hr]
    | some a => simp [GoE.pure_inj, hr]

theorem cell_column {header row : List Bytes} (name : Bytes) (f : CsvColumns → Option Nat) (h0 : f noColumns = none)
    (hset : ∀ c i col, f (setColumn T c i col) = if T.trim col = name then some i else f c) (s : Bytes) :
    cell row (f (columnsFrom T noColumns 0 header)) = pure s ↔ HasCell T header row name s := by
  rw [cell_pure]
  constructor
  · rintro ⟨i, hi, hr⟩; exact ⟨i, (columnsFrom_some name f h0 hset i).1 hi, hr⟩
  · rintro ⟨i, hi, hr⟩; exact ⟨i, (columnsFrom_some name f h0 hset i).2 hi, hr⟩

macro "column_tac" : tactic => `(tactic| (intro c i col; unfold setColumn; dsimp only; split_ifs <;> simp_all))

theorem set_time (c : CsvColumns) (i : Nat) (col : Bytes) :
    (setColumn T c i col).time = if T.trim col = b!"time" then some i else c.time := by
  revert c i col; column_tac
theorem set_id (c : CsvColumns) (i : Nat) (col : Bytes) :
    (setColumn T c i col).id = if T.trim col = b!"id" then some i else c.id := by
  revert c i col; column_tac
theorem set_name (c : CsvColumns) (i : Nat) (col : Bytes) :
    (setColumn T c i col).name = if T.trim col = b!"name" then some i else c.name := by
  revert c i col; column_tac
theorem set_x (c : CsvColumns) (i : Nat) (col : Bytes) :
    (setColumn T c i col).x = if T.trim col = b!"x" then some i else c.x := by
  revert c i col; column_tac
theorem set_y (c : CsvColumns) (i : Nat) (col : Bytes) :
    (setColumn T c i col).y = if T.trim col = b!"y" then some i else c.y := by
  revert c i col; column_tac
theorem set_z (c : CsvColumns) (i : Nat) (col : Bytes) :
    (setColumn T c i col).z = if T.trim col = b!"z" then some i else c.z := by
  revert c i col; column_tac

/-- A row is parsed to its data, and only then. -/
theorem parseRow_pure {header row : List Bytes} {id name : Bytes} {t : F64} {v : V3} :
    parseRow T (columnsFrom T noColumns 0 header) row = pure (id, name, t, v) ↔ RowIs T header row ⟨id, name, t, v⟩ := by
  unfold parseRow RowIs HasNumber
  simp only [GoE.bind_pure_iff, GoE.get_pure, GoE.pure_inj, cell_column b!"time" (·.time) rfl set_time,
    cell_column b!"id" (·.id) rfl set_id, cell_column b!"name" (·.name) rfl set_name, cell_column b!"x" (·.x) rfl set_x,
    cell_column b!"y" (·.y) rfl set_y, cell_column b!"z" (·.z) rfl set_z]
  constructor
  · rintro ⟨s, h1, t', h2, n, h3, i, h4, sx, h5, x, h6, sy, h7, y, h8, sz, h9, z, h10, h11⟩
    cases h11
    exact ⟨h4, h3, ⟨s, h1, h2⟩, ⟨sx, h5, h6⟩, ⟨sy, h7, h8⟩, ⟨sz, h9, h10⟩⟩
  · rintro ⟨h4, h3, ⟨s, h1, h2⟩, ⟨sx, h5, h6⟩, ⟨sy, h7, h8⟩, ⟨sz, h9, h10⟩⟩
    exact ⟨s, h1, t, h2, name, h3, id, h4, sx, h5, _, h6, sy, h7, _, h8, sz, h9, _, h10, rfl⟩

/-! ## The groups -/

theorem mapGet_mapSet {β : Type} (m : List (Bytes × β)) (k k' : Bytes) (v : β) :
    mapGet (mapSet m k v) k' = if k' = k then some v else mapGet m k' := by
  induction m with
  | nil => rw [mapSet, mapGet]; simp only [mapGet, eq_comm]
  | cons p rest ih =>
    obtain ⟨q, u⟩ := p
    rw [mapSet]
    split
    · next h =>
      subst h
      rw [mapGet, mapGet]
      by_cases h : q = k'
      · rw [if_pos h, if_pos h.symm]
      · rw [if_neg h, if_neg (Ne.symm h), if_neg h]
    · next h =>
      rw [mapGet, mapGet, ih]
      by_cases h' : q = k'
      · rw [if_pos h', if_pos h', if_neg (fun e => h (h'.trans e))]
      · rw [if_neg h', if_neg h']

/-- The captures kept for a group. -/
def kept (w : CsvGroups) (id name : Bytes) : Option (List (F64 × V3)) := mapGet ((mapGet w id).getD []) name

theorem kept_addCapture (w : CsvGroups) (id name : Bytes) (cap : F64 × V3) (id' name' : Bytes) :
    kept (addCapture w id name cap) id' name' =
      if id' = id ∧ name' = name then some ((kept w id name).getD [] ++ [cap]) else kept w id' name' := by
  unfold kept addCapture
  dsimp only
  rw [mapGet_mapSet]
  by_cases h1 : id' = id
  · subst h1
    rw [if_pos rfl, Option.getD_some, mapGet_mapSet]
    by_cases h2 : name' = name
    · simp [h2]
    · simp [h2]
  · rw [if_neg h1, if_neg (fun h => h1 h.1)]

/-- The captures of the rows of a group. -/
def groupCaptures (rows : List CsvRow) (id name : Bytes) : List (F64 × V3) :=
  (rows.filter fun r => r.id = id ∧ r.name = name).map fun r => (r.time, r.pos)

/-- The groups hold the captures of the rows read so far. -/
structure GroupsOf (rows : List CsvRow) (w : CsvGroups) : Prop where
  outer : (w.map (·.1)).Nodup
  inner : ∀ p ∈ w, (p.2.map (·.1)).Nodup
  kept : ∀ id name, kept w id name = if groupCaptures rows id name = [] then none else some (groupCaptures rows id name)

theorem GroupsOf.nil : GroupsOf [] [] where
  outer := by simp
  inner := by simp
  kept _ _ := rfl

theorem GroupsOf.add {rows : List CsvRow} {w : CsvGroups} (h : GroupsOf rows w) (r : CsvRow) :
    GroupsOf (rows ++ [r]) (addCapture w r.id r.name (r.time, r.pos)) where
  outer := nodup_mapSet h.outer _ _
  inner p hp := by
    unfold addCapture at hp
    rcases mem_mapSet hp with rfl | hp
    · refine nodup_mapSet ?_ _ _
      cases hg : mapGet w r.id with
      | none => simp
      | some m => exact h.inner _ (mem_of_mapGet hg)
    · exact h.inner _ hp
  kept id name := by
    rw [kept_addCapture]
    have hg : groupCaptures (rows ++ [r]) id name =
        groupCaptures rows id name ++ if r.id = id ∧ r.name = name then [(r.time, r.pos)] else [] := by
      unfold groupCaptures
      rw [List.filter_append, List.map_append]
      congr 1
      by_cases hc : r.id = id ∧ r.name = name
      · rw [if_pos hc, List.filter_cons_of_pos (by simpa using hc)]; rfl
      · rw [if_neg hc, List.filter_cons_of_neg (by simpa using hc)]; rfl
    rw [hg]
    by_cases hc : r.id = id ∧ r.name = name
    · obtain ⟨rfl, rfl⟩ := hc
      have hp : r.id = r.id ∧ r.name = r.name := ⟨rfl, rfl⟩
      rw [if_pos hp, h.kept]
      by_cases h0 : groupCaptures rows r.id r.name = []
      · simp [h0]
      · simp [h0]
    · rw [if_neg (fun e => hc ⟨e.1.symm, e.2.symm⟩), if_neg hc, List.append_nil, h.kept]

theorem csvRows_pure {header : List Bytes} {stop : Option Err} : (rows : List (List Bytes)) → {w w' : CsvGroups} →
    {done : List CsvRow} → GroupsOf done w → csvRows T (columnsFrom T noColumns 0 header) stop w rows = pure w' →
    stop = none ∧ ∃ data, List.Forall₂ (RowIs T header) rows data ∧ GroupsOf (done ++ data) w'
  | [], w, w', done, hw, h => by
    unfold csvRows at h
    split at h
    · rw [GoE.pure_inj] at h; subst h; exact ⟨rfl, [], .nil, by rwa [List.append_nil]⟩
    · cases h
  | row :: rest, w, w', done, hw, h => by
    rw [csvRows, GoE.bind_pure_iff] at h
    obtain ⟨⟨id, name, t, v⟩, h1, h2⟩ := h
    rw [parseRow_pure] at h1
    obtain ⟨h3, data, h4, h5⟩ := csvRows_pure rest (hw.add ⟨id, name, t, v⟩) h2
    exact ⟨h3, ⟨id, name, t, v⟩ :: data, .cons h1 h4, by rwa [List.append_assoc] at h5⟩

theorem csvRows_ok {header : List Bytes} : (rows : List (List Bytes)) → (data : List CsvRow) → (w : CsvGroups) →
    List.Forall₂ (RowIs T header) rows data → ∃ w', csvRows T (columnsFrom T noColumns 0 header) none w rows = pure w'
  | [], _, w, _ => ⟨w, rfl⟩
  | row :: rest, _, w, .cons (b := ⟨id, name, t, v⟩) (l₂ := data) h1 h2 => by
    obtain ⟨w', hw'⟩ := csvRows_ok rest data (addCapture w id name (t, v)) h2
    refine ⟨w', ?_⟩
    rw [csvRows, parseRow_pure.2 h1]
    exact hw'

theorem kept_iff {rows : List CsvRow} {w : CsvGroups} (h : GroupsOf rows w) (id name : Bytes) (caps : List (F64 × V3)) :
    (∃ m, (id, m) ∈ w ∧ (name, caps) ∈ m) ↔ kept w id name = some caps := by
  unfold Rap.kept
  constructor
  · rintro ⟨m, h1, h2⟩
    rw [mapGet_of_mem h.outer h1]
    exact mapGet_of_mem (h.inner _ h1) h2
  · intro hk
    cases hg : mapGet w id with
    | none => rw [hg] at hk; cases hk
    | some m =>
      rw [hg] at hk
      exact ⟨m, mem_of_mapGet hg, mem_of_mapGet hk⟩

theorem csvRecordings_grouped (hT : T.Lawful) {rows : List CsvRow} {w : CsvGroups} (h : GroupsOf rows w) :
    Grouped rows (csvRecordings T w) := by
  refine ⟨(T.order w).flatMap fun p => (T.order p.2).map fun q => (p.1, q.1), ?_, ?_, ?_⟩
  · rw [List.nodup_flatMap]
    constructor
    · intro p hp
      have hn := h.inner p ((hT _ w).mem_iff.1 hp)
      have : ((T.order p.2).map (·.1)).Nodup := ((hT _ p.2).map _).nodup_iff.2 hn
      have h2 : ((T.order p.2).map fun q => (p.1, q.1)) = ((T.order p.2).map (·.1)).map fun n => (p.1, n) := by
        rw [List.map_map]; rfl
      rw [h2]
      exact this.map fun a b e => (Prod.mk.inj e).2
    · have : ((T.order w).map (·.1)).Nodup := ((hT _ w).map _).nodup_iff.2 h.outer
      rw [List.Nodup, List.pairwise_map] at this
      refine this.imp fun {p p'} hne => ?_
      intro x hx hx'
      simp only [List.mem_map] at hx hx'
      obtain ⟨q, -, rfl⟩ := hx
      obtain ⟨q', -, e⟩ := hx'
      exact hne (Prod.mk.inj e).1.symm
  · intro id name
    simp only [List.mem_flatMap, List.mem_map, (hT _ _).mem_iff]
    have hk := h.kept id name
    constructor
    · rintro ⟨⟨i, m⟩, hp, ⟨n, caps⟩, hq, e⟩
      obtain ⟨rfl, rfl⟩ := Prod.mk.inj e
      have := (kept_iff h _ _ caps).1 ⟨m, hp, hq⟩
      rw [this] at hk
      split at hk
      · cases hk
      · next hne =>
        unfold groupCaptures at hne
        rw [List.map_eq_nil_iff, List.filter_eq_nil_iff] at hne
        push Not at hne
        obtain ⟨r, hr, hc⟩ := hne
        exact ⟨r, hr, by simpa using hc⟩
    · rintro ⟨r, hr, hc⟩
      rw [if_neg] at hk
      · obtain ⟨m, h1, h2⟩ := (kept_iff h _ _ _).2 hk
        exact ⟨(id, m), h1, (name, _), h2, rfl⟩
      · intro he
        unfold groupCaptures at he
        rw [List.map_eq_nil_iff, List.filter_eq_nil_iff] at he
        exact he r hr (by simpa using hc)
  · unfold csvRecordings
    rw [List.map_flatMap]
    apply List.flatMap_congr
    rintro ⟨id, m⟩ hp
    rw [(hT _ _).mem_iff] at hp
    dsimp only
    rw [List.map_map]
    apply List.map_congr_left
    rintro ⟨name, caps⟩ hq
    rw [(hT _ _).mem_iff] at hq
    have := (kept_iff h _ _ caps).1 ⟨m, hp, hq⟩
    have hk := h.kept id name
    rw [this] at hk
    split at hk
    · cases hk
    · cases hk; rfl

/-- C44: what is imported is one recording per pair of id and name, each with one collection holding the captures of its
rows in order. -/
theorem C44_imported (hT : T.Lawful) {input : CsvInput} {r : Rec} (h : recordingFromCSV T input = pure r) :
    ∃ header data recs, input.header = .ok header ∧ input.stop = none ∧ List.Forall₂ (RowIs T header) input.rows data ∧
      Grouped data recs ∧ r = .mk [] [] [] recs [] [] [] := by
  unfold recordingFromCSV at h
  split at h
  · cases h
  · next header hh =>
    rw [GoE.bind_pure_iff] at h
    obtain ⟨w, h1, h2⟩ := h
    rw [GoE.pure_inj] at h2
    obtain ⟨h3, data, h4, h5⟩ := csvRows_pure input.rows GroupsOf.nil h1
    exact ⟨header, data, _, hh, h3, h4, csvRecordings_grouped hT h5, h2.symm⟩

/-- C44: every table whose rows have all six cells and numbers where needed is imported. -/
theorem C44_accepted {input : CsvInput} {header : List Bytes} {data : List CsvRow} (hh : input.header = .ok header)
    (hs : input.stop = none) (hr : List.Forall₂ (RowIs T header) input.rows data) : ∃ r, recordingFromCSV T input = pure r := by
  obtain ⟨w, hw⟩ := csvRows_ok input.rows data [] hr
  unfold recordingFromCSV
  rw [hh, hs]
  have : csvRows T (columnsFrom T ⟨none, none, none, none, none, none⟩ 0 header) none [] input.rows = pure w := hw
  dsimp only
  rw [this]
  exact ⟨_, rfl⟩

/-- C44: a table with a data row but without one of the columns is a panic, not an error. -/
theorem C44_missing_time {input : CsvInput} {header row : List Bytes} {rest : List (List Bytes)}
    (hh : input.header = .ok header) (hr : input.rows = row :: rest) (hm : ∀ col ∈ header, T.trim col ≠ b!"time") :
    (recordingFromCSV T input).run = .error .indexOutOfRange := by
  have hc : (columnsFrom T noColumns 0 header).time = none := by
    cases ht : (columnsFrom T noColumns 0 header).time with
    | none => rfl
    | some i =>
      obtain ⟨⟨a, ha, hn⟩, -⟩ := (columnsFrom_some b!"time" (·.time) rfl set_time i).1 ht
      exact absurd hn (hm a (List.mem_of_getElem? ha))
  unfold recordingFromCSV
  rw [hh, hr]
  have : parseRow T (columnsFrom T ⟨none, none, none, none, none, none⟩ 0 header) row = GoE.panic .indexOutOfRange := by
    unfold parseRow
    change cell row (columnsFrom T noColumns 0 header).time >>= _ = _
    rw [hc]; rfl
  dsimp only
  rw [csvRows, this]
  rfl

/-- The numbers 0 to 3; spaces are ignored; maps are iterated backwards. -/
def sampleCsv : CsvExt where
  trim s := s.filter (· ≠ 32)
  parseFloat s :=
    if s = b!"0" then some 0 else if s = b!"1" then some 0x3FF0000000000000
    else if s = b!"2" then some 0x4000000000000000 else if s = b!"3" then some 0x4008000000000000 else none
  order m := m.reverse

/-- Three rows of two groups. -/
def sampleTable : CsvInput where
  header := .ok [b!"id", b!" name ", b!"time", b!"x", b!"unused", b!"y", b!"z"]
  rows := [[b!"1", b!"a", b!"0", b!"1", b!"?", b!"2", b!"3"], [b!"2", b!"a", b!"0", b!" 3", b!"?", b!"2", b!"0"],
    [b!"1", b!"a", b!"1", b!"2", b!"?", b!"2", b!"1"]]
  stop := none

def sampleCsvRecording : Rec :=
  .mk [] [] [] [.mk b!"2" b!"a" [some (.position b!"Position" [(0, ⟨0x4008000000000000, 0x4000000000000000, 0⟩)])] [] [] [] [],
    .mk b!"1" b!"a" [some (.position b!"Position" [(0, ⟨0x3FF0000000000000, 0x4000000000000000, 0x4008000000000000⟩),
      (0x3FF0000000000000, ⟨0x4000000000000000, 0x4000000000000000, 0x3FF0000000000000⟩)])] [] [] [] []] [] [] []

theorem sampleCsv_lawful : sampleCsv.Lawful := fun _ m => List.reverse_perm m

theorem sampleTable_imported : recordingFromCSV sampleCsv sampleTable = pure sampleCsvRecording := rfl

example : sampleCsv.Lawful ∧ recordingFromCSV sampleCsv sampleTable = pure sampleCsvRecording ∧
    (∃ r, recordingFromCSV sampleCsv { sampleTable with rows := [] } = pure r) ∧
    (recordingFromCSV sampleCsv { sampleTable with header := .ok [b!"id", b!"x"] }).run = .error .indexOutOfRange :=
  ⟨sampleCsv_lawful, sampleTable_imported, C44_accepted rfl rfl .nil, C44_missing_time rfl rfl (by decide)⟩

end Rap
