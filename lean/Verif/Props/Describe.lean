import Verif.Proof.Describe

/-!
# C64: metadata as text
-/

namespace Rap

theorem entryLines_ok {l : List (Bytes × Go Bytes)} {ls : Bytes} :
    entryLines l = .ok ls ↔
      ∃ ts : List Bytes, l.map (·.2) = ts.map .ok ∧ ls = (((l.map (·.1)).zip ts).map entryLine).flatten := by
  induction l generalizing ls with
  | nil =>
    constructor
    · intro h
      injection h with h
      exact ⟨[], rfl, h.symm⟩
    · rintro ⟨ts, h, rfl⟩
      rfl
  | cons e l ih =>
    obtain ⟨k, v⟩ := e
    rw [entryLines]
    cases v with
    | error p =>
      constructor
      · intro h; cases h
      · rintro ⟨ts, h, -⟩
        cases ts <;> simp at h
    | ok t =>
      constructor
      · intro h
        cases hr : entryLines l with
        | error p => rw [hr] at h; cases h
        | ok ls' =>
          rw [hr] at h
          obtain ⟨ts, h1, h2⟩ := ih.1 hr
          injection h with h
          refine ⟨t :: ts, by simp [h1], ?_⟩
          rw [← h, h2]; simp [entryLine]
      · rintro ⟨ts, h, rfl⟩
        cases ts with
        | nil => simp at h
        | cons t' ts =>
          simp only [List.map_cons, List.cons.injEq, Except.ok.injEq] at h
          obtain ⟨rfl, h⟩ := h
          rw [ih.2 ⟨ts, h, rfl⟩]
          simp [entryLine, Bind.bind, Except.bind]

theorem entryLines_error {l : List (Bytes × Go Bytes)} {p : Panic} (h : entryLines l = .error p) :
    ∃ e ∈ l, e.2 = .error p := by
  induction l with
  | nil => cases h
  | cons e l ih =>
    obtain ⟨k, v⟩ := e
    rw [entryLines] at h
    cases v with
    | error q => exact ⟨_, List.mem_cons_self, by cases h; rfl⟩
    | ok t =>
      cases hr : entryLines l with
      | error q =>
        rw [hr] at h; cases h
        obtain ⟨e, he, h⟩ := ih hr
        exact ⟨e, List.mem_cons_of_mem _ he, h⟩
      | ok ls => rw [hr] at h; cases h

/-- The texts of the entries of a block. -/
theorem describe_block_ok {F : FmtExt} {kvs : Block} {t : Bytes} :
    describe F (.block kvs) = .ok t ↔ ∃ ts : List Bytes, (sortEntries kvs).map (fun kv => describe F kv.2) = ts.map .ok ∧
      t = b!"{\n" ++ ((((sortEntries kvs).map (·.1)).zip ts).map entryLine).flatten ++ b!"}" := by
  rw [describe_block]
  constructor
  · intro h
    cases hr : entryLines ((sortEntries kvs).map fun kv => (kv.1, describe F kv.2)) with
    | error p => rw [hr] at h; cases h
    | ok ls =>
      rw [hr] at h
      obtain ⟨ts, h1, h2⟩ := entryLines_ok.1 hr
      rw [List.map_map] at h1 h2
      injection h with h
      exact ⟨ts, h1, by rw [← h, h2]; rfl⟩
  · rintro ⟨ts, h1, rfl⟩
    rw [entryLines_ok.2 ⟨ts, by rw [List.map_map]; exact h1, rfl⟩]
    rw [List.map_map]; rfl

theorem shows_of_describe {F : FmtExt} {p : Property} (hd : DistinctKeys p) (hr : NoRaw p) {t : Bytes}
    (h : describe F p = .ok t) : TextOf F p t := by
  induction hd generalizing t with
  | @block kvs hn _ ih =>
    obtain ⟨ts, h1, rfl⟩ := describe_block_ok.1 h
    have hl : (sortEntries kvs).length = ts.length := by simpa using congrArg List.length h1
    refine .block (sortEntries_perm kvs) (sortEntries_sorted kvs hn) hl ?_
    rintro ⟨kv, x⟩ hx
    have hm : kv ∈ kvs := (sortEntries_perm kvs).mem_iff.1 (List.of_mem_zip hx).1
    refine ih kv hm ?_ ?_
    · cases hr with
      | block hr => exact hr kv hm
      | other hb _ => exact absurd rfl (hb kvs)
    · obtain ⟨i, hi, hx⟩ := List.mem_iff_getElem.1 hx
      rw [List.getElem_zip] at hx
      rw [List.length_zip] at hi
      have h2 := congrArg (·[i]?) h1
      simp only [List.getElem?_map] at h2
      rw [List.getElem?_eq_getElem (by omega), List.getElem?_eq_getElem (by omega)] at h2
      simp only [Option.map_some, Option.some.injEq] at h2
      rw [Prod.mk.injEq] at hx
      dsimp only
      rw [← hx.1, h2, hx.2]
  | @other p hb =>
    cases p with
    | str s => cases h; exact .str _
    | int32 i => cases h; exact .int (decimal_spec _)
    | f32 f => cases h; exact .f32 f
    | bool b => cases h; cases b; exacts [.false, .true]
    | byte b => cases h; exact .byte (decimal_natCast _)
    | vec2 x y => cases h; exact .vec2 x y
    | vec3 x y z => cases h; exact .vec3 x y z
    | block kvs => exact absurd rfl (hb kvs)
    | time i => cases h; exact .time (decimal_spec _)
    | array base props => cases h; exact .array (decimal_natCast _) (decimal_natCast _)
    | raw base data =>
      cases hr with
      | other _ hr => exact absurd (.mk base data) hr
    | nil => cases h

theorem nodup_of_ascending {l : List Bytes} (h : l.Pairwise (· < ·)) : l.Nodup :=
  h.imp fun hlt he => by
    subst he
    exact bytes_lt_asymm hlt hlt

theorem describe_of_shows {F : FmtExt} {p : Property} {t : Bytes} (h : TextOf F p t) (hr : NoRaw p) :
    describe F p = .ok t := by
  induction h with
  | str s => rfl
  | @int i t h => rw [describe, integer_text_unique h (decimal_spec _)]
  | f32 f => rfl
  | true => rfl
  | false => rfl
  | @byte b t h => rw [describe, decimal_text_unique _ _ _ h (decimal_natCast _)]
  | vec2 x y => rfl
  | vec3 x y z => rfl
  | @time i t h => rw [describe, integer_text_unique h (decimal_spec _)]
  | @block kvs sorted ts hp hs hl _ ih =>
    have hn : (kvs.map (·.1)).Nodup := (hp.map (·.1)).nodup_iff.1 (nodup_of_ascending hs)
    have he : sorted = sortEntries kvs :=
      sorted_unique (hp.trans (sortEntries_perm kvs).symm) hs (sortEntries_sorted kvs hn)
    subst he
    refine describe_block_ok.2 ⟨ts, ?_, rfl⟩
    refine List.ext_getElem (by simpa using hl) fun i h1 h2 => ?_
    rw [List.getElem_map, List.getElem_map]
    rw [List.length_map] at h1 h2
    have hz : ((sortEntries kvs)[i], ts[i]) ∈ (sortEntries kvs).zip ts :=
      List.mem_iff_getElem.2 ⟨i, by rw [List.length_zip]; omega, by rw [List.getElem_zip]⟩
    refine ih _ hz ?_
    cases hr with
    | block hr => exact hr _ ((sortEntries_perm kvs).mem_iff.1 (List.of_mem_zip hz).1)
    | other hb _ => exact absurd rfl (hb kvs)
  | @array base props a n ha hn =>
    rw [describe, decimal_text_unique _ _ _ ha (decimal_natCast _), decimal_text_unique _ _ _ hn (decimal_natCast _)]
  | @raw base b a n =>
    cases hr with
    | other _ hr => exact absurd (.mk _ _) hr

theorem distinctKeys_of_constructible {p : Property} (h : Constructible p) : DistinctKeys p := by
  induction h with
  | block kvs hn _ ih => exact .block hn ih
  | _ => exact .other (by intro kvs h; cases h)

mutual
theorem nil_of_error {F : FmtExt} : ∀ (p : Property) {e : Panic}, describe F p = .error e → e = .nilDeref ∧ NilInBlock p
  | .str _, _, h => by cases h
  | .int32 _, _, h => by cases h
  | .f32 _, _, h => by cases h
  | .bool _, _, h => by cases h
  | .byte _, _, h => by cases h
  | .vec2 _ _, _, h => by cases h
  | .vec3 _ _ _, _, h => by cases h
  | .time _, _, h => by cases h
  | .array _ _, _, h => by cases h
  | .raw _ _, _, h => by cases h
  | .nil, _, h => by cases h; exact ⟨rfl, .nil⟩
  | .block kvs, e, h => by
    rw [describe_block] at h
    cases hr : entryLines ((sortEntries kvs).map fun kv => (kv.1, describe F kv.2)) with
    | ok ls => rw [hr] at h; cases h
    | error q =>
      rw [hr] at h; cases h
      obtain ⟨x, hx, hq⟩ := entryLines_error hr
      obtain ⟨kv, hkv, rfl⟩ := List.mem_map.1 hx
      have hm := (sortEntries_perm kvs).mem_iff.1 hkv
      have := nil_of_error_entries kvs kv hm hq
      exact ⟨this.1, .block hm this.2⟩

theorem nil_of_error_entries {F : FmtExt} : ∀ (kvs : List (Bytes × Property)), ∀ kv ∈ kvs, ∀ {e : Panic},
    describe F kv.2 = .error e → e = .nilDeref ∧ NilInBlock kv.2
  | [], _, h => by cases h
  | (k, p) :: rest, kv, h => by
    rcases List.mem_cons.1 h with rfl | h
    · exact fun h => nil_of_error p h
    · exact fun h' => nil_of_error_entries rest kv h h'
end

theorem error_of_nil {F : FmtExt} {p : Property} (h : NilInBlock p) : ∃ e, describe F p = .error e := by
  induction h with
  | nil => exact ⟨_, rfl⟩
  | @block kvs kv hm _ ih =>
    obtain ⟨e, he⟩ := ih
    cases hr : describe F (.block kvs) with
    | error e => exact ⟨e, rfl⟩
    | ok t =>
      obtain ⟨ts, h1, -⟩ := describe_block_ok.1 hr
      have hx : describe F kv.2 ∈ ts.map Except.ok := by
        rw [← h1]
        exact List.mem_map.2 ⟨kv, (sortEntries_perm kvs).mem_iff.2 hm, rfl⟩
      obtain ⟨x, -, hx⟩ := List.mem_map.1 hx
      rw [he] at hx
      cases hx

theorem not_nil_of_constructible {p : Property} (h : Constructible p) : ¬ NilInBlock p := by
  induction h with
  | block kvs _ _ ih =>
    intro h
    cases h with
    | block hm hn => exact ih _ hm hn
  | _ => intro h; cases h

/-! ## The statements -/

/-- C64: `String` panics exactly on nil and on blocks that have nil somewhere among their values (or the values of blocks inside
them); it has a text for everything else, whatever the formatting of floats. -/
theorem C64_panics_on_nil (F : FmtExt) (p : Property) :
    (describe F p = .error .nilDeref ↔ NilInBlock p) ∧ ((∃ t, describe F p = .ok t) ↔ ¬ NilInBlock p) := by
  refine ⟨⟨fun h => (nil_of_error p h).2, fun h => ?_⟩, ⟨?_, fun h => ?_⟩⟩
  · obtain ⟨e, he⟩ := error_of_nil (F := F) h
    rw [he, (nil_of_error p he).1]
  · rintro ⟨t, ht⟩ h
    obtain ⟨e, he⟩ := error_of_nil (F := F) h
    rw [ht] at he; cases he
  · cases hr : describe F p with
    | ok t => exact ⟨t, rfl⟩
    | error e => exact absurd (nil_of_error p hr).2 h

example : NilInBlock (.block [(b!"a", .byte 1), (b!"b", .block [(b!"c", .nil)])]) :=
  .block (kv := (b!"b", .block [(b!"c", .nil)])) (by simp) (.block (kv := (b!"c", .nil)) (by simp) .nil)

/-- C64: the text of a value built with the constructors is the one the specification describes, and no other. Missing:
binary and boolean arrays, see `C64_raw_arrays_counted_wrong`. -/
theorem C64_text_partial (F : FmtExt) (p : Property) (hp : Constructible p) (hr : NoRaw p) :
    (∃ t, describe F p = .ok t) ∧ ∀ t, describe F p = .ok t ↔ TextOf F p t :=
  ⟨(C64_panics_on_nil F p).2.2 (not_nil_of_constructible hp), fun _ =>
    ⟨shows_of_describe (distinctKeys_of_constructible hp) hr, fun h => describe_of_shows h hr⟩⟩

/-- Two keys, given in descending order, one of them with a block in it. -/
def describeSample : Property := .block [(b!"b", .block [(b!"x", .str b!"y")]), (b!"a", .bool true)]

example : Constructible describeSample ∧ NoRaw describeSample := by
  constructor
  · refine .block _ (by decide) ?_
    intro kv hkv
    simp only [List.mem_cons, List.not_mem_nil, or_false] at hkv
    rcases hkv with rfl | rfl
    · refine .block _ (by decide) ?_
      intro kv hkv
      simp only [List.mem_cons, List.not_mem_nil, or_false] at hkv
      subst hkv
      exact .str _
    · exact .bool _
  · refine .block ?_
    intro kv hkv
    simp only [List.mem_cons, List.not_mem_nil, or_false] at hkv
    rcases hkv with rfl | rfl
    · refine .block ?_
      intro kv hkv
      simp only [List.mem_cons, List.not_mem_nil, or_false] at hkv
      subst hkv
      exact .other (by intro _ h; cases h) (by intro h; cases h)
    · exact .other (by intro _ h; cases h) (by intro h; cases h)

example (F : FmtExt) : describe F describeSample = .ok b!"{\n\t\"a\": true;\n\t\"b\": {\n\t\"x\": y;\n};\n}" := rfl

/-- C64: the text does not depend on the order in which Go iterates the maps in the value. -/
theorem C64_map_order (F : FmtExt) {p q : Property} (h : SameUpToOrder p q) (hd : DistinctKeys p) :
    describe F p = describe F q := by
  induction h with
  | refl p => rfl
  | @block kvs kvs' mid hp hk _ ih =>
    have hn : (kvs.map (·.1)).Nodup := by
      cases hd with
      | block hn _ => exact hn
      | other hb => exact absurd rfl (hb kvs)
    have hc : ∀ kv ∈ kvs, DistinctKeys kv.2 := by
      cases hd with
      | block _ hc => exact hc
      | other hb => exact absurd rfl (hb kvs)
    have hl : mid.length = kvs'.length := by simpa using congrArg List.length hk
    have he : mid.map (fun kv => (kv.1, describe F kv.2)) = kvs'.map fun kv => (kv.1, describe F kv.2) := by
      refine List.ext_getElem (by simpa using hl) fun i h1 h2 => ?_
      rw [List.getElem_map, List.getElem_map]
      rw [List.length_map] at h1 h2
      have hz : (mid[i], kvs'[i]) ∈ mid.zip kvs' :=
        List.mem_iff_getElem.2 ⟨i, by rw [List.length_zip]; omega, by rw [List.getElem_zip]⟩
      have h3 := congrArg (·[i]?) hk
      simp only [List.getElem?_map] at h3
      rw [List.getElem?_eq_getElem h1, List.getElem?_eq_getElem h2] at h3
      simp only [Option.map_some, Option.some.injEq] at h3
      rw [h3, ih _ hz (hc _ (hp.mem_iff.2 (List.of_mem_zip hz).1))]
    rw [describe, describe, describeEntries_eq, describeEntries_eq, ← he,
      sortEntries_perm_eq (hp.map _) (by rw [List.map_map]; exact hn)]
  | array base hl _ => rw [describe, describe, hl]

example : SameUpToOrder describeSample (.block [(b!"a", .bool true), (b!"b", .block [(b!"x", .str b!"y")])]) ∧
    DistinctKeys describeSample := by
  refine ⟨.block (mid := [(b!"a", .bool true), (b!"b", .block [(b!"x", .str b!"y")])]) (List.Perm.swap _ _ _) rfl ?_,
    .block (by decide) ?_⟩
  · intro x hx
    simp only [List.zip_cons_cons, List.zip_nil_right, List.mem_cons, List.not_mem_nil, or_false] at hx
    rcases hx with rfl | rfl <;> exact .refl _
  · intro kv hkv
    simp only [List.mem_cons, List.not_mem_nil, or_false] at hkv
    rcases hkv with rfl | rfl
    · refine .block (by decide) ?_
      intro kv hkv
      simp only [List.mem_cons, List.not_mem_nil, or_false] at hkv
      subst hkv
      exact .other (by intro _ h; cases h)
    · exact .other (by intro _ h; cases h)

/-- C64: binary and boolean arrays never show how many items they have: the text counts the bytes of the length in front of
the items as well. -/
theorem C64_raw_arrays_counted_wrong (F : FmtExt) (base : UInt8) (b t : Bytes)
    (h : describe F (.raw base (bytesArrayToBytes b)) = .ok t) :
    ¬ TextOf F (.raw base (bytesArrayToBytes b)) t ∧
      ∃ a n extra, IsDecimal a base.toNat ∧ IsDecimal n (b.length + extra) ∧ 1 ≤ extra ∧ extra ≤ 10 ∧
        t = b!"Type " ++ a ++ b!" Array of " ++ n ++ b!" elements" := by
  have hl : ∀ c : Bytes, ∃ extra, 1 ≤ extra ∧ extra ≤ 10 ∧ (bytesArrayToBytes c).length = c.length + extra := fun c =>
    ⟨_, putUvarint_length_pos (u64 c.length), putUvarint_length_le (Nat.mod_lt _ (by norm_num)), by
      rw [bytesArrayToBytes, List.length_append, Nat.add_comm]⟩
  cases h
  constructor
  · intro hs
    generalize hp : Property.raw base (bytesArrayToBytes b) = p at hs
    generalize ht : b!"Type " ++ V1.decimal base.toNat ++ b!" Array of " ++ V1.decimal (bytesArrayToBytes b).length ++
      b!" elements" = t at hs
    cases hs <;> try cases hp
    rename_i base' b' a n ha hn
    injection hp with hb hd
    subst hb
    rw [decimal_text_unique _ _ _ ha (decimal_natCast base.toNat)] at ht
    have hnn : V1.decimal (bytesArrayToBytes b).length = n := by
      have := List.append_cancel_right ht
      exact List.append_cancel_left this
    have h1 : IsDecimal n (bytesArrayToBytes b).length := by rw [← hnn]; exact decimal_natCast _
    have h2 : (bytesArrayToBytes b).length = b'.length := h1.2.2.1.symm.trans hn.2.2.1
    obtain ⟨extra, he, -, hx⟩ := hl b'
    rw [hd] at h2
    omega
  · obtain ⟨extra, h1, h2, hx⟩ := hl b
    refine ⟨_, _, extra, decimal_natCast _, ?_, h1, h2, rfl⟩
    rw [← hx]
    exact decimal_natCast _

example (F : FmtExt) : describe F (.newBinaryArray [7, 8, 9]) = .ok b!"Type 5 Array of 4 elements" := by
  have h5 : V1.decimal (5 : UInt8).toNat = b!"5" := by
    simp [V1.decimal, V1.decimalNat]
  have h4 : V1.decimal (bytesArrayToBytes [7, 8, 9]).length = b!"4" := by
    have : (bytesArrayToBytes [7, 8, 9]).length = 4 := by decide +kernel
    rw [this]; simp [V1.decimal, V1.decimalNat]
  rw [Property.newBinaryArray, describe, h5, h4]; rfl

/-- C64: the text does not tell values apart: keys and strings are not quoted. -/
theorem C64_text_is_ambiguous : ∃ p q : Property, Constructible p ∧ Constructible q ∧ ¬ SameUpToOrder p q ∧
    ∀ F, describe F p = describe F q := by
  refine ⟨.block [(b!"a", .str b!"1;\n\t\"b\": 2")], .block [(b!"a", .str b!"1"), (b!"b", .str b!"2")], ?_, ?_, ?_, ?_⟩
  · refine .block _ (by decide) ?_
    intro kv hkv
    simp only [List.mem_cons, List.not_mem_nil, or_false] at hkv
    subst hkv
    exact .str _
  · refine .block _ (by decide) ?_
    intro kv hkv
    simp only [List.mem_cons, List.not_mem_nil, or_false] at hkv
    rcases hkv with rfl | rfl <;> exact .str _
  · intro h
    cases h with
    | block hp hk _ =>
      have h1 := hp.length_eq
      have h2 := congrArg List.length hk
      simp at h1 h2
      omega
  · intro F
    rfl

end Rap
