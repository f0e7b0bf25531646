import Verif.Proof.ToJsonText

/-!
# What `toJson` writes when something cannot be written
-/

namespace Rap

variable {M : MarshalExt} {X : JsonExt} {N : Bytes → F64 → Prop}

/-- A double that is neither infinite nor NaN. -/
def Finite64 (x : F64) : Prop := ∃ q, number64 x = .fin q

/-- NaN -/
def nan64 : F64 := 0x7FF8000000000001

theorem nan64_nan : ¬ Finite64 nan64 := by
  have h : number64 nan64 = .nan := by decide +kernel
  rintro ⟨q, hq⟩
  rw [h] at hq
  simp at hq

/-- What `%f` writes for infinities and NaN. -/
def specials : List Bytes := [b!"+Inf", b!"-Inf", b!"NaN"]

/-- Numbers, infinities and NaN. -/
def Wide (N : Bytes → F64 → Prop) (t : Bytes) (d : F64) : Prop := N t d ∨ (t ∈ specials ∧ d = nan64)

theorem specials_not (hM : M.Lawful X N) {t : Bytes} {d : F64} (h : N t d) : t ∉ specials := by
  intro ht
  have hc := (hM.number_text t d h).2
  simp only [specials, List.mem_cons, List.not_mem_nil, or_false] at ht
  rcases ht with rfl | rfl | rfl
  · exact absurd (hc 73 (by decide)) (by decide)
  · exact absurd (hc 73 (by decide)) (by decide)
  · exact absurd (hc 78 (by decide)) (by decide)

/-- Where a number and a special value end. -/
theorem special_end {t u r r' : Bytes} (ht : ∀ c ∈ t, c ∈ b!"0123456789+-.eE") (h : t ≠ []) (hu : u ∈ specials) (hr : Delim r)
    (e : t ++ r = u ++ r') : False := by
  obtain ⟨c, t, rfl⟩ := List.exists_cons_of_ne_nil h
  simp only [specials, List.mem_cons, List.not_mem_nil, or_false] at hu
  rcases hu with rfl | rfl | rfl
  · simp only [List.cons_append, List.cons.injEq] at e
    cases t with
    | nil =>
      rw [List.nil_append] at e
      rw [e.2] at hr
      exact hr 73 (by simp) (by decide)
    | cons c' t =>
      simp only [List.cons_append, List.cons.injEq] at e
      exact absurd (ht c' (by simp)) (by rw [e.2.1]; decide)
  · simp only [List.cons_append, List.cons.injEq] at e
    cases t with
    | nil =>
      rw [List.nil_append] at e
      rw [e.2] at hr
      exact hr 73 (by simp) (by decide)
    | cons c' t =>
      simp only [List.cons_append, List.cons.injEq] at e
      exact absurd (ht c' (by simp)) (by rw [e.2.1]; decide)
  · simp only [List.cons_append, List.cons.injEq] at e
    exact absurd (ht c (by simp)) (by rw [e.1]; decide)

theorem wide_numbers (hM : M.Lawful X N) : NumberTexts (Wide N) := by
  refine ⟨?_, ?_, ?_⟩
  · rintro t d (h | ⟨h, -⟩)
    · exact hM.numbers.text t d h
    · simp only [specials, List.mem_cons, List.not_mem_nil, or_false] at h
      rcases h with rfl | rfl | rfl <;> exact ⟨_, _, rfl, by decide⟩
  · rintro t t' r r' d d' (h | ⟨h, -⟩) (h' | ⟨h', -⟩) hr hr' e
    · exact hM.numbers.ends t t' r r' d d' h h' hr hr' e
    · exact (special_end (hM.number_text t d h).2 (hM.number_text t d h).1 h' hr e).elim
    · exact (special_end (hM.number_text t' d' h').2 (hM.number_text t' d' h').1 h hr' e.symm).elim
    · simp only [specials, List.mem_cons, List.not_mem_nil, or_false] at h h'
      rcases h with rfl | rfl | rfl <;> rcases h' with rfl | rfl | rfl <;> simp at e ⊢ <;> exact e
  · rintro t d d' (h | ⟨h, rfl⟩) (h' | ⟨h', rfl⟩)
    · exact hM.number_unique t d d' h h'
    · exact absurd h' (specials_not hM h)
    · exact absurd h (specials_not hM h')
    · rfl

theorem lex_mono {N' : Bytes → F64 → Prop} (hN : ∀ t d, N t d → N' t d) {t : Bytes} {ts : List Token} (h : Lex N t ts) :
    Lex N' t ts := by
  induction h with
  | nil => exact .nil
  | blank h _ ih => exact .blank h ih
  | punct h _ ih => exact .punct h ih
  | word h _ ih => exact .word h ih
  | str h _ ih => exact .str h ih
  | num h1 h2 _ ih => exact .num (hN _ _ h1) h2 ih

theorem lex_nums {t : Bytes} {ts : List Token} (h : Lex N t ts) : ∀ d, .num d ∈ ts → ∃ u, N u d := by
  induction h with
  | nil => simp
  | blank h _ ih => exact ih
  | punct h _ ih => intro d hd; simp at hd; exact ih d hd
  | word h _ ih => intro d hd; simp at hd; exact ih d hd
  | str h _ ih => intro d hd; simp at hd; exact ih d hd
  | num h1 h2 _ ih =>
    intro d hd
    simp only [List.mem_cons, Token.num.injEq] at hd
    rcases hd with rfl | hd
    · exact ⟨_, h1⟩
    · exact ih d hd

/-- Opening braces less closing braces. -/
def net : List Token → Int
  | [] => 0
  | .punct c :: ts => (if c = 123 then 1 else if c = 125 then -1 else 0) + net ts
  | _ :: ts => net ts

theorem net_append : (a b : List Token) → net (a ++ b) = net a + net b
  | [], b => by simp [net]
  | .punct c :: a, b => by rw [List.cons_append, net, net, net_append a b]; omega
  | .word _ :: a, b => by rw [List.cons_append, net, net, net_append a b] <;> simp
  | .str _ :: a, b => by rw [List.cons_append, net, net, net_append a b] <;> simp
  | .num _ :: a, b => by rw [List.cons_append, net, net, net_append a b] <;> simp

mutual
theorem net_toks : (j : JVal) → net (toks j) = 0
  | .null => by simp [toks, net]
  | .bool b => by simp [toks, net]
  | .num d => by simp [toks, net]
  | .str s => by simp [toks, net]
  | .arr items => by simp [toks, net, net_append, net_items items]
  | .obj d => by simp [toks, net, net_append, net_members d]

theorem net_items : (items : List JVal) → net (itemToks items) = 0
  | [] => by simp [itemToks, net]
  | j :: rest => by
    have h1 := net_toks j
    have h2 := net_items rest
    rw [itemToks, net_append, h1]
    split <;> simp [net, h2]

theorem net_members : (d : List (Bytes × JVal)) → net (memberToks d) = 0
  | [] => by simp [memberToks, net]
  | (k, j) :: rest => by
    have h1 := net_toks j
    have h2 := net_members rest
    rw [memberToks]
    cases rest <;> simp [net, net_append, h1, h2]
end

/-- The text lexes, to this number of open braces, its numbers being finite if and only if `g`. -/
def Scan (N : Bytes → F64 → Prop) (t : Bytes) (n : Int) (g : Prop) : Prop :=
  ∃ ts, (∀ r l, Delim r → Lex (Wide N) r l → Lex (Wide N) (t ++ r) (ts ++ l)) ∧ net ts = n ∧
    ((∀ d, .num d ∈ ts → Finite64 d) ↔ g)

theorem scan_append {a b : Bytes} {n m : Int} {g h : Prop} (ha : Scan N a n g) (hb : Scan N b m h) (hd : Delim b) :
    Scan N (a ++ b) (n + m) (g ∧ h) := by
  obtain ⟨ts, a1, a2, a3⟩ := ha
  obtain ⟨us, b1, b2, b3⟩ := hb
  refine ⟨ts ++ us, ?_, by rw [net_append, a2, b2], ?_⟩
  · intro r l hr hl
    rw [List.append_assoc, List.append_assoc]
    exact a1 _ _ (delim_append hd hr) (b1 _ _ hr hl)
  · rw [← a3, ← b3]
    simp only [List.mem_append]
    exact ⟨fun h => ⟨fun d hd => h d (.inl hd), fun d hd => h d (.inr hd)⟩, fun ⟨h1, h2⟩ d hd => hd.elim (h1 d) (h2 d)⟩

theorem scan_iff {t : Bytes} {n : Int} {g h : Prop} (ht : Scan N t n g) (e : g ↔ h) : Scan N t n h := by
  obtain ⟨ts, a1, a2, a3⟩ := ht
  exact ⟨ts, a1, a2, a3.trans e⟩

theorem scan_blank {w : Bytes} (hw : Blank w) : Scan N w 0 True :=
  ⟨[], fun r l _ hl => lex_blank hw hl, rfl, by simp⟩

theorem scan_punct {c : UInt8} (hc : c ∈ puncts) : Scan N [c] (if c = 123 then 1 else if c = 125 then -1 else 0) True :=
  ⟨[.punct c], fun r l _ hl => .punct hc hl, by simp [net], by simp⟩

theorem scan_str {s : Bytes} (hs : PlainText s) : Scan N ([34] ++ s ++ [34]) 0 True := by
  refine ⟨[.str s], fun r l _ hl => ?_, by simp [net], by simp⟩
  have := Lex.str (plain_text hs) hl
  simpa using this

theorem scan_word {w : Bytes} (hw : w ∈ words) : Scan N w 0 True :=
  ⟨[.word w], fun r l _ hl => .word hw hl, by simp [net], by simp⟩

theorem scan_num {t : Bytes} {d : F64} (h : Wide N t d) : Scan N t 0 (Finite64 d) :=
  ⟨[.num d], fun r l hr hl => .num h hr hl, by simp [net], by simp⟩

theorem jtext_finite (hM : M.Lawful X N) {t : Bytes} {j : JVal} (h : JText N t j) : ∀ d, .num d ∈ toks j → Finite64 d := by
  intro d hd
  obtain ⟨u, hu⟩ := lex_nums (lex_of_text h) d hd
  exact hM.number_finite u d hu

theorem JText.mono {N' : Bytes → F64 → Prop} (hN : ∀ t d, N t d → N' t d) {t : Bytes} {j : JVal} (h : JText N t j) :
    JText N' t j := by
  refine JText.rec (motive_1 := fun t j _ => JText N' t j) (motive_2 := fun l js _ => List.Forall₂ (JText N') l js)
    .null .true .false (fun h => .num (hN _ _ h)) (fun h => .str h) (fun h => .arr0 h) (fun h1 h2 _ h3 => .arr h1 h2 h3)
    (fun h => .obj0 h) (fun h1 h2 h3 _ h4 => .obj h1 h2 h3 h4) (fun h1 h2 _ h3 => .pad h1 h2 h3)
    .nil (fun _ _ h1 h2 => .cons h1 h2) h

theorem scan_json (hM : M.Lawful X N) {t : Bytes} {j : JVal} (h : JText N t j) : Scan N t 0 True :=
  ⟨toks j, lexes_of_text (h.mono fun _ _ h => .inl h), net_toks j, by
    simp only [iff_true]; exact jtext_finite hM h⟩

theorem scan_wide {t : Bytes} {j : JVal} (h : JText (Wide N) t j) : Scan N t 0 (∀ d, .num d ∈ toks j → Finite64 d) :=
  ⟨toks j, lexes_of_text h, net_toks j, Iff.rfl⟩

/-- A JSON text has balanced braces and finite numbers. -/
theorem scan_jtext (hM : M.Lawful X N) {t : Bytes} {n : Int} {g : Prop} (hs : Scan N t n g) {j : JVal} (h : JText N t j) :
    n = 0 ∧ g := by
  obtain ⟨ts, a1, a2, a3⟩ := hs
  have h1 := a1 [] [] (by simp [Delim]) .nil
  rw [List.append_nil, List.append_nil] at h1
  have h2 : Lex (Wide N) t (toks j) := lex_of_text (h.mono fun _ _ h => .inl h)
  have e := lex_unique (wide_numbers hM) h1 h2
  rw [e, net_toks] at a2
  rw [e] at a3
  exact ⟨a2.symm, a3.1 (jtext_finite hM h)⟩

/-! ## Members -/

/-- A member and what follows it. -/
theorem scan_member {w k w' v e : Bytes} {n m : Int} {g : Prop} (hw : Blank w) (hk : PlainText k) (hw' : Blank w')
    (hv : Scan N v n g) (he : Scan N e m True) (hd : Delim e) :
    Scan N (w ++ [34] ++ k ++ [34] ++ w' ++ [58, 32] ++ v ++ e) (n + m) g := by
  have h1 := scan_append hv he hd
  have h2 : ∃ ts, (∀ r l, Delim r → Lex (Wide N) r l → Lex (Wide N) (w ++ [34] ++ k ++ [34] ++ w' ++ [58, 32] ++ (v ++ e) ++ r) (ts ++ l)) ∧ net ts = n + m ∧
      ((∀ d, .num d ∈ ts → Finite64 d) ↔ g) := by
    obtain ⟨ts, a1, a2, a3⟩ := h1
    refine ⟨.str k :: .punct 58 :: ts, ?_, by simp [net, a2], by simpa using a3⟩
    intro r l hr hl
    have := lex_blank hw (Lex.str (plain_text hk) (lex_blank hw' (Lex.punct (c := 58) (by decide) (lex_blank blank_space (a1 r l hr hl)))))
    simpa using this
  obtain ⟨ts, b1, b2, b3⟩ := h2
  refine ⟨ts, fun r l hr hl => ?_, b2, b3⟩
  have := b1 r l hr hl
  simpa using this

theorem delim_nil : Delim [] := by simp [Delim]

theorem delim_of_blank {w r : Bytes} (hw : Blank w) (hr : Delim r) : Delim (w ++ r) := delim_blank hw hr

/-! ## Outputs -/

/-- The output lexes. If the call succeeds at least `k` braces stay open, and if it is just `k` and the numbers are finite
then `P`; if it fails at least `l` braces stay open. -/
def Emits (N : Bytes → F64 → Prop) (k l : Int) (o : JOut) (P : Prop) : Prop :=
  Delim o.texts.flatten ∧ ∃ n g, Scan N o.texts.flatten n g ∧
    ((o.result = .ok none ∧ k ≤ n ∧ (n = k → g → P)) ∨ (∃ e, o.result = .ok (some e)) ∧ l ≤ n)

theorem emits_say {b : Bytes} {k : Int} {g : Prop} (h : Scan N b k g) (hd : Delim b) (l : Int) :
    Emits N k l (.say b) g := by
  have e : (JOut.say b).texts.flatten = b := by simp [JOut.say]
  refine ⟨by rwa [e], k, g, by rwa [e], .inl ⟨rfl, le_rfl, fun _ h => h⟩⟩

theorem emits_nil (l : Int) : Emits N 0 l (.seq []) True :=
  ⟨delim_nil, 0, True, scan_blank blank_nil, .inl ⟨rfl, le_rfl, fun _ _ => trivial⟩⟩

theorem emits_cons {o : JOut} {os : List JOut} {P Q : Prop} {k1 l1 k2 l2 l : Int} (h1 : Emits N k1 l1 o P)
    (h2 : Emits N k2 l2 (.seq os) Q) (hl1 : l ≤ l1) (hl2 : l ≤ k1 + l2) : Emits N (k1 + k2) l (.seq (o :: os)) (P ∧ Q) := by
  obtain ⟨d1, n1, g1, s1, c1⟩ := h1
  obtain ⟨d2, n2, g2, s2, c2⟩ := h2
  rcases c1 with ⟨r1, b1, p1⟩ | ⟨⟨e, r1⟩, b1⟩
  · have e : (JOut.seq (o :: os)) = ⟨o.texts ++ (JOut.seq os).texts, (JOut.seq os).result⟩ := by rw [JOut.seq, r1]
    rw [e]
    unfold Emits
    rw [List.flatten_append]
    refine ⟨delim_append d1 d2, _, _, scan_append s1 s2 d2, ?_⟩
    rcases c2 with ⟨r2, b2, p2⟩ | ⟨⟨e, r2⟩, b2⟩
    · exact .inl ⟨r2, by omega, fun hn hg => ⟨p1 (by omega) hg.1, p2 (by omega) hg.2⟩⟩
    · exact .inr ⟨⟨e, r2⟩, by omega⟩
  · have e' : (JOut.seq (o :: os)) = o := by rw [JOut.seq, r1]
    rw [e']
    exact ⟨d1, n1, g1, s1, .inr ⟨⟨e, r1⟩, by omega⟩⟩

theorem emits_imp {o : JOut} {P Q : Prop} {k l l' : Int} (h : Emits N k l o P) (hPQ : P → Q) (hl : l' ≤ l) : Emits N k l' o Q := by
  obtain ⟨d1, n1, g1, s1, c1⟩ := h
  refine ⟨d1, n1, g1, s1, ?_⟩
  rcases c1 with ⟨r1, b1, p1⟩ | ⟨r1, b1⟩
  · exact .inl ⟨r1, b1, fun hn hg => hPQ (p1 hn hg)⟩
  · exact .inr ⟨r1, by omega⟩

theorem emits_drop {o : JOut} {P : Prop} {k l l' : Int} (h : Emits N k l o P) (hl : k < l) : Emits N k l' o.drop P := by
  obtain ⟨d1, n1, g1, s1, c1⟩ := h
  rcases c1 with ⟨r1, b1, p1⟩ | ⟨⟨e, r1⟩, b1⟩
  · have e : o.drop = ⟨o.texts, .ok none⟩ := by rw [JOut.drop, r1]
    rw [e]
    exact ⟨d1, n1, g1, s1, .inl ⟨rfl, b1, p1⟩⟩
  · have e : o.drop = ⟨o.texts, .ok none⟩ := by rw [JOut.drop, r1]
    rw [e]
    exact ⟨d1, n1, g1, s1, .inl ⟨rfl, by omega, fun h => by omega⟩⟩

theorem emits_if {p : Prop} [Decidable p] {a b : JOut} {P : Prop} {k l : Int} (ha : p → Emits N k l a P) (hb : ¬ p → Emits N k l b P) :
    Emits N k l (if p then a else b) P := by
  split
  · exact ha ‹_›
  · exact hb ‹_›

theorem emits_cast {o : JOut} {P : Prop} {k k' l : Int} (h : Emits N k l o P) (e : k = k') : Emits N k' l o P := e ▸ h

/-! ## The parts of a document -/

/-- The metadata can be written. -/
def Marshals (M : MarshalExt) (md : Block) : Prop := ∃ t, marshal M (.block md) = pure t

/-- Writing the metadata ends. -/
def Ends (M : MarshalExt) (md : Block) : Prop := ∃ r : Except Err Bytes, (marshal M (.block md)).run = .ok r

theorem ends_cases {md : Block} (h : Ends M md) : Marshals M md ∨ ∃ e, (marshal M (.block md)).run = .ok (.error e) := by
  obtain ⟨r, hr⟩ := h
  cases r with
  | ok t => exact .inl ⟨t, hr⟩
  | error e => exact .inr ⟨e, hr⟩

theorem marshals_ends {md : Block} : Marshals M md → Ends M md := fun ⟨t, h⟩ => ⟨.ok t, h⟩

theorem parts_wide (hM : M.Lawful X N) (hJ : ∀ md t, marshal M (.block md) = pure t → ∃ j, JText N t j) :
    Parts M (Wide N) (Marshals M) (fun _ => True) (fun _ j => ∀ d, .num d ∈ toks j → Finite64 d)
      (fun x d => Finite64 d → Finite64 x) := by
  refine ⟨?_, ?_, ?_⟩
  · rintro md ⟨t, h⟩
    obtain ⟨j, hj⟩ := hJ md t h
    exact ⟨t, j, h, hj.mono fun _ _ h => .inl h, jtext_finite hM hj⟩
  · intro x _
    by_cases h : Finite64 x
    · obtain ⟨q, hq⟩ := h
      obtain ⟨d, r, h1, h2, h3⟩ := hM.fixed x q hq
      exact ⟨d, .inl h1, fun _ => ⟨q, hq⟩⟩
    · exact ⟨nan64, .inr ⟨hM.fixed_none x fun q hq => h ⟨q, hq⟩, rfl⟩, fun h => absurd h nan64_nan⟩
  · intro n hn
    obtain ⟨d, h1, h2⟩ := hM.integer _ n (decimal_spec _) (by simpa using hn)
    exact ⟨d, .inl h1, by simpa using h2⟩

theorem emits_says {o : JOut} {t : Bytes} {k : Int} {g : Prop} (ho : Says o t) (h : Scan N t k g) (hd : Delim t) (l : Int) :
    Emits N k l o g := by
  obtain ⟨h1, rfl⟩ := ho
  exact ⟨hd, k, g, h, .inl ⟨h1, le_rfl, fun _ h => h⟩⟩

theorem lex_delim {t : Bytes} {c : UInt8} {ts : List Token} (h : Lex N t (.punct c :: ts)) : Delim t := by
  generalize e : Token.punct c :: ts = l at h
  cases h with
  | nil => simp at e
  | blank hb =>
    have : ∀ c ∈ blanks, c ∉ numStarts := by decide
    exact delim_cons (this _ hb)
  | punct hp =>
    have : ∀ c ∈ puncts, c ∉ numStarts := by decide
    exact delim_cons (this _ hp)
  | word => simp at e
  | str => simp at e
  | num => simp at e

theorem scan_comma : Scan N b!",\n" 0 True :=
  scan_iff (scan_append (scan_punct (c := 44) (by decide)) (scan_blank blank_lf) (delim_cons (by decide))) (by simp)

theorem plain_word {k : Bytes} (h : k.all fun c => decide (32 ≤ c ∧ c ≠ 34 ∧ c ≠ 92)) : PlainText k := by
  intro c hc
  have := List.all_eq_true.1 h c hc
  simpa using this

section
variable {R : Block → JVal → Prop}

theorem emits_event (hP : Parts M (Wide N) (Marshals M) (fun _ => True) R (fun x d => Finite64 d → Finite64 x)) {t : Bytes}
    (ht : Blank t) {e : F64 × Bytes × Block} (h2 : PlainText e.2.1) (h3 : Ends M e.2.2) (last : Bool) :
    Emits N 0 0 (eventJson M t e last) (Finite64 e.1 ∧ Marshals M e.2.2) := by
  rcases ends_cases h3 with h | ⟨err, h⟩
  · obtain ⟨u, j, g1, g2, d, m, rfl, g4, g5⟩ := event_text hP ht (T := fun _ => True) trivial h2 h last
    have hs : Scan N (if last then b!"\n" else b!",\n") 0 True := by
      split
      · exact scan_blank blank_lf
      · exact scan_comma
    have hd : Delim (if last then b!"\n" else b!",\n") := by split <;> exact delim_cons (by decide)
    have hu : Delim u := by
      have := lex_of_text g2
      rw [toks] at this
      exact lex_delim this
    refine emits_imp (emits_says g1 (scan_append (scan_wide g2) hs hd) (delim_append hu hd) 0) ?_ le_rfl
    rintro ⟨hf, -⟩
    exact ⟨g4 (hf d (by simp [toks, memberToks])), h⟩
  · have e : eventJson M t e last = ⟨[], .ok (some err)⟩ := by rw [eventJson, JOut.marshal, h]
    rw [e]
    exact ⟨delim_nil, 0, True, scan_blank blank_nil, .inr ⟨⟨err, rfl⟩, le_rfl⟩⟩

theorem emits_events (hP : Parts M (Wide N) (Marshals M) (fun _ => True) R (fun x d => Finite64 d → Finite64 x)) {t : Bytes}
    (ht : Blank t) : (caps : List (F64 × Bytes × Block)) → (∀ e ∈ caps, True ∧ PlainText e.2.1 ∧ Ends M e.2.2) →
    Emits N 0 0 (eventsJson M t caps) (∀ e ∈ caps, Finite64 e.1 ∧ PlainText e.2.1 ∧ Marshals M e.2.2)
  | [], _ => emits_imp (emits_nil 0) (by simp) le_rfl
  | e :: rest, h => by
    obtain ⟨-, h1, h2⟩ := h e (by simp)
    have g1 := emits_event hP ht h1 h2 rest.isEmpty
    have g2 := emits_events hP ht rest fun e he => h e (by simp [he])
    rw [eventsJson]
    refine emits_imp (emits_cast (emits_cons g1 (emits_cons g2 (emits_nil 0) (l := 0) (by omega) (by omega)) (l := 0) (by omega) (by omega)) (by omega)) ?_ le_rfl
    rintro ⟨⟨h3, h4⟩, h5, -⟩ e' he
    rcases List.mem_cons.1 he with rfl | he
    · exact ⟨h3, h1, h4⟩
    · exact h5 e' he

theorem delim_member {w r : Bytes} (hw : Blank w) : Delim (w ++ 34 :: r) := delim_blank hw (delim_cons (by decide))

theorem emits_coll (hP : Parts M (Wide N) (Marshals M) (fun _ => True) R (fun x d => Finite64 d → Finite64 x)) {t : Bytes}
    (ht : Blank t) {c : Coll} (h : ShowableColl (Ends M) (fun _ => True) c) (last : Bool) :
    Emits N 0 1 (collJson M t c last) (ShowableColl (Marshals M) Finite64 c) := by
  obtain ⟨h1, h2, h3, h4⟩ := h
  obtain ⟨n, g1, g2⟩ := hP.count _ h3
  have hlen : c.times.length = c.captures.length := by cases c <;> simp [Coll.times, Coll.captures]
  have htab : Blank (t ++ b!"\t") := blank_append ht (by simp [Blank])
  have s0 : Scan N (t ++ b!"{\n") 1 True :=
    scan_iff (scan_append (scan_blank ht) (scan_append (scan_punct (c := 123) (by decide)) (scan_blank blank_lf) (delim_cons (by decide)))
      (delim_cons (by decide))) (by simp)
  have s1 : Scan N (t ++ b!"\t\"name\": \"" ++ c.name ++ b!"\",\n") 0 True := by
    have := scan_member (N := N) (k := b!"name") (w' := []) htab (plain_word rfl) blank_nil (scan_str h1) scan_comma (delim_cons (by decide))
    simpa using this
  have s2 : Scan N (t ++ b!"\t\"signature\" : \"" ++ c.sig ++ b!"\",\n") 0 True := by
    have := scan_member (N := N) (k := b!"signature") (w' := b!" ") htab (plain_word rfl) blank_space (scan_str h2) scan_comma (delim_cons (by decide))
    simpa using this
  have s3 : Scan N (t ++ b!"\t\"count\" : " ++ V1.decimal c.times.length) 0 (Finite64 n) := by
    have := scan_member (N := N) (k := b!"count") (w' := b!" ") (e := []) htab (plain_word rfl) blank_space (scan_num g1) (scan_blank blank_nil) delim_nil
    rw [hlen]
    simpa using this
  have s4 : Scan N (b!",\n" ++ t ++ b!"\t\"captures\": [\n") 0 True := by
    have h5 : Scan N b!"[\n" 0 True :=
      scan_iff (scan_append (scan_punct (c := 91) (by decide)) (scan_blank blank_lf) (delim_cons (by decide))) (by simp)
    have h6 := scan_member (N := N) (k := b!"captures") (w' := []) (e := []) htab (plain_word rfl) blank_nil h5 (scan_blank blank_nil) delim_nil
    have h7 := scan_append scan_comma h6 (by
      simp only [List.append_assoc, List.cons_append, List.nil_append]
      exact delim_blank ht (delim_cons (by decide)))
    have := scan_iff h7 (h := True) (by simp)
    simpa using this
  have s5 : Scan N (t ++ b!"\t]\n") 0 True := by
    have := scan_iff (scan_append (scan_blank (N := N) htab) (scan_append (scan_punct (c := 93) (by decide)) (scan_blank blank_lf) (delim_cons (by decide)))
      (delim_cons (by decide))) (h := True) (by simp)
    simpa using this
  have s6 : Scan N (t ++ b!"}") (-1) True :=
    scan_iff (scan_append (scan_blank ht) (scan_punct (c := 125) (by decide)) (delim_cons (by decide))) (by simp)
  have dt : ∀ (c : UInt8) (r : Bytes), c ∉ numStarts → Delim (t ++ c :: r) := fun c r h => delim_blank ht (delim_cons h)
  have e4 : Emits N 0 0 (capturesJson M t c) (∀ name caps, c = .event name caps →
      ∀ e ∈ caps, Finite64 e.1 ∧ PlainText e.2.1 ∧ Marshals M e.2.2) := by
    cases c with
    | event name caps =>
      refine emits_imp (emits_events hP ht caps (h4 name caps rfl)) ?_ le_rfl
      intro h name' caps' e
      cases e
      exact h
    | _ => exact emits_imp (emits_nil 0) (fun _ _ _ e => by simp at e) le_rfl
  have e5 : Emits N 0 0 (if c.sig = sigEvent then .seq
       [.say (b!",\n" ++ t ++ b!"\t\"captures\": [\n"), capturesJson M t c, .say (t ++ b!"\t]\n")]
     else .say b!"\n") (∀ name caps, c = .event name caps →
      ∀ e ∈ caps, Finite64 e.1 ∧ PlainText e.2.1 ∧ Marshals M e.2.2) := by
    refine emits_if (fun _ => ?_) (fun hs => ?_)
    · refine emits_imp (emits_cast (emits_cons (emits_say s4 (delim_cons (by decide)) 0) (emits_cons e4 (emits_cons (emits_say s5 (dt _ _ (by decide)) 0) (emits_nil 0)
        (l := 0) (by omega) (by omega)) (l := 0) (by omega) (by omega)) (l := 0) (by omega) (by omega)) (by omega)) (fun h => h.2.1) le_rfl
    · refine emits_imp (emits_say (scan_blank blank_lf) (delim_cons (by decide)) 0) (fun _ name caps e => ?_) le_rfl
      subst e
      exact absurd rfl hs
  have e7 : Emits N 0 2 (if last then .seq [] else .say b!",\n") True :=
    emits_if (fun _ => emits_nil 2) (fun _ => emits_say scan_comma (delim_cons (by decide)) 2)
  rw [collJson]
  refine emits_imp (emits_cast (emits_cons (emits_say s0 (dt _ _ (by decide)) 1)
    (emits_cons (emits_say s1 (by simp only [List.append_assoc, List.cons_append, List.nil_append]; exact dt _ _ (by decide)) 0)
    (emits_cons (emits_say s2 (by simp only [List.append_assoc, List.cons_append, List.nil_append]; exact dt _ _ (by decide)) 0)
    (emits_cons (emits_say s3 (by simp only [List.append_assoc, List.cons_append, List.nil_append]; exact dt _ _ (by decide)) 0)
    (emits_cons e5
    (emits_cons (emits_say s6 (dt _ _ (by decide)) 0)
    (emits_cons e7 (emits_nil 2) (l := 2) (by omega) (by omega))
    (l := 0) (by omega) (by omega)) (l := 0) (by omega) (by omega)) (l := 0) (by omega) (by omega)) (l := 0) (by omega) (by omega))
    (l := 0) (by omega) (by omega)) (l := 1) (by omega) (by omega)) (by omega)) ?_ le_rfl
  rintro ⟨-, -, -, -, h, -⟩
  exact ⟨h1, h2, h3, h⟩

theorem emits_colls (hP : Parts M (Wide N) (Marshals M) (fun _ => True) R (fun x d => Finite64 d → Finite64 x)) {t : Bytes}
    (ht : Blank t) : (colls : List (Option Coll)) →
    (∀ c ∈ colls, ∃ c', c = some c' ∧ ShowableColl (Ends M) (fun _ => True) c') →
    Emits N 0 0 (collsJson M t colls) (∀ c ∈ colls, ∃ c', c = some c' ∧ ShowableColl (Marshals M) Finite64 c')
  | [], _ => emits_imp (emits_nil 0) (by simp) le_rfl
  | none :: rest, h => by obtain ⟨c, h1, -⟩ := h none (by simp); simp at h1
  | some c :: rest, h => by
    obtain ⟨c', h1, h2⟩ := h (some c) (by simp)
    cases h1
    have g1 := emits_coll hP ht h2 rest.isEmpty
    have g2 := emits_colls hP ht rest fun e he => h e (by simp [he])
    rw [collsJson]
    refine emits_imp (emits_cast (emits_cons g1 (emits_cons g2 (emits_nil 0) (l := 0) (by omega) (by omega)) (l := 0) (by omega) (by omega)) (by omega)) ?_ le_rfl
    rintro ⟨h3, h5, -⟩ e' he
    rcases List.mem_cons.1 he with rfl | he
    · exact ⟨c, rfl, h3⟩
    · exact h5 e' he

theorem emits_recs (depth : Nat) : (recs : List Rec) →
    (∀ r ∈ recs, r ≠ .nil → ∀ depth, Emits N 0 1 (toJson M depth r) (Showable (Marshals M) Finite64 r)) →
    Emits N 0 0 (recsJson M depth recs) (∀ r ∈ recs, r ≠ .nil → Showable (Marshals M) Finite64 r)
  | [], _ => by rw [recsJson]; exact emits_imp (emits_nil 0) (by simp) le_rfl
  | r :: rest, h => by
    have g2 := emits_recs depth rest fun e he => h e (by simp [he])
    have key : ∀ (o : JOut) (P : Prop), Emits N 0 0 o P →
        Emits N 0 0 (.seq [o, if rest.isEmpty then .seq [] else .say b!",\n", recsJson M depth rest])
          (P ∧ ∀ r ∈ rest, r ≠ .nil → Showable (Marshals M) Finite64 r) := by
      intro o P ho
      have e7 : Emits N 0 0 (if rest.isEmpty then .seq [] else .say b!",\n") True :=
        emits_if (fun _ => emits_nil 0) (fun _ => emits_say scan_comma (delim_cons (by decide)) 0)
      exact emits_imp (emits_cast (emits_cons ho (emits_cons e7 (emits_cons g2 (emits_nil 0) (l := 0) (by omega) (by omega))
        (l := 0) (by omega) (by omega)) (l := 0) (by omega) (by omega)) (by omega)) (fun h => ⟨h.1, h.2.2.1⟩) le_rfl
    cases r with
    | nil =>
      rw [recsJson]
      refine emits_imp (key _ True (emits_say (scan_word (w := b!"null") (by decide)) (delim_cons (by decide)) 0)) ?_ le_rfl
      rintro ⟨-, h2⟩ r hr hn
      rcases List.mem_cons.1 hr with rfl | hr
      · exact absurd rfl hn
      · exact h2 r hr hn
    | mk id name colls recs md bins refs =>
      rw [recsJson]
      · refine emits_imp (key _ _ (emits_drop (h (.mk id name colls recs md bins refs) (by simp) (by simp) (depth + 2)) (by omega))) ?_ le_rfl
        rintro ⟨h1, h2⟩ r hr hn
        rcases List.mem_cons.1 hr with rfl | hr
        · exact h1
        · exact h2 r hr hn
      · simp

theorem emits_rec (hM : M.Lawful X N) (hJ : ∀ md t, marshal M (.block md) = pure t → ∃ j, JText N t j) {r : Rec}
    (h : Showable (Ends M) (fun _ => True) r) :
    ∀ depth, Emits N 0 1 (toJson M depth r) (Showable (Marshals M) Finite64 r) := by
  have hP := parts_wide hM hJ
  induction h with
  | @mk id name colls recs md bins refs h1 h2 h3 h4 _ ih =>
    intro depth
    have dt : ∀ (n : Nat) (c : UInt8) (r : Bytes), c ∉ numStarts → Delim (tabs n ++ c :: r) := fun n c r h =>
      delim_blank (blank_tabs n) (delim_cons h)
    have s0 : Scan N (tabs depth ++ b!"{\n") 1 True :=
      scan_iff (scan_append (scan_blank (blank_tabs _)) (scan_append (scan_punct (c := 123) (by decide)) (scan_blank blank_lf)
        (delim_cons (by decide))) (delim_cons (by decide))) (by simp)
    have hb : Blank (tabs (depth + 1)) := blank_tabs _
    have s1 : Scan N (tabs (depth + 1) ++ b!"\"id\": \"" ++ id ++ b!"\",\n") 0 True := by
      have := scan_member (N := N) (k := b!"id") (w' := []) hb (plain_word rfl) blank_nil (scan_str h1) scan_comma (delim_cons (by decide))
      simpa using this
    have s2 : Scan N (tabs (depth + 1) ++ b!"\"name\": \"" ++ name ++ b!"\",\n") 0 True := by
      have := scan_member (N := N) (k := b!"name") (w' := []) hb (plain_word rfl) blank_nil (scan_str h2) scan_comma (delim_cons (by decide))
      simpa using this
    have e3 : Emits N 0 0 (.marshal M md fun data => .say (tabs (depth + 1) ++ b!"\"metadata\": " ++ data ++ b!",\n"))
        (Marshals M md) := by
      rcases ends_cases h3 with ⟨t, h⟩ | ⟨err, h⟩
      · obtain ⟨j, hj⟩ := hJ md t h
        have s3 : Scan N (tabs (depth + 1) ++ b!"\"metadata\": " ++ t ++ b!",\n") 0 True := by
          have := scan_member (N := N) (k := b!"metadata") (w' := []) hb (plain_word rfl) blank_nil (scan_json hM hj) scan_comma (delim_cons (by decide))
          simpa using this
        exact emits_imp (emits_says (says_marshal (f := fun data => .say (tabs (depth + 1) ++ b!"\"metadata\": " ++ data ++ b!",\n")) h
          (says_say _)) s3 (by simp only [List.append_assoc, List.cons_append, List.nil_append]; exact dt _ _ _ (by decide)) 0)
          (fun _ => ⟨t, h⟩) le_rfl
      · rw [JOut.marshal, h]
        exact ⟨delim_nil, 0, True, scan_blank blank_nil, .inr ⟨⟨err, rfl⟩, le_rfl⟩⟩
    have sl : Scan N b!"[" 0 True := scan_punct (c := 91) (by decide)
    have s4 : Scan N (tabs (depth + 1) ++ b!"\"collections\": [") 0 True := by
      have := scan_member (N := N) (k := b!"collections") (w' := []) (e := []) hb (plain_word rfl) blank_nil sl (scan_blank blank_nil) delim_nil
      simpa using this
    have s9 : Scan N (tabs (depth + 1) ++ b!"\"recordings\": [") 0 True := by
      have := scan_member (N := N) (k := b!"recordings") (w' := []) (e := []) hb (plain_word rfl) blank_nil sl (scan_blank blank_nil) delim_nil
      simpa using this
    have e5 : ∀ p : Bool, Emits N 0 0 (if p then .seq [] else .say b!"\n") True := fun p =>
      emits_if (fun _ => emits_nil 0) (fun _ => emits_say (scan_blank blank_lf) (delim_cons (by decide)) 0)
    have hclose : ∀ (p : Bool) (e : Bytes), Scan N ([93] ++ e) 0 True →
        Emits N 0 0 (if p then .say ([93] ++ e) else .seq [.say b!"\n", .say (tabs (depth + 1) ++ ([93] ++ e))]) True := by
      intro p e he
      refine emits_if (fun _ => emits_say he (delim_cons (by decide)) 0) (fun _ => ?_)
      exact emits_imp (emits_cast (emits_cons (emits_say (scan_blank blank_lf) (delim_cons (by decide)) 0)
        (emits_cons (emits_say (scan_iff (scan_append (scan_blank hb) he (delim_cons (by decide))) (h := True) (by simp)) (dt _ _ _ (by decide)) 0)
        (emits_nil 0) (l := 0) (by omega) (by omega)) (l := 0) (by omega) (by omega)) (by omega)) (fun _ => trivial) le_rfl
    have e8 := hclose colls.isEmpty b!",\n" (scan_iff (scan_append (scan_punct (c := 93) (by decide)) scan_comma (delim_cons (by decide))) (by simp))
    have e12 := hclose recs.isEmpty b!"\n" (scan_iff (scan_append (scan_punct (c := 93) (by decide)) (scan_blank blank_lf) (delim_cons (by decide))) (by simp))
    have s13 : Scan N (tabs depth ++ b!"}") (-1) True :=
      scan_iff (scan_append (scan_blank (blank_tabs _)) (scan_punct (c := 125) (by decide)) (delim_cons (by decide))) (by simp)
    rw [toJson]
    refine emits_imp (emits_cast (emits_cons (emits_say s0 (dt _ _ _ (by decide)) 1)
      (emits_cons (emits_say s1 (by simp only [List.append_assoc, List.cons_append, List.nil_append]; exact dt _ _ _ (by decide)) 0)
      (emits_cons (emits_say s2 (by simp only [List.append_assoc, List.cons_append, List.nil_append]; exact dt _ _ _ (by decide)) 0)
      (emits_cons e3
      (emits_cons (emits_say s4 (dt _ _ _ (by decide)) 0)
      (emits_cons (e5 _)
      (emits_cons (emits_colls hP (blank_tabs (depth + 2)) colls h4)
      (emits_cons e8
      (emits_cons (emits_say s9 (dt _ _ _ (by decide)) 0)
      (emits_cons (e5 _)
      (emits_cons (emits_recs depth recs ih)
      (emits_cons e12
      (emits_cons (emits_say s13 (dt _ _ _ (by decide)) 0) (emits_nil 2)
      (l := 0) (by omega) (by omega)) (l := 0) (by omega) (by omega)) (l := 0) (by omega) (by omega)) (l := 0) (by omega) (by omega))
      (l := 0) (by omega) (by omega)) (l := 0) (by omega) (by omega)) (l := 0) (by omega) (by omega)) (l := 0) (by omega) (by omega))
      (l := 0) (by omega) (by omega)) (l := 0) (by omega) (by omega)) (l := 0) (by omega) (by omega)) (l := 0) (by omega) (by omega))
      (l := 1) (by omega) (by omega)) (by omega)) ?_ le_rfl
    rintro ⟨-, -, -, g3, -, -, g7, -, -, -, g11, -⟩
    exact .mk h1 h2 g3 g7 g11

end

end Rap
