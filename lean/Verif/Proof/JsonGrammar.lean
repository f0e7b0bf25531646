import Verif.Proof.JsonText
import Verif.Spec.JsonText

/-!
# A JSON text has one value
-/

namespace Rap

/-- Characters that numbers, infinities and NaN start with. -/
def numStarts : Bytes := b!"0123456789+-.eEIN"

/-- Not in the middle of a number. -/
def Delim (r : Bytes) : Prop := ∀ c ∈ r.head?, c ∉ numStarts

/-- The texts that are numbers, each standing for one number. -/
structure NumberTexts (N : Bytes → F64 → Prop) : Prop where
  text : ∀ t d, N t d → ∃ c t', t = c :: t' ∧ c ∈ numStarts
  ends : ∀ t t' r r' d d', N t d → N t' d' → Delim r → Delim r' → t ++ r = t' ++ r' → t = t' ∧ r = r'
  unique : ∀ t d d', N t d → N t d' → d = d'

theorem chars_end : ∀ (t t' r r' : Bytes), (∀ c ∈ t, c ∈ numStarts) → (∀ c ∈ t', c ∈ numStarts) → Delim r → Delim r' →
    t ++ r = t' ++ r' → t = t' ∧ r = r' := by
  intro t
  induction t with
  | nil =>
    intro t' r r' _ h2 h3 _ e
    cases t' with
    | nil => exact ⟨rfl, by simpa using e⟩
    | cons c t' =>
      rw [List.nil_append] at e
      subst e
      exact absurd (h2 c (by simp)) (h3 c (by simp))
  | cons c t ih =>
    intro t' r r' h1 h2 h3 h4 e
    cases t' with
    | nil =>
      rw [List.nil_append] at e
      subst e
      exact absurd (h1 c (by simp)) (h4 c (by simp))
    | cons c' t' =>
      simp only [List.cons_append, List.cons.injEq] at e
      obtain ⟨rfl, e⟩ := e
      obtain ⟨rfl, rfl⟩ := ih t' r r' (fun c hc => h1 c (by simp [hc])) (fun c hc => h2 c (by simp [hc])) h3 h4 e
      exact ⟨rfl, rfl⟩

theorem MarshalExt.Lawful.chars {M : MarshalExt} {X : JsonExt} {N : Bytes → F64 → Prop} (h : M.Lawful X N) {t : Bytes}
    {d : F64} (ht : N t d) : ∀ c ∈ t, c ∈ numStarts := by
  have sub : ∀ c ∈ b!"0123456789+-.eE", c ∈ numStarts := by decide
  exact fun c hc => sub c ((h.number_text t d ht).2 c hc)

theorem MarshalExt.Lawful.numbers {M : MarshalExt} {X : JsonExt} {N : Bytes → F64 → Prop} (h : M.Lawful X N) :
    NumberTexts N := by
  refine ⟨fun t d ht => ?_, fun t t' r r' d d' h1 h2 => chars_end t t' r r' (h.chars h1) (h.chars h2), h.number_unique⟩
  obtain ⟨c, t', rfl⟩ := List.exists_cons_of_ne_nil (h.number_text t d ht).1
  exact ⟨c, t', rfl, h.chars ht c (by simp)⟩

/-- The words, punctuation marks, strings and numbers of a text. -/
inductive Token where
  | punct (c : UInt8)
  | word (w : Bytes)
  | str (s : Bytes)
  | num (d : F64)

def puncts : Bytes := b!"{}[]:,"
def blanks : Bytes := [32, 9, 10, 13]
def words : List Bytes := [b!"null", b!"true", b!"false"]

/-- The tokens of a text. -/
inductive Lex (N : Bytes → F64 → Prop) : Bytes → List Token → Prop
  | nil : Lex N [] []
  | blank {c : UInt8} {r : Bytes} {ts : List Token} : c ∈ blanks → Lex N r ts → Lex N (c :: r) ts
  | punct {c : UInt8} {r : Bytes} {ts : List Token} : c ∈ puncts → Lex N r ts → Lex N (c :: r) (.punct c :: ts)
  | word {w r : Bytes} {ts : List Token} : w ∈ words → Lex N r ts → Lex N (w ++ r) (.word w :: ts)
  | str {s u r : Bytes} {ts : List Token} : Unescapes s u → Lex N r ts → Lex N (34 :: (s ++ 34 :: r)) (.str u :: ts)
  | num {t r : Bytes} {d : F64} {ts : List Token} : N t d → Delim r → Lex N r ts → Lex N (t ++ r) (.num d :: ts)

/-- The text up to the first quote that is not escaped, and what follows it. -/
def strEnd : Bytes → Option (Bytes × Bytes)
  | [] => none
  | 34 :: r => some ([], r)
  | 92 :: c :: r => (strEnd r).map fun p => (92 :: c :: p.1, p.2)
  | c :: r => (strEnd r).map fun p => (c :: p.1, p.2)

theorem strEnd_plain {c : UInt8} {r : Bytes} (h1 : c ≠ 34) (h2 : c ≠ 92) :
    strEnd (c :: r) = (strEnd r).map fun p => (c :: p.1, p.2) := by
  rw [strEnd.eq_def]
  split
  · simp_all
  · simp_all
  · simp_all
  · next h => cases h; rfl

theorem isHex_plain {c : UInt8} {n : Nat} (h : IsHex c n) : c ≠ 34 ∧ c ≠ 92 := by
  have h := hexDigit_isHex h
  refine ⟨?_, h.2.2.2⟩
  rintro rfl
  exact absurd h.2.2.1 (by decide)

theorem strEnd_hex4 {h : Bytes} {u : Nat} (hh : Hex4 h u) (r : Bytes) :
    strEnd (h ++ r) = (strEnd r).map fun p => (h ++ p.1, p.2) := by
  obtain ⟨a, b, c, d, x, y, z, w, rfl, ha, hb, hc, hd, -⟩ := hh
  simp only [List.cons_append, List.nil_append]
  rw [strEnd_plain (isHex_plain ha).1 (isHex_plain ha).2, strEnd_plain (isHex_plain hb).1 (isHex_plain hb).2,
    strEnd_plain (isHex_plain hc).1 (isHex_plain hc).2, strEnd_plain (isHex_plain hd).1 (isHex_plain hd).2]
  simp only [Option.map_map]
  rfl

theorem strEnd_escape (c : UInt8) (r : Bytes) : strEnd (92 :: c :: r) = (strEnd r).map fun p => (92 :: c :: p.1, p.2) := rfl

theorem strEnd_unescapes {s u : Bytes} (h : Unescapes s u) (r : Bytes) : strEnd (s ++ 34 :: r) = some (s, r) := by
  induction h with
  | nil => rfl
  | plain _ h1 h2 _ ih => rw [List.cons_append, strEnd_plain h1 h2, ih]; rfl
  | short _ _ ih => rw [List.cons_append, List.cons_append, strEnd_escape, ih]; rfl
  | unicode h _ _ ih =>
    simp only [List.cons_append, List.append_assoc]
    rw [strEnd_escape, strEnd_hex4 h, ih]; rfl
  | pair h h' _ _ _ _ _ ih =>
    simp only [List.cons_append, List.append_assoc]
    rw [strEnd_escape, strEnd_hex4 h, strEnd_escape, strEnd_hex4 h', ih]; rfl
  | low h _ _ _ ih =>
    simp only [List.cons_append, List.append_assoc]
    rw [strEnd_escape, strEnd_hex4 h, ih]; rfl
  | high h _ _ _ _ ih =>
    simp only [List.cons_append, List.append_assoc]
    rw [strEnd_escape, strEnd_hex4 h, ih]; rfl

theorem number_end {N : Bytes → F64 → Prop} (hN : NumberTexts N) {t t' r r' : Bytes} {d d' : F64} (h : N t d) (h' : N t' d')
    (hr : Delim r) (hr' : Delim r') (e : t ++ r = t' ++ r') : t = t' ∧ r = r' :=
  hN.ends t t' r r' d d' h h' hr hr' e

/-- What a token starts with. -/
theorem word_cases {w : Bytes} (h : w ∈ words) : w = b!"null" ∨ w = b!"true" ∨ w = b!"false" := by
  simpa [words] using h

theorem num_cons {N : Bytes → F64 → Prop} (hN : NumberTexts N) {t : Bytes} {d : F64} (h : N t d) :
    ∃ c t', t = c :: t' ∧ c ∈ numStarts := by
  obtain ⟨c, t', h1, h2⟩ := hN.text t d h
  exact ⟨c, t', h1, h2⟩

theorem delim_append {r s : Bytes} (hr : Delim r) (hs : Delim s) : Delim (r ++ s) := by
  cases r with
  | nil => exact hs
  | cons c r => exact hr

/-- Tokens of a text are the first tokens of every longer text that does not continue with a number. -/
theorem lex_split {N : Bytes → F64 → Prop} (hN : NumberTexts N) {t : Bytes} {ts : List Token} (h : Lex N t ts) :
    ∀ {r : Bytes} {ts' : List Token}, Delim r → Lex N (t ++ r) ts' → ∃ l, ts' = ts ++ l ∧ Lex N r l := by
  have blank_not : ∀ c ∈ blanks, c ∉ puncts ∧ c ∉ numStarts ∧ c ≠ 34 ∧ c ≠ 110 ∧ c ≠ 116 ∧ c ≠ 102 := by decide
  have punct_not : ∀ c ∈ puncts, c ∉ blanks ∧ c ∉ numStarts ∧ c ≠ 34 ∧ c ≠ 110 ∧ c ≠ 116 ∧ c ≠ 102 := by decide
  have num_not : ∀ c ∈ numStarts, c ∉ blanks ∧ c ∉ puncts ∧ c ≠ 34 ∧ c ≠ 110 ∧ c ≠ 116 ∧ c ≠ 102 := by decide
  induction h with
  | nil => intro x ts' _ h'; exact ⟨ts', rfl, h'⟩
  | @blank c r ts hc _ ih =>
    intro x ts' hx h'
    obtain ⟨b1, b2, b3, b4, b5, b6⟩ := blank_not c hc
    rw [List.cons_append] at h'
    generalize e : c :: (r ++ x) = t at h'
    cases h' with
    | nil => simp at e
    | blank _ h => cases e; exact ih hx h
    | punct hp => cases e; exact absurd hp b1
    | word hw => generalize r ++ x = y at e; rcases word_cases hw with rfl | rfl | rfl <;> cases e <;> simp at b4 b5 b6
    | str => generalize r ++ x = y at e; cases e; exact absurd rfl b3
    | num hd => obtain ⟨c', t', rfl, hc'⟩ := num_cons hN hd; generalize r ++ x = y at e; cases e; exact absurd hc' b2
  | @punct c r ts hc _ ih =>
    intro x ts' hx h'
    obtain ⟨b1, b2, b3, b4, b5, b6⟩ := punct_not c hc
    rw [List.cons_append] at h'
    generalize e : c :: (r ++ x) = t at h'
    cases h' with
    | nil => simp at e
    | blank hb => cases e; exact absurd hb b1
    | punct _ h =>
      cases e
      obtain ⟨l, rfl, hl⟩ := ih hx h
      exact ⟨l, rfl, hl⟩
    | word hw => generalize r ++ x = y at e; rcases word_cases hw with rfl | rfl | rfl <;> cases e <;> simp at b4 b5 b6
    | str => generalize r ++ x = y at e; cases e; exact absurd rfl b3
    | num hd => obtain ⟨c', t', rfl, hc'⟩ := num_cons hN hd; generalize r ++ x = y at e; cases e; exact absurd hc' b2
  | @word w r ts hw _ ih =>
    intro x ts' hx h'
    rw [List.append_assoc] at h'
    generalize e : w ++ (r ++ x) = t at h'
    cases h' with
    | nil => rcases word_cases hw with rfl | rfl | rfl <;> simp at e
    | blank hb => rcases word_cases hw with rfl | rfl | rfl <;> cases e <;> exact absurd hb (by decide)
    | punct hb => rcases word_cases hw with rfl | rfl | rfl <;> cases e <;> exact absurd hb (by decide)
    | word hw' h =>
      rcases word_cases hw with rfl | rfl | rfl <;> rcases word_cases hw' with rfl | rfl | rfl <;> cases e <;>
        (obtain ⟨l, rfl, hl⟩ := ih hx h; exact ⟨l, rfl, hl⟩)
    | str => rcases word_cases hw with rfl | rfl | rfl <;> simp at e
    | num hd =>
      obtain ⟨c', t', rfl, hc'⟩ := num_cons hN hd
      have e := congrArg List.head? e
      rcases word_cases hw with rfl | rfl | rfl <;> simp only [List.cons_append, List.head?_cons, Option.some.injEq] at e <;>
        subst e <;> exact absurd hc' (by decide)
  | @str s u r ts hu _ ih =>
    intro x ts' hx h'
    rw [List.cons_append, List.append_assoc, List.cons_append] at h'
    generalize e : 34 :: (s ++ 34 :: (r ++ x)) = t at h'
    cases h' with
    | nil => simp at e
    | blank hb => cases e; exact absurd hb (by decide)
    | punct hb => cases e; exact absurd hb (by decide)
    | word hw => rcases word_cases hw with rfl | rfl | rfl <;> simp at e
    | @str s' u' r' ts' hu' h =>
      simp only [List.cons.injEq, true_and] at e
      have e1 := strEnd_unescapes hu (r ++ x)
      rw [e, strEnd_unescapes hu' r'] at e1
      simp only [Option.some.injEq, Prod.mk.injEq] at e1
      obtain ⟨rfl, rfl⟩ := e1
      have := requote_iff.2 hu
      rw [requote_iff.2 hu', Option.some.injEq] at this
      obtain ⟨l, rfl, hl⟩ := ih hx h
      exact ⟨l, by rw [this]; rfl, hl⟩
    | num hd =>
      obtain ⟨c', t', rfl, hc'⟩ := num_cons hN hd
      have e := congrArg List.head? e
      simp only [List.cons_append, List.head?_cons, Option.some.injEq] at e
      subst e
      exact absurd hc' (by decide)
  | @num t r d ts hd hr _ ih =>
    intro x ts' hx h'
    rw [List.append_assoc] at h'
    generalize e : t ++ (r ++ x) = t' at h'
    cases h' with
    | nil => obtain ⟨c', t', rfl, hc'⟩ := num_cons hN hd; simp at e
    | blank hb => obtain ⟨c', t', rfl, hc'⟩ := num_cons hN hd; cases e; exact absurd hb (num_not _ hc').1
    | punct hb => obtain ⟨c', t', rfl, hc'⟩ := num_cons hN hd; cases e; exact absurd hb (num_not _ hc').2.1
    | word hw =>
      obtain ⟨c', t', rfl, hc'⟩ := num_cons hN hd
      have e := congrArg List.head? e
      rcases word_cases hw with rfl | rfl | rfl <;> simp only [List.cons_append, List.head?_cons, Option.some.injEq] at e <;>
        subst e <;> exact absurd hc' (by decide)
    | str =>
      obtain ⟨c', t', rfl, hc'⟩ := num_cons hN hd
      have e := congrArg List.head? e
      simp only [List.cons_append, List.head?_cons, Option.some.injEq] at e
      subst e
      exact absurd hc' (by decide)
    | num hd' hr' h =>
      obtain ⟨rfl, rfl⟩ := number_end hN hd hd' (delim_append hr hx) hr' e
      obtain ⟨l, rfl, hl⟩ := ih hx h
      exact ⟨l, by rw [hN.unique _ _ _ hd hd']; rfl, hl⟩

theorem lex_nil {N : Bytes → F64 → Prop} (hN : NumberTexts N) {ts : List Token} (h : Lex N [] ts) : ts = [] := by
  generalize e : ([] : Bytes) = t at h
  cases h with
  | nil => rfl
  | blank => simp at e
  | punct => simp at e
  | word hw => rcases word_cases hw with rfl | rfl | rfl <;> simp at e
  | str => simp at e
  | num hd => obtain ⟨c, t', rfl, -⟩ := num_cons hN hd; simp at e

theorem lex_unique {N : Bytes → F64 → Prop} (hN : NumberTexts N) {t : Bytes} {ts ts' : List Token} (h : Lex N t ts)
    (h' : Lex N t ts') : ts = ts' := by
  obtain ⟨l, rfl, hl⟩ := lex_split hN h (r := []) (by simp [Delim]) (by rwa [List.append_nil])
  rw [lex_nil hN hl, List.append_nil]

mutual
/-- The tokens of a value. -/
def toks : JVal → List Token
  | .null => [.word b!"null"]
  | .bool b => [.word (if b then b!"true" else b!"false")]
  | .num d => [.num d]
  | .str s => [.str s]
  | .arr items => .punct 91 :: (itemToks items ++ [.punct 93])
  | .obj d => .punct 123 :: (memberToks d ++ [.punct 125])

def itemToks : List JVal → List Token
  | [] => []
  | j :: rest => toks j ++ (if rest.isEmpty then [] else .punct 44 :: itemToks rest)

def memberToks : List (Bytes × JVal) → List Token
  | [] => []
  | (k, j) :: rest => .str k :: .punct 58 :: (toks j ++ (if rest.isEmpty then [] else .punct 44 :: memberToks rest))
end

theorem lex_blank {N : Bytes → F64 → Prop} {w r : Bytes} {ts : List Token} (hw : Blank w) (h : Lex N r ts) : Lex N (w ++ r) ts := by
  induction w with
  | nil => exact h
  | cons c w ih =>
    refine .blank ?_ (ih fun c hc => hw c (by simp [hc]))
    have := hw c (by simp)
    simp only [blanks, List.mem_cons, List.not_mem_nil, or_false]
    exact this

theorem delim_blank {w r : Bytes} (hw : Blank w) (hr : Delim r) : Delim (w ++ r) := by
  cases w with
  | nil => exact hr
  | cons c w =>
    intro c' hc'
    simp only [List.cons_append, List.head?_cons, Option.mem_def, Option.some.injEq] at hc'
    subst hc'
    rcases hw c (by simp) with rfl | rfl | rfl | rfl <;> decide

theorem delim_cons {c : UInt8} {r : Bytes} (h : c ∉ numStarts) : Delim (c :: r) := by
  intro c' hc'
  simp only [List.head?_cons, Option.mem_def, Option.some.injEq] at hc'
  exact hc' ▸ h

/-- A text followed by something lexes to the tokens of its value. -/
def Lexes (N : Bytes → F64 → Prop) (t : Bytes) (j : JVal) : Prop :=
  ∀ r ts, Delim r → Lex N r ts → Lex N (t ++ r) (toks j ++ ts)

theorem lexes_items {N : Bytes → F64 → Prop} : (ts : List Bytes) → (items : List JVal) → (u : Bytes) → items ≠ [] →
    Separated ts u → List.Forall₂ (Lexes N) ts items → ∀ r l, Delim r → Lex N r l → Lex N (u ++ r) (itemToks items ++ l)
  | [], _, _, h, _, .nil => absurd rfl h
  | [t], [j], u, _, hs, .cons h .nil => by
    intro r l hr hl
    cases hs
    simp only [itemToks, List.isEmpty_nil, if_true, List.append_nil]
    exact h r l hr hl
  | t :: t' :: ts, j :: j' :: items, u, _, ⟨v, hs, hu⟩, .cons h hrest => by
    intro r l hr hl
    subst hu
    have ih := lexes_items (t' :: ts) (j' :: items) v (by simp) hs hrest r l hr hl
    rw [itemToks]
    simp only [List.isEmpty_cons, Bool.false_eq_true, if_false, List.append_assoc, List.cons_append, List.nil_append]
    exact h _ _ (delim_cons (by decide)) (.punct (by decide) ih)

theorem lexes_members {N : Bytes → F64 → Prop} : (ms : List (Bytes × Bytes)) → (d : List (Bytes × JVal)) → (u : Bytes) → d ≠ [] →
    Separated (ms.map fun m => m.1 ++ [58] ++ m.2) u → List.Forall₂ KeyText (ms.map (·.1)) (d.map (·.1)) →
    List.Forall₂ (Lexes N) (ms.map (·.2)) (d.map (·.2)) →
    ∀ r l, Delim r → Lex N r l → Lex N (u ++ r) (memberToks d ++ l)
  | [], [], _, h, _, _, _ => absurd rfl h
  | [(kt, t)], [(k, j)], u, _, hs, .cons hk .nil, .cons h .nil => by
    intro r l hr hl
    cases hs
    obtain ⟨w, w', s, h1, h2, h3, rfl⟩ := hk
    simp only [memberToks, List.isEmpty_nil, if_true, List.append_nil, List.append_assoc, List.cons_append, List.nil_append]
    exact lex_blank h1 (.str h3 (lex_blank h2 (.punct (by decide) (h r l hr hl))))
  | (kt, t) :: m' :: ms, (k, j) :: m'' :: d, u, _, ⟨v, hs, hu⟩, .cons hk hks, .cons h hrest => by
    intro r l hr hl
    subst hu
    have ih := lexes_members (m' :: ms) (m'' :: d) v (by simp) hs hks hrest r l hr hl
    obtain ⟨w, w', s, h1, h2, h3, rfl⟩ := hk
    rw [memberToks]
    simp only [List.isEmpty_cons, Bool.false_eq_true, if_false, List.append_assoc, List.cons_append, List.nil_append]
    exact lex_blank h1 (.str h3 (lex_blank h2 (.punct (by decide) (h _ _ (delim_cons (by decide)) (.punct (by decide) ih)))))

theorem lexes_of_text {N : Bytes → F64 → Prop} {t : Bytes} {j : JVal} (h : JText N t j) : Lexes N t j := by
  refine JText.rec (motive_1 := fun t j _ => Lexes N t j) (motive_2 := fun l js _ => List.Forall₂ (Lexes N) l js)
    ?null ?true ?false ?num ?str ?arr0 ?arr ?obj0 ?obj ?pad .nil (fun _ _ h1 h2 => .cons h1 h2) h
  case null => intro r ts _ h; exact .word (w := b!"null") (by simp [words]) h
  case true => intro r ts _ h; exact .word (w := b!"true") (by simp [words]) h
  case false => intro r ts _ h; exact .word (w := b!"false") (by simp [words]) h
  case num => intro t d hd r ts hr h; exact .num hd hr h
  case str =>
    intro s u hu r ts _ h
    have := Lex.str hu h
    simpa [toks] using this
  case arr0 =>
    intro w hw r ts _ h
    have := Lex.punct (N := N) (c := 91) (by decide) (lex_blank hw (.punct (c := 93) (by decide) h))
    simpa [toks, itemToks] using this
  case arr =>
    intro ts u items hne hs _ ih r l _ h
    have := lexes_items ts items u hne hs ih (93 :: r) (.punct 93 :: l) (delim_cons (by decide)) (.punct (by decide) h)
    have := Lex.punct (N := N) (c := 91) (by decide) this
    simpa [toks] using this
  case obj0 =>
    intro w hw r ts _ h
    have := Lex.punct (N := N) (c := 123) (by decide) (lex_blank hw (.punct (c := 125) (by decide) h))
    simpa [toks, memberToks] using this
  case obj =>
    intro ms u d hne hs hk _ ih r l _ h
    have := lexes_members ms d u hne hs hk ih (125 :: r) (.punct 125 :: l) (delim_cons (by decide)) (.punct (by decide) h)
    have := Lex.punct (N := N) (c := 123) (by decide) this
    simpa [toks] using this
  case pad =>
    intro w w' t j hw hw' _ ih r ts hr h
    rw [List.append_assoc, List.append_assoc]
    exact lex_blank hw (ih _ _ (delim_blank hw' hr) (lex_blank hw' h))

theorem lex_of_text {N : Bytes → F64 → Prop} {t : Bytes} {j : JVal} (h : JText N t j) : Lex N t (toks j) := by
  have := lexes_of_text h [] [] (by simp [Delim]) .nil
  simpa using this

/-- Values start with other tokens than those that end or separate. -/
theorem toks_head (j : JVal) : ∃ t ts, toks j = t :: ts ∧ t ≠ .punct 93 ∧ t ≠ .punct 125 ∧ t ≠ .punct 44 := by
  cases j <;> exact ⟨_, _, by rw [toks], by simp, by simp, by simp⟩

theorem toks_cancel : (n : Nat) → (j j' : JVal) → sizeOf j < n → ∀ r r', toks j ++ r = toks j' ++ r' → j = j' ∧ r = r'
  | 0, _, _, h, _, _, _ => absurd h (by omega)
  | n + 1, j, j', hn, r, r', e => by
    have hitems : (items items' : List JVal) → sizeOf items < n → ∀ r r',
        itemToks items ++ .punct 93 :: r = itemToks items' ++ .punct 93 :: r' → items = items' ∧ r = r' := by
      intro items
      induction items with
      | nil =>
        intro items' _ r r' e
        cases items' with
        | nil => simpa [itemToks] using e
        | cons j' rest' =>
          obtain ⟨t, ts, h1, h2, -⟩ := toks_head j'
          rw [itemToks, itemToks, h1] at e
          simp only [List.nil_append, List.cons_append, List.cons.injEq] at e
          exact absurd e.1.symm h2
      | cons j rest ih =>
        intro items' hsz r r' e
        simp only [List.cons.sizeOf_spec] at hsz
        cases items' with
        | nil =>
          obtain ⟨t, ts, h1, h2, -⟩ := toks_head j
          rw [itemToks, itemToks, h1] at e
          simp only [List.nil_append, List.cons_append, List.cons.injEq] at e
          exact absurd e.1 h2
        | cons j' rest' =>
          rw [itemToks, itemToks, List.append_assoc, List.append_assoc] at e
          obtain ⟨rfl, e2⟩ := toks_cancel n j j' (by omega) _ _ e
          clear e
          cases rest with
          | nil =>
            cases rest' with
            | nil => simpa using e2
            | cons => simp at e2
          | cons k rest =>
            cases rest' with
            | nil => simp at e2
            | cons k' rest' =>
              simp only [List.isEmpty_cons, Bool.false_eq_true, if_false, List.cons_append, List.cons.injEq, true_and] at e2
              obtain ⟨h1, h2⟩ := ih (k' :: rest') (by omega) r r' e2
              exact ⟨by rw [h1], h2⟩
    have hmembers : (d d' : List (Bytes × JVal)) → sizeOf d < n → ∀ r r',
        memberToks d ++ .punct 125 :: r = memberToks d' ++ .punct 125 :: r' → d = d' ∧ r = r' := by
      intro d
      induction d with
      | nil =>
        intro d' _ r r' e
        cases d' with
        | nil => simpa [memberToks] using e
        | cons m rest' => simp [memberToks] at e
      | cons m rest ih =>
        intro d' hsz r r' e
        obtain ⟨k, j⟩ := m
        simp only [List.cons.sizeOf_spec, Prod.mk.sizeOf_spec] at hsz
        cases d' with
        | nil => simp [memberToks] at e
        | cons m' rest' =>
          obtain ⟨k', j'⟩ := m'
          rw [memberToks, memberToks] at e
          simp only [List.cons_append, List.append_assoc, List.cons.injEq, Token.str.injEq, true_and] at e
          obtain ⟨rfl, e⟩ := e
          obtain ⟨rfl, e2⟩ := toks_cancel n j j' (by omega) _ _ e
          clear e
          cases rest with
          | nil =>
            cases rest' with
            | nil => simpa using e2
            | cons => simp at e2
          | cons k rest =>
            cases rest' with
            | nil => simp at e2
            | cons k' rest' =>
              simp only [List.isEmpty_cons, Bool.false_eq_true, if_false, List.cons_append, List.cons.injEq, true_and] at e2
              obtain ⟨h1, h2⟩ := ih (k' :: rest') (by omega) r r' e2
              exact ⟨by rw [h1], h2⟩
    cases j with
    | null =>
      cases j' with
      | bool b => cases b <;> simp [toks] at e
      | null => simpa [toks] using e
      | _ => simp [toks] at e
    | bool b =>
      cases j' with
      | bool b' => cases b <;> cases b' <;> simp [toks] at e ⊢ <;> exact e
      | null => cases b <;> simp [toks] at e
      | _ => simp [toks] at e
    | num d => cases j' <;> simp_all [toks]
    | str s => cases j' <;> simp_all [toks]
    | arr items =>
      cases j' with
      | arr items' =>
        rw [toks, toks] at e
        simp only [List.cons_append, List.append_assoc, List.nil_append, List.cons.injEq, true_and] at e
        obtain ⟨rfl, h⟩ := hitems items items' (by simp only [JVal.arr.sizeOf_spec] at hn; omega) r r' e
        exact ⟨rfl, h⟩
      | _ => simp [toks] at e
    | obj d =>
      cases j' with
      | obj d' =>
        rw [toks, toks] at e
        simp only [List.cons_append, List.append_assoc, List.nil_append, List.cons.injEq, true_and] at e
        obtain ⟨rfl, h⟩ := hmembers d d' (by simp only [JVal.obj.sizeOf_spec] at hn; omega) r r' e
        exact ⟨rfl, h⟩
      | _ => simp [toks] at e

/-- A JSON text has one value. -/
theorem jtext_unique {N : Bytes → F64 → Prop} (hN : NumberTexts N) {t : Bytes} {j j' : JVal} (h : JText N t j) (h' : JText N t j') :
    j = j' := by
  have e := lex_unique hN (lex_of_text h) (lex_of_text h')
  exact (toks_cancel _ j j' (Nat.lt_succ_self _) [] [] (by rw [e])).1

end Rap
