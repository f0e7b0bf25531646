import Verif.Model.ToJson
import Verif.Props.Marshal
import Verif.Spec.ToJson

/-!
# Lemmas about the texts `toJson` writes
-/

namespace Rap

variable {M : MarshalExt} {X : JsonExt} {N : Bytes → F64 → Prop}

/-- The call returns nil, having written this text. -/
def Says (o : JOut) (t : Bytes) : Prop := o.result = .ok none ∧ o.texts.flatten = t

theorem says_say (b : Bytes) : Says (.say b) b := ⟨rfl, by simp [JOut.say]⟩

theorem says_nil : Says (.seq []) [] := ⟨rfl, rfl⟩

theorem says_cons {o : JOut} {os : List JOut} {t u : Bytes} (h : Says o t) (h' : Says (.seq os) u) :
    Says (.seq (o :: os)) (t ++ u) := by
  obtain ⟨h1, h2⟩ := h
  obtain ⟨h3, h4⟩ := h'
  rw [JOut.seq, h1]
  exact ⟨h3, by rw [List.flatten_append, h2, h4]⟩

theorem says_seq : {os : List JOut} → {ts : List Bytes} → List.Forall₂ Says os ts → Says (.seq os) ts.flatten
  | _, _, .nil => says_nil
  | _, _, .cons h h' => by rw [List.flatten_cons]; exact says_cons h (says_seq h')

theorem says_drop {o : JOut} {t : Bytes} (h : Says o t) : Says o.drop t := by
  obtain ⟨h1, h2⟩ := h
  rw [JOut.drop, h1]
  exact ⟨rfl, h2⟩

theorem says_marshal {md : Block} {t u : Bytes} {f : Bytes → JOut} (h : marshal M (.block md) = pure t) (hf : Says (f t) u) :
    Says (.marshal M md f) u := by
  rw [JOut.marshal, h]
  exact hf

theorem says_if {p : Prop} [Decidable p] {a b : JOut} {t u : Bytes} (h1 : Says a t) (h2 : Says b u) :
    Says (if p then a else b) (if p then t else u) := by
  split
  · exact h1
  · exact h2

/-! ## Items on lines of their own -/

/-- The texts with commas and line feeds between them. -/
def joined : List Bytes → Bytes
  | [] => []
  | [t] => t
  | t :: ts => t ++ b!",\n" ++ joined ts

theorem joined_commas : (ts : List Bytes) → ts ≠ [] → b!"\n" ++ joined ts = commas (ts.map (b!"\n" ++ ·))
  | [], h => absurd rfl h
  | [t], _ => rfl
  | t :: t' :: ts, _ => by
    have ih := joined_commas (t' :: ts) (by simp)
    rw [joined, List.map_cons, List.map_cons, commas, ← List.map_cons, ← ih]
    · simp
    · simp
    · simp

theorem commas_cons {t : Bytes} {ts : List Bytes} (h : ts ≠ []) : commas (t :: ts) = t ++ [44] ++ commas ts := by
  cases ts with
  | nil => exact absurd rfl h
  | cons => rfl

theorem joined_cons {t : Bytes} {ts : List Bytes} (h : ts ≠ []) : joined (t :: ts) = t ++ b!",\n" ++ joined ts := by
  cases ts with
  | nil => exact absurd rfl h
  | cons => rfl

theorem commas_append : (l r : List Bytes) → l ≠ [] → r ≠ [] → commas (l ++ r) = commas l ++ [44] ++ commas r
  | [], _, h, _ => absurd rfl h
  | [t], r, _, h => commas_cons h
  | t :: t' :: l, r, _, h => by
    rw [List.cons_append, commas_cons (by simp), commas_append (t' :: l) r (by simp) h,
      commas_cons (t := t) (ts := t' :: l) (by simp)]
    simp

theorem blank_nil : Blank [] := by simp [Blank]
theorem blank_lf : Blank b!"\n" := by simp [Blank]
theorem blank_space : Blank b!" " := by simp [Blank]
theorem blank_tabs (n : Nat) : Blank (tabs n) := fun c hc => .inr (.inl (by simpa [tabs] using (List.mem_replicate.1 hc).2))
theorem blank_append {w w' : Bytes} (h : Blank w) (h' : Blank w') : Blank (w ++ w') := fun c hc =>
  (List.mem_append.1 hc).elim (h c) (h' c)

theorem tabs_succ (n : Nat) : tabs (n + 1) = tabs n ++ [9] := by rw [tabs, tabs, List.replicate_succ']

/-- Blank text after the last item. -/
theorem items_pad : (ts : List Bytes) → (js : List JVal) → (w : Bytes) → Blank w → ts ≠ [] → List.Forall₂ (JText N) ts js →
    ∃ us, commas ts ++ w = commas us ∧ List.Forall₂ (JText N) us js
  | [], _, _, _, h, _ => absurd rfl h
  | [t], [j], w, hw, _, .cons h .nil => ⟨[t ++ w], rfl, .cons (JText.pad (w := []) blank_nil hw h) .nil⟩
  | t :: t' :: ts, j :: js, w, hw, _, .cons h hrest => by
    obtain ⟨us, h1, h2⟩ := items_pad (t' :: ts) js w hw (by simp) hrest
    refine ⟨t :: us, ?_, .cons h h2⟩
    rw [commas_cons (t := t) (ts := t' :: ts) (by simp), commas_cons (t := t) (ts := us), ← h1]
    · simp
    · rintro rfl
      cases h2
      cases hrest

/-- An array with white space before the closing bracket. -/
theorem array_pad {ts : List Bytes} {js : List JVal} {w : Bytes} (h : List.Forall₂ (JText N) ts js) (hw : Blank w) :
    JText N ([91] ++ commas ts ++ w ++ [93]) (.arr js) := by
  cases ts with
  | nil =>
    cases h
    exact .arr0 hw
  | cons t ts =>
    obtain ⟨us, h1, h2⟩ := items_pad (t :: ts) js w hw (by simp) h
    rw [List.append_assoc [91], h1]
    exact array_text h2

theorem lines_text {ts : List Bytes} {js : List JVal} {w : Bytes} (h : List.Forall₂ (JText N) ts js) (hw : Blank w) :
    JText N ([91] ++ (if ts.isEmpty then [] else b!"\n") ++ joined ts ++ w ++ [93]) (.arr js) := by
  cases ts with
  | nil =>
    cases h
    exact .arr0 hw
  | cons t ts =>
    have h2 : List.Forall₂ (JText N) ((t :: ts).map (b!"\n" ++ ·)) js := by
      rw [List.forall₂_map_left_iff]
      refine h.imp fun t j h => ?_
      have := JText.pad blank_lf blank_nil h
      rwa [List.append_nil] at this
    have := array_pad h2 hw
    rw [← joined_commas _ (by simp)] at this
    simpa using this

theorem plain_text {s : Bytes} (h : PlainText s) : Unescapes s s := requote_iff.1 (requote_plain h)

/-- A name in quotes, with white space around it. -/
theorem plain_key {w k w' : Bytes} (hw : Blank w) (hk : PlainText k) (hw' : Blank w') :
    KeyText (w ++ [34] ++ k ++ [34] ++ w') k := ⟨w, w', k, hw, hw', plain_text hk, rfl⟩

theorem plain_value {w s w' : Bytes} (hw : Blank w) (hs : PlainText s) (hw' : Blank w') :
    JText N (w ++ ([34] ++ s ++ [34]) ++ w') (.str s) := .pad hw hw' (.str (plain_text hs))

end Rap
