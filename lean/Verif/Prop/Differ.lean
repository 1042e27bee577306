import Verif.Prop.Texts
import Verif.Spec.Values

/-!
# Expressions that differ in one place: C84
-/

namespace CE
open Spec Regex
open Spec.Values (AsciiDigits)

variable (T : Tables)

theorem text_cons {pars : Provider} {x : SingleExpression} {l r : Expression} {u w : List Char} (hl : literalText l = some u) :
    Expression.Text T pars (l ++ x :: r) w ↔ ∃ t y, w = u ++ (t ++ y) ∧ x.Text T pars t ∧ r.Text T pars y := by
  rw [text_append]
  constructor
  · rintro ⟨_, _, rfl, hu, t, y, rfl, ht, hy⟩
    rw [(literal_text T hl _).1 hu]
    exact ⟨t, y, rfl, ht, hy⟩
  · rintro ⟨t, y, rfl, ht, hy⟩
    exact ⟨u, _, rfl, (literal_text T hl _).2 rfl, t, y, rfl, ht, hy⟩

theorem text_snoc {pars : Provider} {x : SingleExpression} {l r : Expression} {u w : List Char} (hr : literalText r = some u) :
    Expression.Text T pars (l ++ x :: r) w ↔ ∃ y t, w = y ++ t ++ u ∧ l.Text T pars y ∧ x.Text T pars t := by
  rw [text_append]
  constructor
  · rintro ⟨y, _, rfl, hy, t, v, rfl, ht, hv⟩
    rw [(literal_text T hr _).1 hv]
    exact ⟨y, t, by simp, hy, ht⟩
  · rintro ⟨y, t, rfl, hy, ht⟩
    exact ⟨y, t ++ u, by simp, hy, t, u, rfl, ht, (literal_text T hr _).2 rfl⟩

/-- C84: after the same literal beginning, elements none of whose texts is a prefix of one of the other, or before the same literal end,
elements none of whose texts is a suffix of one of the other: the expressions never match the same text. -/
theorem C84_exclusive (pars pars' : Provider) (src src' : List Char) (e e' : Expression) (h : Expression.parse src = .ok e)
    (h' : Expression.parse src' = .ok e') (hr : ∀ p ∈ params e, RegularParam pars p) (hr' : ∀ p ∈ params e', RegularParam pars' p)
    (hn : ((params e).map (customNames pars)).flatten.Nodup) (hn' : ((params e').map (customNames pars')).flatten.Nodup)
    (l r l' r' : Expression) (x x' : SingleExpression) (he : e = l ++ x :: r) (he' : e' = l' ++ x' :: r') (u : List Char)
    (hd : (literalText l = some u ∧ literalText l' = some u ∧ ∀ t t', x.Text T pars t → x'.Text T pars' t' → ¬ t <+: t' ∧ ¬ t' <+: t) ∨
      (literalText r = some u ∧ literalText r' = some u ∧ ∀ t t', x.Text T pars t → x'.Text T pars' t' → ¬ t <:+ t' ∧ ¬ t' <:+ t)) :
    ∃ c c', Expression.regexWithParameters (hirOf T) pars src = .ok c ∧ Expression.regexWithParameters (hirOf T) pars' src' = .ok c' ∧
      ∀ w, ¬ (c.re.IsMatch T.classes w ∧ c'.re.IsMatch T.classes w) := by
  obtain ⟨c, hc, h1, -⟩ := C82_texts T pars src e h hr hn
  obtain ⟨c', hc', h1', -⟩ := C82_texts T pars' src' e' h' hr' hn'
  refine ⟨c, c', hc, hc', fun w ⟨hw, hw'⟩ => ?_⟩
  have hw := h1 w hw
  have hw' := h1' w hw'
  rw [he] at hw
  rw [he'] at hw'
  rcases hd with ⟨hl, hl', hd⟩ | ⟨hl, hl', hd⟩
  · obtain ⟨t, y, rfl, ht, -⟩ := (text_cons T hl).1 hw
    obtain ⟨t', y', hty, ht', -⟩ := (text_cons T hl').1 hw'
    have hty := List.append_cancel_left hty
    obtain ⟨h2, h3⟩ := hd t t' ht ht'
    have hp : t' <+: t ++ y := hty ▸ List.prefix_append _ _
    rcases Nat.le_total t.length t'.length with hle | hle
    · exact h2 (List.prefix_of_prefix_length_le (List.prefix_append _ _) hp hle)
    · exact h3 (List.prefix_of_prefix_length_le hp (List.prefix_append _ _) hle)
  · obtain ⟨y, t, rfl, -, ht⟩ := (text_snoc T hl).1 hw
    obtain ⟨y', t', hty, -, ht'⟩ := (text_snoc T hl').1 hw'
    have hty := List.append_cancel_right hty
    obtain ⟨h2, h3⟩ := hd t t' ht ht'
    have hp : t' <:+ y ++ t := hty ▸ List.suffix_append _ _
    rcases Nat.le_total t.length t'.length with hle | hle
    · exact h2 (List.suffix_of_suffix_length_le (List.suffix_append _ _) hp hle)
    · exact h3 (List.suffix_of_suffix_length_le hp (List.suffix_append _ _) hle)

/-- C84: expressions that differ in one element only, between the same literal texts, match the same text exactly if these elements do. -/
theorem C84_one (pars pars' : Provider) (src src' : List Char) (e e' : Expression) (h : Expression.parse src = .ok e)
    (h' : Expression.parse src' = .ok e') (hr : ∀ p ∈ params e, RegularParam pars p) (hr' : ∀ p ∈ params e', RegularParam pars' p)
    (hn : ((params e).map (customNames pars)).flatten.Nodup) (hn' : ((params e').map (customNames pars')).flatten.Nodup)
    (hf : ∀ p ∈ params e, FreeParam pars p) (hf' : ∀ p ∈ params e', FreeParam pars' p)
    (l r l' r' : Expression) (x x' : SingleExpression) (he : e = l ++ x :: r) (he' : e' = l' ++ x' :: r') (u v : List Char)
    (hl : literalText l = some u) (hl' : literalText l' = some u) (hv : literalText r = some v) (hv' : literalText r' = some v) :
    ∃ c c', Expression.regexWithParameters (hirOf T) pars src = .ok c ∧ Expression.regexWithParameters (hirOf T) pars' src' = .ok c' ∧
      ((∃ w, c.re.IsMatch T.classes w ∧ c'.re.IsMatch T.classes w) ↔ ∃ t, x.Text T pars t ∧ x'.Text T pars' t) := by
  obtain ⟨c, hc, -, h1⟩ := C82_texts T pars src e h hr hn
  obtain ⟨c', hc', -, h1'⟩ := C82_texts T pars' src' e' h' hr' hn'
  refine ⟨c, c', hc, hc', ?_⟩
  simp only [h1 hf, h1' hf', he, he', text_cons T hl, text_cons T hl', literal_text T hv, literal_text T hv']
  constructor
  · rintro ⟨w, ⟨t, _, rfl, ht, rfl⟩, t', _, hw, ht', rfl⟩
    have := List.append_cancel_right (List.append_cancel_left hw)
    exact ⟨t, ht, this ▸ ht'⟩
  · rintro ⟨t, ht, ht'⟩
    exact ⟨_, ⟨t, v, rfl, ht, rfl⟩, t, v, rfl, ht', rfl⟩

/-- C84: expressions whose elements match the same texts one by one match the same text. -/
theorem C84_collide (pars pars' : Provider) (src src' : List Char) (e e' : Expression) (h : Expression.parse src = .ok e)
    (h' : Expression.parse src' = .ok e') (hr : ∀ p ∈ params e, RegularParam pars p) (hr' : ∀ p ∈ params e', RegularParam pars' p)
    (hn : ((params e).map (customNames pars)).flatten.Nodup) (hn' : ((params e').map (customNames pars')).flatten.Nodup)
    (hf : ∀ p ∈ params e, FreeParam pars p) (hf' : ∀ p ∈ params e', FreeParam pars' p)
    (hs : Shared T pars pars' e e') :
    ∃ c c', Expression.regexWithParameters (hirOf T) pars src = .ok c ∧ Expression.regexWithParameters (hirOf T) pars' src' = .ok c' ∧
      ∃ w, c.re.IsMatch T.classes w ∧ c'.re.IsMatch T.classes w := by
  obtain ⟨c, hc, -, h1⟩ := C82_texts T pars src e h hr hn
  obtain ⟨c', hc', -, h1'⟩ := C82_texts T pars' src' e' h' hr' hn'
  refine ⟨c, c', hc, hc', ?_⟩
  simp only [h1 hf, h1' hf']
  clear h h' hr hr' hn hn' hf hf' hc hc' h1 h1'
  induction hs with
  | nil => exact ⟨[], rfl, rfl⟩
  | cons e e' es es' t h1 h2 _ ih =>
    obtain ⟨w, h3, h4⟩ := ih
    exact ⟨t ++ w, ⟨t, w, rfl, h1, h3⟩, t, w, rfl, h2, h4⟩

/-- The texts of a parameter that is not custom. -/
theorem builtin_text {pars : Provider} {p : Parameter} {b : Builtin} (hp : pars p.input = none) (hb : p.input.frag = b.name) (x : List Char) :
    ParamText T pars p x ↔ b.Lang T.classes x := by
  constructor
  · rintro ⟨pre, post, g, l, h⟩
    simp only [customMatch, hp] at h
    obtain ⟨b', hb', h1, -⟩ := h
    rw [name_inj (hb'.symm.trans hb)] at h1
    exact h1
  · intro h
    refine ⟨[], [], 1, ?_⟩
    simp only [customMatch, hp]
    cases b with
    | string =>
      obtain ⟨q, i, hq, hx, hi⟩ := h
      rcases hq with rfl | rfl
      · exact ⟨_, .string, hb, ⟨_, i, .inl rfl, hx, hi⟩, i, .inl ⟨hx, rfl⟩⟩
      · exact ⟨_, .string, hb, ⟨_, i, .inr rfl, hx, hi⟩, i, .inr ⟨hx, rfl⟩⟩
    | int => exact ⟨_, .int, hb, h, rfl⟩
    | float => exact ⟨_, .float, hb, h, rfl⟩
    | word => exact ⟨_, .word, hb, h, rfl⟩
    | anonymous => exact ⟨_, .anonymous, hb, h, rfl⟩

theorem digits_unquoted {U : Classes} (hU : AsciiDigits U) {d : List Char} (h : Digits0 U d) {q : Char} (hq : q = '"' ∨ q = '\'') : q ∉ d := by
  intro hm
  have := h q hm
  rcases hq with rfl | rfl
  · exact absurd ((hU _ (by decide)).1 this) (by decide)
  · exact absurd ((hU _ (by decide)).1 this) (by decide)

/-- Numbers are not empty and have no quotes. -/
theorem number_unquoted {U : Classes} (hU : AsciiDigits U) {b : Builtin} (hb : b = .int ∨ b = .float) {x : List Char} (h : b.Lang U x) {q : Char}
    (hq : q = '"' ∨ q = '\'') : x ≠ [] ∧ q ∉ x := by
  have sign : ∀ s, Sign s → q ∉ s := by
    rintro s (rfl | rfl | rfl)
    · simp
    · rcases hq with rfl | rfl <;> decide
    · rcases hq with rfl | rfl <;> decide
  rcases hb with rfl | rfl
  · obtain ⟨d, hd, hx⟩ := h
    have := digits_unquoted hU hd.2 hq
    rcases hx with rfl | rfl
    · exact ⟨hd.1, this⟩
    · refine ⟨by simp, ?_⟩
      rw [List.mem_cons]
      rintro (rfl | h)
      · revert hq; decide
      · exact this h
  · obtain ⟨s, b, rfl, hs, hb⟩ := h
    have key : b ≠ [] ∧ q ∉ b := by
      rcases hb with rfl | rfl | ⟨m, e, rfl, hm, he⟩
      · exact ⟨by simp, by rcases hq with rfl | rfl <;> decide⟩
      · exact ⟨by simp, by rcases hq with rfl | rfl <;> decide⟩
      · have h1 : m ≠ [] ∧ q ∉ m := by
          rcases hm with hm | ⟨a, b, rfl, ha, hb, -⟩
          · exact ⟨hm.1, digits_unquoted hU hm.2 hq⟩
          · refine ⟨by simp, ?_⟩
            rw [List.mem_append, List.mem_cons]
            rintro (h | rfl | h)
            · exact digits_unquoted hU ha hq h
            · revert hq; decide
            · exact digits_unquoted hU hb hq h
        have h2 : q ∉ e := by
          rcases he with rfl | ⟨c, s, d, rfl, hc, hs, hd⟩
          · simp
          · rw [List.mem_cons, List.mem_append]
            rintro (rfl | h | h)
            · rcases hc with rfl | rfl <;> revert hq <;> decide
            · exact sign s hs h
            · exact digits_unquoted hU hd.2 hq h
        refine ⟨by simp [h1.1], ?_⟩
        rw [List.mem_append]
        exact fun h => h.elim h1.2 h2
    refine ⟨by simp [key.1], ?_⟩
    rw [List.mem_append]
    exact fun h => h.elim (sign s hs) key.2

theorem number_string {U : Classes} (hU : AsciiDigits U) {b : Builtin} (hb : b = .int ∨ b = .float) {x y : List Char} (h : b.Lang U x)
    (h' : Builtin.string.Lang U y) : (¬ x <+: y ∧ ¬ y <+: x) ∧ ¬ x <:+ y ∧ ¬ y <:+ x := by
  obtain ⟨q, i, hq, rfl, -⟩ := h'
  obtain ⟨h1, h2⟩ := number_unquoted hU hb h hq
  refine ⟨⟨fun hp => ?_, fun hp => h2 (hp.subset (by simp))⟩, fun hp => ?_, fun hp => h2 (hp.subset (by simp))⟩
  · cases x with
    | nil => exact h1 rfl
    | cons c x =>
      have := (List.cons_prefix_cons.1 hp).1
      exact h2 (by simp [this])
  · obtain ⟨z, hz⟩ := hp
    have : x.getLast? = some q := by
      have := congrArg List.getLast? hz
      rw [List.getLast?_append, ← List.cons_append, List.getLast?_append] at this
      cases hx : x.getLast? with
      | none => exact absurd (List.getLast?_eq_none_iff.1 hx) h1
      | some c => rw [hx] at this; simpa using this
    exact h2 (List.mem_of_getLast? this)

/-- C84: of the built-in types, exactly numbers and strings exclude each other; and then no text of one is a prefix or suffix of one of the other. -/
theorem C84_builtin {U : Classes} (hU : AsciiDigits U) (hs : ¬ U.space '1' ∧ ¬ U.space '"') (b b' : Builtin) :
    ((∃ t, b.Lang U t ∧ b'.Lang U t) ↔ ¬ Apart b b') ∧
    (Apart b b' → ∀ t t', b.Lang U t → b'.Lang U t' → (¬ t <+: t' ∧ ¬ t' <+: t) ∧ ¬ t <:+ t' ∧ ¬ t' <:+ t) := by
  have far : Apart b b' → ∀ t t', b.Lang U t → b'.Lang U t' → (¬ t <+: t' ∧ ¬ t' <+: t) ∧ ¬ t <:+ t' ∧ ¬ t' <:+ t := by
    intro ha t t' ht ht'
    have swap : ∀ {x y : List Char}, ((¬ x <+: y ∧ ¬ y <+: x) ∧ ¬ x <:+ y ∧ ¬ y <:+ x) → (¬ y <+: x ∧ ¬ x <+: y) ∧ ¬ y <:+ x ∧ ¬ x <:+ y :=
      fun h => ⟨⟨h.1.2, h.1.1⟩, h.2.2, h.2.1⟩
    cases b <;> cases b' <;> first
      | exact ha.elim
      | exact number_string hU (.inl rfl) ht ht'
      | exact number_string hU (.inr rfl) ht ht'
      | exact swap (number_string hU (.inl rfl) ht' ht)
      | exact swap (number_string hU (.inr rfl) ht' ht)
  refine ⟨⟨fun ⟨t, h1, h2⟩ ha => (far ha t t h1 h2).1.1 (List.prefix_refl t), fun ha => ?_⟩, far⟩
  have d1 : Digits U ['1'] := ⟨by simp, fun c hc => by rw [List.mem_singleton.1 hc]; exact (hU _ (by decide)).2 (by decide)⟩
  have i1 : Builtin.int.Lang U ['1'] := ⟨_, d1, .inl rfl⟩
  have f1 : Builtin.float.Lang U ['1'] := ⟨[], ['1'], rfl, .inl rfl, .inr (.inr ⟨['1'], [], rfl, .inl d1, .inl rfl⟩)⟩
  have w1 : Builtin.word.Lang U ['1'] := ⟨by simp, fun c hc => by rw [List.mem_singleton.1 hc]; exact hs.1⟩
  have a1 : Builtin.anonymous.Lang U ['1'] := by simp [Builtin.Lang]
  have s2 : Builtin.string.Lang U ['"', '"'] := ⟨'"', [], .inl rfl, rfl, .nil⟩
  have w2 : Builtin.word.Lang U ['"', '"'] := ⟨by simp, fun c hc => by
    have : c = '"' := by simpa using hc
    rw [this]; exact hs.2⟩
  have a2 : Builtin.anonymous.Lang U ['"', '"'] := by simp [Builtin.Lang]
  cases b <;> cases b' <;> first
    | exact absurd trivial ha
    | exact ⟨['1'], by assumption, by assumption⟩
    | exact ⟨['"', '"'], by assumption, by assumption⟩

/-- C84: two steps that are the same but for the type of their only parameter, which is built in. -/
theorem C84_types (hU : AsciiDigits T.classes) (hs : ¬ T.classes.space '1' ∧ ¬ T.classes.space '"') (pars pars' : Provider) (src src' : List Char)
    (l r l' r' : Expression) (p p' : Parameter) (h : Expression.parse src = .ok (l ++ .parameter p :: r))
    (h' : Expression.parse src' = .ok (l' ++ .parameter p' :: r')) (u v : List Char)
    (hl : literalText l = some u) (hl' : literalText l' = some u) (hv : literalText r = some v) (hv' : literalText r' = some v)
    (b b' : Builtin) (hp : pars p.input = none) (hp' : pars' p'.input = none) (hb : p.input.frag = b.name) (hb' : p'.input.frag = b'.name) :
    ∃ c c', Expression.regexWithParameters (hirOf T) pars src = .ok c ∧ Expression.regexWithParameters (hirOf T) pars' src' = .ok c' ∧
      ((∃ w, c.re.IsMatch T.classes w ∧ c'.re.IsMatch T.classes w) ↔ ¬ Apart b b') := by
  have one : ∀ {l r : Expression} {p : Parameter} {u v : List Char}, literalText l = some u → literalText r = some v →
      params (l ++ .parameter p :: r) = [p] := by
    intro l r p u v hl hr
    have nop : ∀ {e : Expression} {u : List Char}, literalText e = some u → params e = [] := literal_params
    have : params (l ++ .parameter p :: r) = params l ++ p :: params r := by
      clear hl
      induction l with
      | nil => rw [List.nil_append, params_cons]; rfl
      | cons e es ih => rw [List.cons_append, params_cons, params_cons]; cases e <;> simp [ih]
    rw [this, nop hl, nop hr]; rfl
  have reg : ∀ {pars : Provider} {p : Parameter} {b : Builtin}, pars p.input = none → p.input.frag = b.name →
      (RegularParam pars p ∧ FreeParam pars p) ∧ ([p].map (customNames pars)).flatten.Nodup := by
    intro pars p b hp hb
    refine ⟨⟨by simp only [RegularParam, hp]; exact ⟨b, hb⟩, fun v r hv => by rw [hp] at hv; cases hv⟩, ?_⟩
    simp only [List.map_cons, List.map_nil, List.flatten_cons, List.flatten_nil, List.append_nil, customNames, hp]
    split
    · have : groupName p.id 0 ≠ groupName p.id 1 := by
        intro h
        have := List.append_cancel_left h
        revert this; decide
      simp [this]
    · simp
  obtain ⟨c, c', hc, hc', key⟩ := C84_one T pars pars' src src' _ _ h h'
    (by rw [one hl hv]; simpa using (reg hp hb).1.1) (by rw [one hl' hv']; simpa using (reg hp' hb').1.1)
    (by rw [one hl hv]; exact (reg hp hb).2) (by rw [one hl' hv']; exact (reg hp' hb').2)
    (by rw [one hl hv]; simpa using (reg hp hb).1.2) (by rw [one hl' hv']; simpa using (reg hp' hb').1.2)
    l r l' r' (.parameter p) (.parameter p') rfl rfl u v hl hl' hv hv'
  refine ⟨c, c', hc, hc', key.trans ?_⟩
  rw [← (C84_builtin hU hs b b').1]
  simp only [SingleExpression.Text, builtin_text T hp hb, builtin_text T hp' hb']

theorem ascii_digits : AsciiDigits asciiTables.classes := by
  intro c _
  show Ranges.mem [('0', '9')] c = true ↔ _
  simp [Ranges.mem, Char.isDigit, Char.le_def]

theorem ascii_space : ¬ asciiTables.classes.space '1' ∧ ¬ asciiTables.classes.space '"' := by
  refine ⟨?_, ?_⟩
  · show ¬ asciiTables.tests.space '1' = true
    decide
  · show ¬ asciiTables.tests.space '"' = true
    decide

/-- Non-vacuity: `a {int}!` and `a {float}!` collide; with `{string}` instead of `{float}` they do not. -/
example : (∃ c c', Expression.regexWithParameters (hirOf asciiTables) (fun _ => none) (chars! "a {int}!") = .ok c ∧
      Expression.regexWithParameters (hirOf asciiTables) (fun _ => none) (chars! "a {float}!") = .ok c' ∧
      ∃ w, c.re.IsMatch asciiTables.classes w ∧ c'.re.IsMatch asciiTables.classes w) ∧
    ∃ c c', Expression.regexWithParameters (hirOf asciiTables) (fun _ => none) (chars! "a {int}!") = .ok c ∧
      Expression.regexWithParameters (hirOf asciiTables) (fun _ => none) (chars! "a {string}!") = .ok c' ∧
      ∀ w, ¬ (c.re.IsMatch asciiTables.classes w ∧ c'.re.IsMatch asciiTables.classes w) := by
  let l : Expression := [.text ⟨0, 1, ['a']⟩, .whitespaces ⟨1, 1, [' ']⟩]
  constructor
  · obtain ⟨c, c', h1, h2, h3⟩ := C84_types asciiTables ascii_digits ascii_space (fun _ => none) (fun _ => none) (chars! "a {int}!")
      (chars! "a {float}!") l [.text ⟨7, 1, ['!']⟩] l [.text ⟨9, 1, ['!']⟩] ⟨⟨3, 1, chars! "int"⟩, 0⟩ ⟨⟨3, 1, chars! "float"⟩, 0⟩
      rfl rfl _ ['!'] rfl rfl rfl rfl .int .float rfl rfl rfl rfl
    exact ⟨c, c', h1, h2, h3.2 id⟩
  · obtain ⟨c, c', h1, h2, h3⟩ := C84_types asciiTables ascii_digits ascii_space (fun _ => none) (fun _ => none) (chars! "a {int}!")
      (chars! "a {string}!") l [.text ⟨7, 1, ['!']⟩] l [.text ⟨10, 1, ['!']⟩] ⟨⟨3, 1, chars! "int"⟩, 0⟩ ⟨⟨3, 1, chars! "string"⟩, 0⟩
      rfl rfl _ ['!'] rfl rfl rfl rfl .int .string rfl rfl rfl rfl
    exact ⟨c, c', h1, h2, fun w hw => h3.1 ⟨w, hw⟩ trivial⟩

end CE
