import Verif.Proof.SearchExpr

/-!
# The match that is returned: C46, C47

`T` is any decision procedure for `\d`, `\s`, `\w`; `Re.find` models `Regex::captures`.
-/

namespace CE
open Spec Regex

theorem unescape_ne_nil {stops t : List Char} (hne : t ≠ []) (h : Escd stops t) : unescape t ≠ [] := by
  cases h with
  | nil => exact absurd rfl hne
  | char c cs h1 _ _ =>
    rw [unescape]
    · simp
    · intro hc _; exact absurd hc h1
    · intro d r hc _; exact absurd hc h1
  | esc d cs _ _ => simp [unescape]

theorem parse_full {src : List Char} {e : Expression} (h : Expression.parse src = .ok e) : ∀ x ∈ e, FullElem x := by
  intro x hx
  have hw := C09_wellFormed src e h x hx
  cases x with
  | text t => trivial
  | whitespaces t => exact parse_plainWs h t hx
  | optional o => exact unescape_ne_nil hw.1 hw.2
  | parameter p => trivial
  | alternation a =>
    refine ⟨fun ha => parse_nonemptyAlts h (ha ▸ hx), fun b hb q hq => ?_⟩
    have := hw b hb q hq
    cases q with
    | text t => trivial
    | optional o => exact unescape_ne_nil this.1 this.2

/-! ## The choices describe the matches -/

theorem branchFits_iff (b : SingleAlternation) (x : List Char) : BranchLang b x ↔ ∃ s, BranchFits b s x := by
  induction b generalizing x with
  | nil => exact ⟨fun h => ⟨[], h⟩, fun ⟨s, h⟩ => by cases s <;> first | exact h | exact h.elim⟩
  | cons a as ih =>
    cases a with
    | text t =>
      simp only [BranchLang, BranchFits, Alternative.Lang]
      constructor
      · rintro ⟨y, z, rfl, rfl, hz⟩
        obtain ⟨s, hs⟩ := (ih z).1 hz
        exact ⟨s, z, rfl, hs⟩
      · rintro ⟨s, z, rfl, hs⟩
        exact ⟨_, z, rfl, rfl, (ih z).2 ⟨s, hs⟩⟩
    | optional o =>
      simp only [BranchLang, Alternative.Lang]
      constructor
      · rintro ⟨y, z, rfl, (rfl | rfl), hz⟩ <;> obtain ⟨s, hs⟩ := (ih z).1 hz
        · exact ⟨false :: s, z, rfl, hs⟩
        · exact ⟨true :: s, z, rfl, hs⟩
      · rintro ⟨s, h⟩
        match s, h with
        | b :: s, ⟨z, h1, hs⟩ =>
          refine ⟨_, z, h1, ?_, (ih z).2 ⟨s, hs⟩⟩
          cases b
          · exact .inl rfl
          · exact .inr rfl

theorem piece_iff (U : Classes) (e : SingleExpression) (g p : Nat) (x : List Char) (l : List Cap) :
    e.Piece U g p x l ↔ ∃ c, e.Fits U g p c x l := by
  cases e with
  | text t => exact ⟨fun h => ⟨.plain, h⟩, fun ⟨c, h⟩ => by cases c <;> first | exact h | exact h.elim⟩
  | whitespaces t => exact ⟨fun h => ⟨.plain, h⟩, fun ⟨c, h⟩ => by cases c <;> first | exact h | exact h.elim⟩
  | optional o =>
    constructor
    · rintro ⟨rfl | rfl, h⟩
      · exact ⟨.opt false, rfl, h⟩
      · exact ⟨.opt true, rfl, h⟩
    · rintro ⟨c, h⟩
      cases c <;> try exact h.elim
      rename_i b
      cases b
      · exact ⟨.inl h.1, h.2⟩
      · exact ⟨.inr h.1, h.2⟩
  | alternation a =>
    constructor
    · rintro ⟨⟨b, hb, h⟩, hl⟩
      obtain ⟨s, hs⟩ := (branchFits_iff b x).1 h
      obtain ⟨i, hi⟩ := List.mem_iff_getElem?.1 hb
      exact ⟨.branch i s, ⟨b, hi, hs⟩, hl⟩
    · rintro ⟨c, h⟩
      cases c <;> try exact h.elim
      obtain ⟨⟨b, hb, hs⟩, hl⟩ := h
      exact ⟨⟨b, List.mem_iff_getElem?.2 ⟨_, hb⟩, (branchFits_iff b x).2 ⟨_, hs⟩⟩, hl⟩
  | parameter q =>
    constructor
    · intro h; exact ⟨.arg x, rfl, h⟩
    · rintro ⟨c, h⟩
      cases c <;> try exact h.elim
      exact h.2

/-- The ways in which an expression matches, with and without the choices. -/
theorem splits_fits (U : Classes) (e : Expression) (g p : Nat) (w : List Char) (l : List Cap) :
    Splits U e g p w l ↔ ∃ cs, Fits U e g p cs w l := by
  constructor
  · intro h
    induction h with
    | nil => exact ⟨[], .nil _ _⟩
    | cons e es g p x y k l h1 _ ih =>
      obtain ⟨c, hc⟩ := (piece_iff ..).1 h1
      obtain ⟨cs, hcs⟩ := ih
      exact ⟨c :: cs, .cons _ _ _ _ _ _ _ _ _ _ hc hcs⟩
  · rintro ⟨cs, h⟩
    induction h with
    | nil => exact .nil _ _
    | cons e es g p c cs x y k l h1 _ ih => exact .cons _ _ _ _ _ _ _ _ ((piece_iff ..).2 ⟨c, h1⟩) ih

/-! ## C46 -/

/-- C46: `captures` returns nothing exactly if the text is not in the language of the expression; otherwise the match
covers the whole text, and its choices are preferred to those of every other way in which the expression matches it. -/
theorem C46_returned (src : List Char) (e : Expression) (h : Expression.parse src = .ok e) (hb : AllBuiltin e) :
    ∃ c, Expression.regex src = .ok c ∧ ∀ (T : Tests), SaneDigits T.classes → ∀ w : List Char,
      (c.re.find T w = none ↔ ¬ e.Lang T.classes w) ∧
      ∀ i x l, c.re.find T w = some (i, x, l) → i = 0 ∧ x = w ∧ ∃ cs, Fits T.classes e 1 0 cs w l ∧
        ∀ ds m, Fits T.classes e 1 0 ds w m → ds = cs ∧ m = l ∨ Preferred T.classes e cs ds := by
  refine ⟨_, regex_builtin h hb, fun T hs w => ?_⟩
  simp only
  rw [find_expr e (parse_full h) hb]
  have hall : ∀ ds m, Fits T.classes e 1 0 ds w m → (ds, w, m) ∈ seqTries T e 1 [] w := fun ds m hd =>
    (mem_seqTries e hb _ _ _ _ _ _).2 ⟨hd, [], by simp⟩
  constructor
  · rw [Option.map_eq_none_iff, List.find?_eq_none]
    constructor
    · rintro hn ⟨l, hl⟩
      obtain ⟨cs, hcs⟩ := (splits_fits ..).1 hl
      exact hn _ (hall cs l hcs) (by simp)
    · rintro hn ⟨cs, x, l⟩ ha hx
      obtain ⟨h1, post, h2⟩ := (mem_seqTries e hb _ _ _ _ _ _).1 ha
      have : post = [] := by simpa [h2] using hx
      rw [this, List.append_nil] at h2
      exact hn ⟨l, (splits_fits ..).2 ⟨cs, h2 ▸ h1⟩⟩
  · intro i x l hf
    obtain ⟨⟨cs, y, m⟩, hf', heq⟩ := Option.map_eq_some_iff.1 hf
    clear hf
    have hf := hf'
    clear hf'
    simp only [Prod.mk.injEq] at heq
    obtain ⟨rfl, rfl, rfl⟩ := heq
    obtain ⟨h1, post, h2⟩ := (mem_seqTries e hb _ _ _ _ _ _).1 (List.mem_of_find?_eq_some hf)
    have : post = [] := by
      have := List.find?_some hf
      simpa [h2] using this
    rw [this, List.append_nil] at h2
    subst h2
    refine ⟨rfl, rfl, cs, h1, fun ds m' hd => ?_⟩
    rcases sorts_seq hs e hb 1 [] w _ _ hf _ (hall ds m' hd) (by simp) with he | hp
    · simp only [Prod.mk.injEq] at he; exact .inl ⟨he.1, he.2.2⟩
    · exact .inr hp

/-! ## The preference is an order -/

theorem takenBefore_asymm {s t : List Bool} (h : TakenBefore s t) : ¬ TakenBefore t s := by
  induction h with
  | here => intro h; cases h
  | there b s t _ ih => intro h; cases h; exact ih ‹_›

theorem prefix_unique {P : Char → Prop} {a b a' b' : List Char} (ha : ∀ c ∈ a, P c) (ha' : ∀ c ∈ a', P c)
    (hb : ∀ c r, b = c :: r → ¬ P c) (hb' : ∀ c r, b' = c :: r → ¬ P c) (h : a ++ b = a' ++ b') : a = a' := by
  induction a generalizing a' with
  | nil =>
    cases a' with
    | nil => rfl
    | cons c a' => exact absurd (ha' c (by simp)) (hb c (a' ++ b') h)
  | cons c a ih =>
    cases a' with
    | nil => exact absurd (ha c (by simp)) (hb' c (a ++ b) h.symm)
    | cons d a' =>
      simp at h
      rw [h.1, ih (fun x hx => ha x (by simp [hx])) (fun x hx => ha' x (by simp [hx])) h.2]

theorem mantissa_chars {U : Classes} {m : List Char} (h : Mantissa U m) : ∀ c ∈ m, U.digit c ∨ c = '.' := by
  rcases h with h | ⟨a, b, rfl, ha, hb, -⟩
  · exact fun c hc => .inl (h.2 c hc)
  · intro c hc
    rcases List.mem_append.1 hc with hc | hc
    · exact .inl (ha c hc)
    · rcases List.mem_cons.1 hc with hc | hc
      · exact .inr hc
      · exact .inl (hb c hc)

theorem mantissa_ne_nil {U : Classes} {m : List Char} (h : Mantissa U m) : m ≠ [] := by
  rcases h with h | ⟨a, b, rfl, -⟩
  · exact h.1
  · simp

/-- A float has one sign, one mantissa and one exponent. -/
theorem float_unique {U : Classes} (hs : SaneDigits U) {s m e s' m' e' : List Char} (h1 : Sign s) (h2 : Mantissa U m)
    (h3 : e = [] ∨ Exponent U e) (h1' : Sign s') (h2' : Mantissa U m') (h3' : e' = [] ∨ Exponent U e')
    (h : s ++ m ++ e = s' ++ m' ++ e') : s = s' ∧ m = m' ∧ e = e' := by
  have hsign : ∀ {s : List Char}, Sign s → ∀ c ∈ s, c = '+' ∨ c = '-' := by
    rintro s (rfl | rfl | rfl) c hc <;> simp at hc <;> simp [hc]
  have hm : ∀ {m : List Char} (e : List Char), Mantissa U m → ∀ c r, m ++ e = c :: r → ¬ (c = '+' ∨ c = '-') := by
    intro m e hm c r he hc
    cases m with
    | nil => exact mantissa_ne_nil hm rfl
    | cons d m =>
      simp at he
      rcases mantissa_chars hm d (by simp) with hd | hd
      · rcases hc with rfl | rfl <;> exact hs _ (by simp) (he.1 ▸ hd)
      · rcases hc with rfl | rfl <;> exact absurd (he.1.symm.trans hd) (by decide)
  have he : ∀ {e : List Char}, (e = [] ∨ Exponent U e) → ∀ c r, e = c :: r → ¬ (U.digit c ∨ c = '.') := by
    rintro e (rfl | ⟨c', s, d, rfl, hc, -⟩) c r hr h
    · cases hr
    · simp at hr
      rw [← hr.1] at h
      rcases hc with rfl | rfl <;> rcases h with h | h <;> first | exact hs _ (by simp) h | exact absurd h (by decide)
  rw [List.append_assoc, List.append_assoc] at h
  have e1 := prefix_unique (hsign h1) (hsign h1') (hm e h2) (hm e' h2') h
  subst e1
  have h := List.append_cancel_left h
  have e2 := prefix_unique (mantissa_chars h2) (mantissa_chars h2') (he h3) (he h3') h
  subst e2
  exact ⟨rfl, rfl, List.append_cancel_left h⟩

theorem floatBefore_asymm {U : Classes} (hs : SaneDigits U) {x y : List Char} (h : FloatBefore U x y) : ¬ FloatBefore U y x := by
  obtain ⟨s, m, e, m', e', rfl, rfl, h1, h2, h3, h4, h5, h6⟩ := h
  rintro ⟨t, n, f, n', f', g1, g2, k1, k2, k3, k4, k5, k6⟩
  obtain ⟨rfl, rfl, rfl⟩ := float_unique hs h1 h3 h5 k1 k2 k4 g1
  obtain ⟨-, rfl, rfl⟩ := float_unique hs h1 h2 h4 h1 k3 k5 g2
  rcases h6 with h6 | ⟨h6, h7⟩ <;> rcases k6 with k6 | ⟨k6, k7⟩
  · exact h6.1 k6.2
  · exact h6.1 (k6.1 h6.2)
  · exact k6.1 (h6.1 k6.2)
  · rcases h7 with h7 | ⟨h7, h8⟩ <;> rcases k7 with k7 | ⟨k7, k8⟩ <;> first | omega | (subst h7; omega) | (subst k7; omega)

theorem before_asymm {U : Classes} (hs : SaneDigits U) {e : SingleExpression} {c d : Choice} (h : e.Before U c d) :
    ¬ e.Before U d c := by
  cases e <;> cases c <;> cases d <;> try exact h.elim
  · rintro (h' | ⟨h', h2⟩) <;> rcases h with h | ⟨h, h3⟩ <;> first | omega | exact takenBefore_asymm h2 h3
  · intro h'; exact absurd (h'.2.symm.trans h.1) (by decide)
  · rintro ⟨b', hb', h'⟩
    obtain ⟨b, hb, h⟩ := h
    obtain rfl := name_inj (hb.symm.trans hb')
    cases b
    case float => exact floatBefore_asymm hs h h'
    all_goals exact Nat.lt_asymm h h'

/-- C46: two different ways of matching are never preferred to each other: there is at most one most preferred way. -/
theorem C46_order (U : Classes) (hs : SaneDigits U) (e : Expression) (cs ds : List Choice) (h : Preferred U e cs ds) :
    ¬ Preferred U e ds cs ∧ cs ≠ ds := by
  have asymm : ∀ {e cs ds}, Preferred U e cs ds → ¬ Preferred U e ds cs := by
    intro e cs ds h
    induction h with
    | here e es c d cs ds h =>
      intro h'
      cases h' with
      | here _ _ _ _ _ _ h' => exact before_asymm hs h h'
      | there => exact before_asymm hs h h
    | there e es c cs ds _ ih =>
      intro h'
      cases h' with
      | here _ _ _ _ _ _ h' => exact before_asymm hs h' h'
      | there _ _ _ _ _ h' => exact ih h'
  exact ⟨asymm h, fun he => asymm (he ▸ h) (he ▸ h)⟩

/-! ## C47 -/

/-- Tests for ASCII. -/
def asciiTests : Tests := ⟨fun c => decide ('0' ≤ c ∧ c ≤ '9'), fun c => decide (c = ' ' ∨ c = '\t' ∨ c = '\n' ∨ c = '\r'),
  fun c => decide ('0' ≤ c ∧ c ≤ '9' ∨ 'a' ≤ c ∧ c ≤ 'z' ∨ 'A' ≤ c ∧ c ≤ 'Z' ∨ c = '_'), fun _ _ => false, []⟩

/-- Non-vacuity of C46, C47. -/
theorem sane_ascii : SaneDigits asciiTests.classes := by
  intro c hc h
  simp only [List.mem_cons, List.not_mem_nil, or_false] at hc
  simp only [Tests.classes, asciiTests, decide_eq_true_eq] at h
  rcases hc with rfl | rfl | rfl | rfl | rfl | rfl | rfl <;> revert h <;> decide

/-- In the returned match, a parameter of this name takes the longest text with which, given what the elements before
it match, the rest can match. -/
def TakesLongest (name : List Char) : Prop :=
  ∀ (src : List Char) (es : Expression) (p : Parameter) (fs : Expression),
    Expression.parse src = .ok (es ++ .parameter p :: fs) → AllBuiltin (es ++ .parameter p :: fs) → p.input.frag = name →
    ∀ c, Expression.regex src = .ok c → ∀ (T : Tests), SaneDigits T.classes → ∀ (w : List Char) i x l,
      c.re.find T w = some (i, x, l) →
        ∃ cs y ds, Fits T.classes (es ++ .parameter p :: fs) 1 0 (cs ++ .arg y :: ds) w l ∧ cs.length = es.length ∧
          ∀ z ds' m, Fits T.classes (es ++ .parameter p :: fs) 1 0 (cs ++ .arg z :: ds') w m → z.length ≤ y.length

theorem fits_choices {U : Classes} {es fs : Expression} {p : Parameter} {g q : Nat} {as : List Choice} {w : List Char}
    {l : List Cap} (h : Fits U (es ++ .parameter p :: fs) g q as w l) :
    ∃ cs y ds, as = cs ++ .arg y :: ds ∧ cs.length = es.length := by
  induction es generalizing g q as w l with
  | nil =>
    cases h with
    | cons _ _ _ _ a as u v k m hu hv =>
      cases a with
      | arg y => exact ⟨[], y, as, rfl, rfl⟩
      | _ => exact hu.elim
  | cons e es ih =>
    cases h with
    | cons _ _ _ _ a as u v k m hu hv =>
      obtain ⟨cs, y, ds, rfl, h⟩ := ih hv
      exact ⟨a :: cs, y, ds, rfl, by simp [h]⟩

theorem preferred_at {U : Classes} (hs : SaneDigits U) {es fs : Expression} {x : SingleExpression} {cs ds ds' : List Choice}
    {a b : Choice} (hl : cs.length = es.length) (h : Preferred U (es ++ x :: fs) (cs ++ a :: ds) (cs ++ b :: ds')) :
    x.Before U a b ∨ a = b := by
  induction es generalizing cs with
  | nil =>
    obtain rfl := List.eq_nil_of_length_eq_zero hl
    cases h with
    | here _ _ _ _ _ _ h => exact .inl h
    | there => exact .inr rfl
  | cons e es ih =>
    cases cs with
    | nil => simp at hl
    | cons c cs =>
      cases h with
      | here _ _ _ _ _ _ h => exact absurd h (before_asymm hs h)
      | there _ _ _ _ _ h => exact ih (by simpa using hl) h

/-- C47 (partial; for `float` it is false, see `C47_false`): parameters take the longest text possible. -/
theorem C47_longest_partial (b : Builtin) (hne : b ≠ .float) : TakesLongest b.name := by
  intro src es p fs h hb hn c hc T hs w i x l hf
  obtain ⟨c', h1, h2⟩ := C46_returned src _ h hb
  rw [hc] at h1
  cases h1
  obtain ⟨-, -, as, has, hall⟩ := (h2 T hs w).2 i x l hf
  obtain ⟨cs, y, ds, rfl, hl⟩ := fits_choices has
  refine ⟨cs, y, ds, has, hl, fun z ds' m hd => ?_⟩
  rcases hall _ _ hd with ⟨he, -⟩ | hp
  · have := List.append_cancel_left he
    simp at this
    rw [this.1]; exact Nat.le_refl _
  · rcases preferred_at hs hl hp with ⟨b', hn', hbf⟩ | he
    · obtain rfl := name_inj (hn.symm.trans hn')
      cases b
      case float => exact absurd rfl hne
      all_goals exact Nat.le_of_lt hbf
    · cases he; exact Nat.le_refl _

/-- C47: for `float` this does not hold: `{float}{word}` takes from `1.5kg` the arguments `1` and `.5kg`. -/
theorem C47_false : ¬ TakesLongest Builtin.float.name := by
  intro hall
  let p : Parameter := ⟨⟨1, 1, "float".toList⟩, 0⟩
  let q : Parameter := ⟨⟨8, 1, "word".toList⟩, 1⟩
  have hp : Expression.parse "{float}{word}".toList = .ok ([] ++ .parameter p :: [.parameter q]) := rfl
  have hb : AllBuiltin ([] ++ .parameter p :: [.parameter q]) := by
    intro r hr
    simp at hr
    rcases hr with rfl | rfl
    · exact ⟨.float, rfl⟩
    · exact ⟨.word, rfl⟩
  obtain ⟨c, hc⟩ : ∃ c, Expression.regex "{float}{word}".toList = .ok c ∧
    c.re.find asciiTests "1.5kg".toList = some (0, "1.5kg".toList, [⟨1, 0, "1".toList⟩, ⟨2, 1, ".5kg".toList⟩]) :=
    ⟨_, rfl, by decide⟩
  obtain ⟨cs, y, ds, h1, h2, h3⟩ := hall _ [] p [.parameter q] hp hb rfl c hc.1 asciiTests sane_ascii _ _ _ _ hc.2
  obtain rfl := List.eq_nil_of_length_eq_zero h2
  have hy : y.length ≤ 1 := by
    generalize hl : ([⟨1, 0, "1".toList⟩, ⟨2, 1, ".5kg".toList⟩] : List Cap) = l at h1
    generalize hw : "1.5kg".toList = w at h1
    cases h1 with
    | cons _ _ _ _ _ _ u v k m hu hv =>
      obtain ⟨rfl, b, hn, -, hk⟩ := hu
      obtain rfl : Builtin.float = b := name_inj hn
      simp only [Builtin.Captures] at hk
      subst hk
      simp at hl
      rw [← hl.1]; decide
  have hfit : Fits asciiTests.classes ([] ++ .parameter p :: [.parameter q]) 1 0
      ([] ++ .arg "1.5".toList :: [.arg "kg".toList]) "1.5kg".toList [⟨1, 0, "1.5".toList⟩, ⟨2, 3, "kg".toList⟩] := by
    refine .cons _ _ _ _ _ _ "1.5".toList "kg".toList [_] [_] ⟨rfl, .float, rfl, ?_, rfl⟩
      (.cons _ _ _ _ _ _ "kg".toList [] [_] [] ⟨rfl, .word, rfl, ?_, rfl⟩ (.nil _ _))
    · refine ⟨[], "1.5".toList, rfl, .inl rfl, .inr (.inr ⟨"1.5".toList, [], rfl, .inr ⟨['1'], ['5'], rfl, ?_, ?_, .inl (by simp)⟩,
        .inl rfl⟩)⟩
      · intro c hc; rw [List.mem_singleton.1 hc]; rfl
      · intro c hc; rw [List.mem_singleton.1 hc]; rfl
    · refine ⟨by simp, ?_⟩
      intro c hc
      have hc : c ∈ ['k', 'g'] := hc
      simp at hc
      rcases hc with rfl | rfl
      · exact fun h => absurd (show asciiTests.space 'k' = true from h) (by decide)
      · exact fun h => absurd (show asciiTests.space 'g' = true from h) (by decide)
  have := h3 _ _ _ hfit
  have h15 : "1.5".toList.length = 3 := rfl
  omega

/-- Non-vacuity of C46, C47: an accepted expression with built-in parameters, a text which it matches in two ways, and
the match that is returned. -/
example : ∃ e c, Expression.parse "{}{int}".toList = .ok e ∧ Expression.regex "{}{int}".toList = .ok c ∧ AllBuiltin e ∧
    c.re.find asciiTests "x12".toList = some (0, "x12".toList, [⟨1, 0, "x1".toList⟩, ⟨2, 2, "2".toList⟩]) ∧
    Fits asciiTests.classes e 1 0 [.arg "x1".toList, .arg "2".toList] "x12".toList [⟨1, 0, "x1".toList⟩, ⟨2, 2, "2".toList⟩] ∧
    Fits asciiTests.classes e 1 0 [.arg "x".toList, .arg "12".toList] "x12".toList [⟨1, 0, "x".toList⟩, ⟨2, 1, "12".toList⟩] ∧
    Preferred asciiTests.classes e [.arg "x1".toList, .arg "2".toList] [.arg "x".toList, .arg "12".toList] := by
  refine ⟨_, _, rfl, rfl, ?_, by decide, ?_, ?_, ?_⟩
  · intro r hr
    simp at hr
    rcases hr with rfl | rfl
    · exact ⟨.anonymous, rfl⟩
    · exact ⟨.int, rfl⟩
  · refine .cons _ _ _ _ _ _ "x1".toList "2".toList [_] [_] ⟨rfl, .anonymous, rfl, ?_, rfl⟩
      (.cons _ _ _ _ _ _ "2".toList [] [_] [] ⟨rfl, .int, rfl, ?_, rfl⟩ (.nil _ _))
    · show '\n' ∉ ['x', '1']; decide
    · exact ⟨_, ⟨by simp, by show ∀ c ∈ ['2'], asciiTests.digit c = true; decide⟩, .inl rfl⟩
  · refine .cons _ _ _ _ _ _ "x".toList "12".toList [_] [_] ⟨rfl, .anonymous, rfl, ?_, rfl⟩
      (.cons _ _ _ _ _ _ "12".toList [] [_] [] ⟨rfl, .int, rfl, ?_, rfl⟩ (.nil _ _))
    · show '\n' ∉ ['x']; decide
    · exact ⟨_, ⟨by simp, by show ∀ c ∈ ['1', '2'], asciiTests.digit c = true; decide⟩, .inl rfl⟩
  · exact .here _ _ _ _ _ _ ⟨.anonymous, rfl, by show _ < _; decide⟩

end CE
