import Verif.Proof.HirExpr
import Verif.Model.Display

/-!
# The match that is returned by what the regex is translated into: C46, C47

`Prop/Search.lean` is about the syntax tree of the regex. `regex` searches with the HIR which the syntax tree is translated into,
and the translation does not preserve the order of the alternatives. `T` are any tables for `\d`, `\s`, `\w`.
-/

namespace CE
open Spec Regex

theorem parse_good {src : List Char} {e : Expression} (h : Expression.parse src = .ok e) : ∀ x ∈ e, GoodElem x := by
  intro x hx
  have hf := parse_full h x hx
  cases x with
  | alternation a =>
    obtain ⟨h2, hb⟩ := C11_alternations src e h a hx
    refine ⟨h2, fun b hb' => ?_⟩
    obtain ⟨ht, hw, hadj⟩ := hb b hb'
    refine ⟨fun q hq => ?_, ht, ?_⟩
    · have := hw q hq
      cases q <;> exact unescape_ne_nil this.1 this.2
    · rintro l s t r he
      unfold branchHirs at he
      obtain ⟨b1, b2, rfl, -, he⟩ := List.map_eq_append_iff.1 he
      obtain ⟨q1, b3, rfl, hq1, he⟩ := List.map_eq_cons_iff.1 he
      obtain ⟨q2, b4, rfl, hq2, -⟩ := List.map_eq_cons_iff.1 he
      cases q1 <;> simp [Alternative.part, partHir] at hq1
      cases q2 <;> simp [Alternative.part, partHir] at hq2
      exact hadj _ _ _ _ rfl
  | _ => exact hf

/-! ## C46 -/

/-- C46, for the HIR: it finds nothing exactly if the text is not in the language of the expression; otherwise the match covers
the whole text, and its choices are tried before those of every other way in which the expression matches it. -/
theorem C46_compiled (src : List Char) (e : Expression) (h : Expression.parse src = .ok e) (hb : AllBuiltin e) :
    ∃ c, Expression.regex src = .ok c ∧ ∀ (T : Tables), SaneDigits T.classes → ∃ hir, hirOf T c.pattern = some hir ∧
      ∀ w : List Char, (hir.find w = none ↔ ¬ e.Lang T.classes w) ∧
      ∀ i x l, hir.find w = some (i, x, l) → i = 0 ∧ x = w ∧ ∃ cs, Fits T.classes e 1 0 cs w l ∧
        ∀ ds m, Fits T.classes e 1 0 ds w m → ds = cs ∧ m = l ∨
          PreferredBy (SingleExpression.TriedBefore T.classes) e cs ds := by
  refine ⟨_, regex_builtin h hb, fun T hs => ⟨_, hir_builtin T (parse_nonemptyAlts h) (ids_nodup h) ?_, fun w => ?_⟩⟩
  · exact (allBuiltin_iff e).1 hb
  rw [hirFind_expr T e (parse_good h) hb]
  have hall : ∀ ds m, Fits T.classes e 1 0 ds w m → (ds, w, m) ∈ seqTriesH T e 1 [] w := fun ds m hd =>
    (mem_seqTriesH T e hb _ _ _ _ _ _).2 ⟨hd, [], by simp⟩
  constructor
  · rw [Option.map_eq_none_iff, List.find?_eq_none]
    constructor
    · rintro hn ⟨l, hl⟩
      obtain ⟨cs, hcs⟩ := (splits_fits ..).1 hl
      exact hn _ (hall cs l hcs) (by simp)
    · rintro hn ⟨cs, x, l⟩ ha hx
      obtain ⟨h1, post, h2⟩ := (mem_seqTriesH T e hb _ _ _ _ _ _).1 ha
      have : post = [] := by simpa [h2] using hx
      rw [this, List.append_nil] at h2
      exact hn ⟨l, (splits_fits ..).2 ⟨cs, h2 ▸ h1⟩⟩
  · intro i x l hf
    obtain ⟨⟨cs, y, m⟩, hf', heq⟩ := Option.map_eq_some_iff.1 hf
    clear hf
    have hf := hf'
    clear hf'
    simp only [Prod.mk.injEq] at heq
    obtain ⟨rfl, rfl, rfl⟩ := heq
    obtain ⟨h1, post, h2⟩ := (mem_seqTriesH T e hb _ _ _ _ _ _).1 (List.mem_of_find?_eq_some hf)
    have : post = [] := by
      have := List.find?_some hf
      simpa [h2] using this
    rw [this, List.append_nil] at h2
    subst h2
    refine ⟨rfl, rfl, cs, h1, fun ds m' hd => ?_⟩
    rcases sorts_seqH T hs e (parse_good h) hb 1 [] w _ _ hf _ (hall ds m' hd) (by simp) with he | hp
    · simp only [Prod.mk.injEq] at he; exact .inl ⟨he.1, he.2.2⟩
    · exact .inr hp

/-! ## The order in which the ways are tried -/

theorem longest_unique {a : Alternation} {p q : List (Bool × List Char)} (hp : LongestBeginning a p) (hq : LongestBeginning a q) :
    p = q := by
  cases a with
  | nil =>
    have := hp.2 (p ++ [(true, [])]) (fun b hb => by cases hb)
    rw [List.length_append, List.length_singleton] at this
    omega
  | cons b bs => rw [longest_iff.1 hp, longest_iff.1 hq]

theorem branchBefore_asymm {a : Alternation} {i j : Nat} {s t : List Bool} (h : BranchBefore a i s j t) : ¬ BranchBefore a j t i s := by
  rintro ⟨q, k', hq, rfl, h'⟩
  obtain ⟨p, k, hp, rfl, h⟩ := h
  obtain rfl := longest_unique hp hq
  rcases h with h | ⟨h, h2⟩ <;> rcases h' with h' | ⟨h', h2'⟩
  · exact takenBefore_asymm h h'
  · exact takenBefore_asymm h (h' ▸ h)
  · exact takenBefore_asymm h' (h ▸ h')
  · rcases h2 with h2 | ⟨h2, h3⟩ <;> rcases h2' with h2' | ⟨h2', h3'⟩ <;> first | omega | exact takenBefore_asymm h3 h3'

theorem triedBefore_eq {U : Classes} {e : SingleExpression} {c d : Choice} (h : ∀ a, e ≠ .alternation a) :
    e.TriedBefore U c d = e.Before U c d := by
  cases e with
  | alternation a => exact absurd rfl (h a)
  | _ => cases c <;> cases d <;> rfl

theorem triedBefore_asymm {U : Classes} (hs : SaneDigits U) {e : SingleExpression} {c d : Choice} (h : e.TriedBefore U c d) :
    ¬ e.TriedBefore U d c := by
  cases e with
  | alternation a =>
    cases c <;> cases d <;> first | exact h.elim | exact branchBefore_asymm h
  | _ =>
    rw [triedBefore_eq (by simp)] at h ⊢
    exact before_asymm hs h

theorem preferredBy_asymm {B : SingleExpression → Choice → Choice → Prop} (hB : ∀ e c d, B e c d → ¬ B e d c) {e : Expression}
    {cs ds : List Choice} (h : PreferredBy B e cs ds) : ¬ PreferredBy B e ds cs := by
  induction h with
  | here e es c d cs ds h =>
    intro h'
    cases h' with
    | here _ _ _ _ _ _ h' => exact hB _ _ _ h h'
    | there => exact hB _ _ _ h h
  | there e es c cs ds _ ih =>
    intro h'
    cases h' with
    | here _ _ _ _ _ _ h' => exact hB _ _ _ h' h'
    | there _ _ _ _ _ h' => exact ih h'

/-- C46, for the HIR: two different ways of matching are never tried before each other. -/
theorem C46_compiled_order (U : Classes) (hs : SaneDigits U) (e : Expression) (cs ds : List Choice)
    (h : PreferredBy (SingleExpression.TriedBefore U) e cs ds) :
    ¬ PreferredBy (SingleExpression.TriedBefore U) e ds cs ∧ cs ≠ ds := by
  have asymm := fun {e cs ds} => preferredBy_asymm (B := SingleExpression.TriedBefore U)
    (fun _ _ _ => triedBefore_asymm hs) (e := e) (cs := cs) (ds := ds)
  exact ⟨asymm h, fun he => asymm (he ▸ h) (he ▸ h)⟩

/-- Of no alternation, what all branches begin with has an optional. -/
def PlainBeginnings (e : Expression) : Prop :=
  ∀ a, .alternation a ∈ e → ∀ p, CommonBeginning a p → ∀ q ∈ p, q.1 = false

/-- C46: unless all branches of an alternation begin with a common optional, the order in which the ways are tried is the order
of preference of the syntax tree. -/
theorem C46_same_order (U : Classes) (src : List Char) (e : Expression) (h : Expression.parse src = .ok e) (hp : PlainBeginnings e)
    (cs ds : List Choice) :
    PreferredBy (SingleExpression.TriedBefore U) e cs ds ↔ Preferred U e cs ds := by
  have key : ∀ x ∈ e, ∀ c d, x.TriedBefore U c d ↔ x.Before U c d := by
    intro x hx c d
    cases x with
    | alternation a =>
      cases c <;> cases d <;> try exact Iff.rfl
      rename_i i s j t
      obtain ⟨h2, -⟩ := C11_alternations src e h a hx
      show BranchBefore a i s j t ↔ (i < j ∨ i = j ∧ TakenBefore s t)
      constructor
      · rintro ⟨p, k, hl, rfl, h⟩
        rw [List.filter_eq_nil_iff.2 (fun q hq => by simp [hp a hx p hl.1 q hq])] at h
        rcases h with h | h
        · simp at h; cases h
        · exact h.2
      · intro h
        cases a with
        | nil => simp at h2
        | cons b bs =>
          have hl : LongestBeginning (b :: bs) _ := longest_iff.2 rfl
          refine ⟨_, _, hl, rfl, ?_⟩
          rw [List.filter_eq_nil_iff.2 (fun q hq => by simp [hp _ hx _ hl.1 q hq])]
          exact .inr ⟨by simp, h⟩
    | _ => cases c <;> cases d <;> exact Iff.rfl
  clear h hp
  constructor
  · intro h
    induction h with
    | here _ _ _ _ _ _ h => exact .here _ _ _ _ _ _ ((key _ (by simp) _ _).1 h)
    | there _ _ _ _ _ _ ih => exact .there _ _ _ _ _ (ih fun x hx => key x (by simp [hx]))
  · intro h
    induction h with
    | here _ _ _ _ _ _ h => exact .here _ _ _ _ _ _ ((key _ (by simp) _ _).2 h)
    | there _ _ _ _ _ _ ih => exact .there _ _ _ _ _ (ih fun x hx => key x (by simp [hx]))

/-- Unless all branches of an alternation begin with a common optional, what the HIR finds is what the syntax tree finds. -/
theorem C46_same (src : List Char) (e : Expression) (h : Expression.parse src = .ok e) (hb : AllBuiltin e) (hp : PlainBeginnings e) :
    ∃ c, Expression.regex src = .ok c ∧ ∀ (T : Tables), SaneDigits T.classes → ∃ hir, hirOf T c.pattern = some hir ∧
      ∀ w : List Char, hir.find w = c.re.find T.tests w := by
  obtain ⟨c, hc, h1⟩ := C46_compiled src e h hb
  obtain ⟨c', hc', h2⟩ := C46_returned src e h hb
  rw [hc] at hc'
  cases hc'
  refine ⟨c, hc, fun T hs => ?_⟩
  obtain ⟨hir, hh, h1⟩ := h1 T hs
  refine ⟨hir, hh, fun w => ?_⟩
  have h2 := h2 T.tests hs w
  have h1 := h1 w
  cases hf : hir.find w with
  | none => exact (h2.1.2 (h1.1.1 hf)).symm
  | some r =>
    obtain ⟨i, x, l⟩ := r
    cases hg : c.re.find T.tests w with
    | none => exact absurd (h1.1.2 (h2.1.1 hg)) (by simp [hf])
    | some r' =>
      obtain ⟨i', x', l'⟩ := r'
      obtain ⟨rfl, rfl, cs, hcs, hall⟩ := h1.2 _ _ _ hf
      obtain ⟨rfl, rfl, ds, hds, hall'⟩ := h2.2 _ _ _ hg
      rcases hall _ _ hds with ⟨-, rfl⟩ | hlt
      · rfl
      · rcases hall' _ _ hcs with ⟨-, rfl⟩ | hlt'
        · rfl
        · rw [C46_same_order T.classes src e h hp] at hlt
          exact absurd hlt' (C46_order T.classes hs e _ _ hlt).1

/-! ## Examples -/

/-- Categories of ASCII letters and digits. -/
def asciiCategories (n : List Char) : List (Char × Char) :=
  if n = ['L', 'u'] then [('A', 'Z')] else if n = ['L', 'l'] then [('a', 'z')] else if n = ['L'] then [('A', 'Z'), ('a', 'z')]
  else if n = ['N'] ∨ n = ['N', 'd'] then [('0', '9')] else []

/-- Tables for ASCII. -/
def asciiTables : Tables where
  digit := [('0', '9')]
  space := [('\t', '\r'), (' ', ' ')]
  word := [('0', '9'), ('A', 'Z'), ('_', '_'), ('a', 'z')]
  category := asciiCategories
  folds := (List.range 26).flatMap fun i => [(Char.ofNat (65 + i), Char.ofNat (97 + i)), (Char.ofNat (97 + i), Char.ofNat (65 + i))]
  digit_valid := by decide
  space_valid := by decide
  word_valid := by decide
  category_valid := by
    intro n
    unfold asciiCategories
    repeat' split
    all_goals decide

/-- Non-vacuity of C46, C47. -/
theorem sane_tables : SaneDigits asciiTables.classes := by
  intro c hc h
  simp only [List.mem_cons, List.not_mem_nil, or_false] at hc
  have h : Ranges.mem [('0', '9')] c = true := h
  rcases hc with rfl | rfl | rfl | rfl | rfl | rfl | rfl <;> revert h <;> decide

/-- C46: the translation changes which match is returned. Of `(a)ab/(a)bc{}` the syntax tree prefers, on `abcd`, the first
branch without its optional, and the parameter takes `cd`; what the HIR tries first is the common optional, which only the
second branch allows here, and the parameter takes `d`. -/
theorem C46_tree_differs : ∃ e c hir, Expression.parse (chars! "(a)ab/(a)bc{}") = .ok e ∧ AllBuiltin e ∧
    Expression.regex (chars! "(a)ab/(a)bc{}") = .ok c ∧ hirOf asciiTables c.pattern = some hir ∧
    c.re.find asciiTables.tests (chars! "abcd") = some (0, chars! "abcd", [⟨1, 2, chars! "cd"⟩]) ∧
    hir.find (chars! "abcd") = some (0, chars! "abcd", [⟨1, 3, chars! "d"⟩]) := by
  refine ⟨_, _, _, rfl, ?_, rfl, rfl, ?_, ?_⟩
  · intro r hr
    simp at hr
    subst hr
    exact ⟨.anonymous, rfl⟩
  · decide +kernel
  · decide +kernel

/-! ## C47 -/

/-- In the match returned by the HIR, a parameter of this name takes the longest text with which, given what the elements before
it match, the rest can match. -/
def CompiledTakesLongest (name : List Char) : Prop :=
  ∀ (src : List Char) (es : Expression) (p : Parameter) (fs : Expression),
    Expression.parse src = .ok (es ++ .parameter p :: fs) → AllBuiltin (es ++ .parameter p :: fs) → p.input.frag = name →
    ∀ c, Expression.regex src = .ok c → ∀ (T : Tables), SaneDigits T.classes → ∀ hir, hirOf T c.pattern = some hir →
      ∀ (w : List Char) i x l, hir.find w = some (i, x, l) →
        ∃ cs y ds, Fits T.classes (es ++ .parameter p :: fs) 1 0 (cs ++ .arg y :: ds) w l ∧ cs.length = es.length ∧
          ∀ z ds' m, Fits T.classes (es ++ .parameter p :: fs) 1 0 (cs ++ .arg z :: ds') w m → z.length ≤ y.length

theorem preferredBy_at {B : SingleExpression → Choice → Choice → Prop} (hB : ∀ e c d, B e c d → ¬ B e d c) {es fs : Expression}
    {x : SingleExpression} {cs ds ds' : List Choice} {a b : Choice} (hl : cs.length = es.length)
    (h : PreferredBy B (es ++ x :: fs) (cs ++ a :: ds) (cs ++ b :: ds')) : B x a b ∨ a = b := by
  induction es generalizing cs with
  | nil =>
    obtain rfl := List.eq_nil_of_length_eq_zero hl
    cases h with
    | here _ _ _ _ _ _ h => exact .inl h
    | there => exact .inr rfl
  | cons e es ih =>
    cases cs with
    | nil => simp at hl
    | cons c cs =>
      cases h with
      | here _ _ _ _ _ _ h => exact absurd h (hB _ _ _ h)
      | there _ _ _ _ _ h => exact ih (by simpa using hl) h

/-- C47 (partial; for `float` it is false, see `C47_compiled_false`), for the HIR: parameters take the longest text possible. -/
theorem C47_compiled_partial (b : Builtin) (hne : b ≠ .float) : CompiledTakesLongest b.name := by
  intro src es p fs h hb hn c hc T hs hir hh w i x l hf
  obtain ⟨c', h1, h2⟩ := C46_compiled src _ h hb
  rw [hc] at h1
  cases h1
  obtain ⟨hir', hh', h2⟩ := h2 T hs
  rw [hh] at hh'
  cases hh'
  obtain ⟨-, -, as, has, hall⟩ := (h2 w).2 i x l hf
  obtain ⟨cs, y, ds, rfl, hl⟩ := fits_choices has
  refine ⟨cs, y, ds, has, hl, fun z ds' m hd => ?_⟩
  rcases hall _ _ hd with ⟨he, -⟩ | hp
  · have := List.append_cancel_left he
    simp at this
    rw [this.1]; exact Nat.le_refl _
  · rcases preferredBy_at (B := SingleExpression.TriedBefore T.classes) (fun _ _ _ => triedBefore_asymm hs) hl hp with ⟨b', hn', hbf⟩ | he
    · obtain rfl := name_inj (hn.symm.trans hn')
      cases b
      case float => exact absurd rfl hne
      all_goals exact Nat.le_of_lt hbf
    · cases he; exact Nat.le_refl _

/-- C47, for the HIR: for `float` this does not hold: `{float}{word}` takes from `1.5kg` the arguments `1` and `.5kg`. -/
theorem C47_compiled_false : ¬ CompiledTakesLongest Builtin.float.name := by
  intro hall
  let p : Parameter := ⟨⟨1, 1, chars! "float"⟩, 0⟩
  let q : Parameter := ⟨⟨8, 1, chars! "word"⟩, 1⟩
  have hp : Expression.parse (chars! "{float}{word}") = .ok ([] ++ .parameter p :: [.parameter q]) := rfl
  have hb : AllBuiltin ([] ++ .parameter p :: [.parameter q]) := by
    intro r hr
    simp at hr
    rcases hr with rfl | rfl
    · exact ⟨.float, rfl⟩
    · exact ⟨.word, rfl⟩
  obtain ⟨c, hir, hc, hh, hf⟩ : ∃ c hir, Expression.regex (chars! "{float}{word}") = .ok c ∧ hirOf asciiTables c.pattern = some hir ∧
      hir.find (chars! "1.5kg") = some (0, chars! "1.5kg", [⟨1, 0, chars! "1"⟩, ⟨2, 1, chars! ".5kg"⟩]) :=
    ⟨_, _, rfl, rfl, by decide +kernel⟩
  obtain ⟨cs, y, ds, h1, h2, h3⟩ := hall _ [] p [.parameter q] hp hb rfl c hc asciiTables sane_tables _ hh _ _ _ _ hf
  obtain rfl := List.eq_nil_of_length_eq_zero h2
  have hy : y.length ≤ 1 := by
    generalize hl : ([⟨1, 0, chars! "1"⟩, ⟨2, 1, chars! ".5kg"⟩] : List Cap) = l at h1
    generalize hw : chars! "1.5kg" = w at h1
    cases h1 with
    | cons _ _ _ _ _ _ u v k m hu hv =>
      obtain ⟨rfl, b, hn, -, hk⟩ := hu
      obtain rfl : Builtin.float = b := name_inj hn
      simp only [Builtin.Captures] at hk
      subst hk
      simp at hl
      rw [← hl.1]; decide
  have hd : ∀ c : Char, '0' ≤ c ∧ c ≤ '9' → asciiTables.classes.digit c := by
    intro c hc
    show Ranges.mem [('0', '9')] c = true
    simp [Ranges.mem, hc]
  have hfit : Fits asciiTables.classes ([] ++ .parameter p :: [.parameter q]) 1 0
      ([] ++ .arg (chars! "1.5") :: [.arg (chars! "kg")]) (chars! "1.5kg") [⟨1, 0, chars! "1.5"⟩, ⟨2, 3, chars! "kg"⟩] := by
    refine .cons _ _ _ _ _ _ (chars! "1.5") (chars! "kg") [_] [_] ⟨rfl, .float, rfl, ?_, rfl⟩
      (.cons _ _ _ _ _ _ (chars! "kg") [] [_] [] ⟨rfl, .word, rfl, ?_, rfl⟩ (.nil _ _))
    · refine ⟨[], chars! "1.5", rfl, .inl rfl, .inr (.inr ⟨chars! "1.5", [], rfl, .inr ⟨['1'], ['5'], rfl, ?_, ?_, .inl (by simp)⟩,
        .inl rfl⟩)⟩
      · intro c hc; rw [List.mem_singleton.1 hc]; exact hd _ (by decide)
      · intro c hc; rw [List.mem_singleton.1 hc]; exact hd _ (by decide)
    · refine ⟨by simp, ?_⟩
      intro c hc
      have hc : c ∈ ['k', 'g'] := hc
      simp at hc
      rcases hc with rfl | rfl
      · exact fun h => absurd (show Ranges.mem asciiTables.space 'k' = true from h) (by decide)
      · exact fun h => absurd (show Ranges.mem asciiTables.space 'g' = true from h) (by decide)
  have := h3 _ _ _ hfit
  have h15 : (chars! "1.5").length = 3 := rfl
  omega

/-- Non-vacuity of C46 for the HIR: an accepted expression with built-in parameters, a text which it matches in two ways, and
the match that is returned. -/
example : ∃ a p c hir, Expression.parse (chars! "(a)ab/(a)bc{}") = .ok [.alternation a, .parameter p] ∧
    Expression.regex (chars! "(a)ab/(a)bc{}") = .ok c ∧ hirOf asciiTables c.pattern = some hir ∧
    hir.find (chars! "abcd") = some (0, chars! "abcd", [⟨1, 3, chars! "d"⟩]) ∧
    Fits asciiTables.classes [.alternation a, .parameter p] 1 0 [.branch 1 [true], .arg (chars! "d")] (chars! "abcd") [⟨1, 3, chars! "d"⟩] ∧
    Fits asciiTables.classes [.alternation a, .parameter p] 1 0 [.branch 0 [false], .arg (chars! "cd")] (chars! "abcd")
      [⟨1, 2, chars! "cd"⟩] ∧
    PreferredBy (SingleExpression.TriedBefore asciiTables.classes) [.alternation a, .parameter p] [.branch 1 [true], .arg (chars! "d")]
      [.branch 0 [false], .arg (chars! "cd")] := by
  refine ⟨_, _, _, _, rfl, rfl, rfl, by decide +kernel, ?_, ?_, ?_⟩
  · refine .cons _ _ _ _ _ _ (chars! "abc") (chars! "d") [] [_] ⟨⟨_, rfl, chars! "bc", rfl, [], rfl, rfl⟩, rfl⟩
      (.cons _ _ _ _ _ _ (chars! "d") [] [_] [] ⟨rfl, .anonymous, rfl, ?_, rfl⟩ (.nil _ _))
    show '\n' ∉ ['d']; decide
  · refine .cons _ _ _ _ _ _ (chars! "ab") (chars! "cd") [] [_] ⟨⟨_, rfl, chars! "ab", rfl, [], rfl, rfl⟩, rfl⟩
      (.cons _ _ _ _ _ _ (chars! "cd") [] [_] [] ⟨rfl, .anonymous, rfl, ?_, rfl⟩ (.nil _ _))
    show '\n' ∉ ['c', 'd']; decide
  · exact .here _ _ _ _ _ _ ⟨_, _, longest_iff.2 rfl, rfl, .inl (.here _ _)⟩

/-- Non-vacuity of `C46_same`: an alternation whose branches have optionals, but not in a common beginning. -/
example : ∃ e, Expression.parse (chars! "a(b)/ac(d){int}") = .ok e ∧ AllBuiltin e ∧ PlainBeginnings e := by
  refine ⟨_, rfl, ?_, ?_⟩
  · intro r hr
    simp at hr
    subst hr
    exact ⟨.int, rfl⟩
  · intro a ha p hp q hq
    simp at ha
    subst ha
    have h1 := hp _ (List.mem_cons_self ..)
    have h2 := hp _ (List.mem_cons_of_mem _ (List.mem_cons_self ..))
    match p, h1, h2, hq with
    | x :: p, h1, h2, hq =>
      have e1 := (List.cons_prefix_cons.1 h1).1
      have e2 := (List.cons_prefix_cons.1 h2).1
      exact absurd (e1.symm.trans e2) (by decide)

end CE
