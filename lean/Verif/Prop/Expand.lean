import Verif.Proof.ExpandBuiltin
import Verif.Spec.Pattern

/-!
# Expansion without custom parameters: C22–C29, C33, C39, C42

`U` is any interpretation of the classes `\d`, `\s`, `\w`; "match" is any match in the sense of `Re.Finds`, in
particular the one the `regex` crate returns.
-/

namespace CE
open Spec Regex

/-! ## The compiled regex -/

def bPat (p : Parameter) : List Char := match builtinNamed p.input.frag with
  | some b => builtinPat b p.id
  | none => []
def bToks (p : Parameter) : List Tok := match builtinNamed p.input.frag with
  | some b => builtinToks b p.id
  | none => []
def bRe (p : Parameter) : Re := match builtinNamed p.input.frag with
  | some b => builtinRe b p.id
  | none => .empty

/-- The parameter is built in. -/
def IsBuiltin (p : Parameter) : Prop := ∃ b : Builtin, p.input.frag = b.name

theorem allBuiltin_iff (e : Expression) : AllBuiltin e ↔ ∀ p ∈ params e, IsBuiltin p :=
  forall_congr' fun _ => by rw [mem_params]; rfl

theorem bRe_named {p : Parameter} {b : Builtin} (h : p.input.frag = b.name) : bRe p = builtinRe b p.id := by
  simp [bRe, builtinNamed_some.2 h]

theorem bRe_nodup {e : Expression} (hid : ((params e).map Parameter.id).Nodup) (hb : ∀ p ∈ params e, IsBuiltin p) :
    (exprRe bRe e).names.Nodup := by
  unfold Re.names
  rw [groups_expr]
  refine names_nodup hid ?_ ?_
  · intro p hp
    obtain ⟨b, h⟩ := hb p hp
    rw [bRe_named h]; exact (names_builtin b p.id).1
  · intro p hp
    obtain ⟨b, h⟩ := hb p hp
    rw [bRe_named h]; exact (names_builtin b p.id).2

theorem parse_builtin {e : Expression} (hne : NonemptyAlts e) (hid : ((params e).map Parameter.id).Nodup)
    (hb : ∀ p ∈ params e, IsBuiltin p) : Regex.parse (['^'] ++ exprPat bPat e ++ ['$']) = .ok (exprRe bRe e) := by
  rw [parse_pattern (tp := bToks) (rp := bRe) hne, if_pos (bRe_nodup hid hb)]
  intro p hp
  obtain ⟨b, h⟩ := hb p hp
  simp only [bPat, bToks, bRe, builtinNamed_some.2 h]
  exact ⟨lexes_builtin b p.id, reads_builtin b p.id⟩

theorem regex_eq {src : List Char} {e : Expression} (h : Expression.parse src = .ok e) :
    Expression.regex src = compileRes (seqPat builtinRes e) := by
  rw [← compile_chars chars_res e]
  simp only [Expression.regex, h, Expression.chars]
  rw [show SingleExpression.chars = charsWith Parameter.chars from funext chars_eq_charsWith]

theorem regex_builtin {src : List Char} {e : Expression} (h : Expression.parse src = .ok e) (hb : AllBuiltin e) :
    Expression.regex src = .ok ⟨['^'] ++ exprPat bPat e ++ ['$'], exprRe bRe e⟩ := by
  rw [allBuiltin_iff] at hb
  rw [regex_eq h, seqPat_ok (pp := bPat) (fun p hp => by
    obtain ⟨b, hb⟩ := hb p hp
    simp [builtinRes, bPat, builtinNamed_some.2 hb])]
  simp only [compileRes, parse_builtin (parse_nonemptyAlts h) (ids_nodup h) hb]

theorem splits_iff (U : Classes) (e : Expression) (hb : AllBuiltin e) (g p : Nat) (pre w post : List Char) (l : List Cap)
    (hpre : pre.length = p) :
    SplitsWith (fun p g pre x _ l => ∃ b : Builtin, p.input.frag = b.name ∧ b.Lang U x ∧ b.Captures g pre.length x l)
      (fun p => if p.input.frag = Builtin.string.name then 2 else 1) e g pre w post l ↔ Splits U e g p w l := by
  constructor
  · intro h
    induction h generalizing p with
    | nil => exact .nil ..
    | cons e es g pre x y post k l h1 h2 ih =>
      refine .cons _ _ _ _ _ _ _ _ ?_ ?_
      · cases e <;> first | exact h1 | (subst hpre; exact h1)
      · have := ih (fun q hq => hb q (by simp [hq])) (p + x.length) (by simp [hpre])
        cases e <;> exact this
  · intro h
    induction h generalizing pre with
    | nil => exact .nil ..
    | cons e es g p x y k l h1 h2 ih =>
      refine .cons _ _ _ _ _ _ _ _ _ ?_ ?_
      · cases e <;> first | exact h1 | (subst hpre; exact h1)
      · have := ih (fun q hq => hb q (by simp [hq])) (pre ++ x) (by simp [hpre])
        cases e <;> exact this

theorem finds_builtin (U : Classes) {e : Expression} (hne : NonemptyAlts e) (hws : PlainWs e) (hb : AllBuiltin e)
    (w pre x post : List Char) (l : List Cap) :
    (exprRe bRe e).Finds U w pre x post l ↔ pre = [] ∧ post = [] ∧ x = w ∧ Splits U e 1 0 w l := by
  rw [finds_expr (U := U) (R := fun p g pre x _ l => ∃ b : Builtin, p.input.frag = b.name ∧ b.Lang U x ∧
    b.Captures g pre.length x l) (n := fun p => if p.input.frag = Builtin.string.name then 2 else 1) e hne hws,
    splits_iff U e hb 1 0 [] w [] l rfl]
  intro p hp
  obtain ⟨b, h⟩ := (allBuiltin_iff e).1 hb p hp
  rw [bRe_named h]
  refine ⟨?_, fun g pre x post l => ?_⟩
  · rw [groups_builtin, h]
    by_cases hs : b = .string
    · simp [hs]
    · rw [if_neg hs, if_neg (fun hn => hs (name_inj hn))]; rfl
  · rw [match_builtin]
    constructor
    · intro hm; exact ⟨b, h, hm⟩
    · rintro ⟨b', h', hm⟩
      rw [h] at h'
      exact name_inj h' ▸ hm

/-! ## C27, C23, C29 -/

/-- C27 (with C29, C23): the matches are exactly the ways of splitting the whole subject into pieces, one per element,
each piece belonging to its element, and the captures are the arguments. -/
theorem C27_captures (src : List Char) (e : Expression) (h : Expression.parse src = .ok e) (hb : AllBuiltin e) :
    ∃ c, Expression.regex src = .ok c ∧ ∀ (U : Classes) (w pre x post : List Char) (l : List Cap),
      c.re.Finds U w pre x post l ↔ pre = [] ∧ post = [] ∧ x = w ∧ Splits U e 1 0 w l :=
  ⟨_, regex_builtin h hb, fun U => finds_builtin U (parse_nonemptyAlts h) (parse_plainWs h) hb⟩

/-- C23: the regex matches exactly the language of the expression. -/
theorem C23_language (src : List Char) (e : Expression) (h : Expression.parse src = .ok e) (hb : AllBuiltin e) :
    ∃ c, Expression.regex src = .ok c ∧ ∀ (U : Classes) (w : List Char), c.re.IsMatch U w ↔ e.Lang U w := by
  obtain ⟨c, h1, h2⟩ := C27_captures src e h hb
  refine ⟨c, h1, fun U w => ?_⟩
  simp only [Re.IsMatch, h2, Expression.Lang]
  constructor
  · rintro ⟨_, _, _, l, _, _, _, hl⟩; exact ⟨l, hl⟩
  · rintro ⟨l, hl⟩; exact ⟨[], w, [], l, rfl, rfl, rfl, hl⟩

/-- Every capture of every match stands where it says. -/
def CapturesIn (w : List Char) (l : List Cap) : Prop :=
  ∀ c ∈ l, ∃ a b, w = a ++ c.text ++ b ∧ a.length = c.start

theorem splits_captures {U : Classes} {e : Expression} {g p : Nat} {w : List Char} {l : List Cap}
    (h : Splits U e g p w l) : ∀ c ∈ l, p ≤ c.start ∧ ∃ a b, w = a ++ c.text ++ b ∧ p + a.length = c.start := by
  induction h with
  | nil => simp
  | cons e es g p x y k l h1 h2 ih =>
    intro c hc
    rcases List.mem_append.1 hc with hc | hc
    · suffices hs : ∃ a b, x = a ++ c.text ++ b ∧ p + a.length = c.start by
        obtain ⟨a, b, rfl, h4⟩ := hs
        exact ⟨by omega, a, b ++ y, by simp, h4⟩
      cases e with
      | parameter q =>
        obtain ⟨b, -, -, hk⟩ := h1
        cases b with
        | string =>
          rcases hk with ⟨i, ⟨rfl, rfl⟩ | ⟨rfl, rfl⟩⟩
          · rw [List.mem_singleton.1 hc]; exact ⟨['"'], ['"'], by simp, rfl⟩
          · rw [List.mem_singleton.1 hc]; exact ⟨['\''], ['\''], by simp, rfl⟩
        | _ =>
          simp only [Builtin.Captures] at hk
          subst hk
          rw [List.mem_singleton.1 hc]; exact ⟨[], [], by simp, rfl⟩
      | _ =>
        have := h1.2
        subst this
        cases hc
    · obtain ⟨h3, a, b, rfl, h4⟩ := ih c hc
      refine ⟨by omega, x ++ a, b, by simp, ?_⟩
      simp only [List.length_append]; omega

/-- C27: the captured text is the part of the subject at the captured position. -/
theorem C27_located (src : List Char) (e : Expression) (h : Expression.parse src = .ok e) (hb : AllBuiltin e) (c : Compiled)
    (hc : Expression.regex src = .ok c) (U : Classes) (w pre x post : List Char) (l : List Cap)
    (hm : c.re.Finds U w pre x post l) : CapturesIn w l := by
  obtain ⟨c', h1, h2⟩ := C27_captures src e h hb
  rw [hc] at h1
  cases h1
  obtain ⟨-, -, -, hs⟩ := (h2 ..).1 hm
  intro d hd
  obtain ⟨-, a, b, h3, h4⟩ := splits_captures hs d hd
  exact ⟨a, b, h3, by omega⟩

/-- Non-vacuity of C23–C29: an accepted expression with built-in parameters, and a match. -/
example : ∃ e, Expression.parse "have {int} cucumber(s)".toList = .ok e ∧ AllBuiltin e ∧
    ∀ U : Classes, U.digit '4' → U.digit '2' → Splits U e 1 0 "have 42 cucumber".toList [⟨1, 5, "42".toList⟩] := by
  refine ⟨_, rfl, ?_, ?_⟩
  · intro p hp
    simp only [List.mem_cons, List.not_mem_nil, or_false, reduceCtorEq, false_or, SingleExpression.parameter.injEq] at hp
    exact ⟨.int, by subst hp; rfl⟩
  · intro U h4 h2
    refine .cons _ _ _ _ "have".toList _ [] _ ⟨rfl, rfl⟩ ?_
    refine .cons _ _ _ _ " ".toList _ [] _ ⟨rfl, rfl⟩ ?_
    refine .cons _ _ _ _ "42".toList _ [_] _ ⟨.int, rfl, ⟨"42".toList, ⟨by decide, ?_⟩, .inl rfl⟩, rfl⟩ ?_
    · intro c hc
      simp at hc
      rcases hc with rfl | rfl <;> assumption
    refine .cons _ _ _ _ " ".toList _ [] _ ⟨rfl, rfl⟩ ?_
    refine .cons _ _ _ _ "cucumber".toList _ [] _ ⟨rfl, rfl⟩ ?_
    exact .cons _ _ _ _ [] _ [] _ ⟨.inl rfl, rfl⟩ (.nil ..)

/-! ## C24, C28 -/

/-- C24: expanding an accepted expression with built-in parameters succeeds: the pattern is a valid regex. -/
theorem C24_valid (src : List Char) (e : Expression) (h : Expression.parse src = .ok e) (hb : AllBuiltin e) :
    ∃ c, Expression.regex src = .ok c ∧ Regex.parse c.pattern = .ok c.re :=
  ⟨_, regex_builtin h hb, parse_builtin (parse_nonemptyAlts h) (ids_nodup h) ((allBuiltin_iff e).1 hb)⟩

/-- C24: whatever the input, the regex is never rejected as invalid. -/
theorem C24_never_invalid (src : List Char) (x : RErr) : Expression.regex src ≠ .err (.regex x) := by
  intro hx
  cases hp : Expression.parse src with
  | ok e =>
    by_cases hb : AllBuiltin e
    · rw [regex_builtin hp hb] at hx; cases hx
    · cases hs : seqPat builtinRes e with
      | error y => rw [regex_eq hp, hs] at hx; cases hx
      | ok cs =>
        refine hb ((allBuiltin_iff e).2 fun p hp => ?_)
        by_cases hbp : IsBuiltin p
        · exact hbp
        · exfalso
          have herr : builtinRes p = .error (.notFound p.input) := by
            simp [builtinRes, builtinNamed_none.2 fun b hn => hbp ⟨b, hn⟩]
          have key : ∀ ps : List Parameter, (∃ q ∈ ps, ∃ y, builtinRes q = .error y) → ∃ ps1 q ps2 y, ps = ps1 ++ q :: ps2 ∧
              (∀ r ∈ ps1, ∃ cs, builtinRes r = .ok cs) ∧ builtinRes q = .error y := by
            intro ps
            induction ps with
            | nil => simp
            | cons a ps ih =>
              rintro ⟨q, hq, y, hy⟩
              cases ha : builtinRes a with
              | error z => exact ⟨[], a, ps, z, rfl, by simp, ha⟩
              | ok cs =>
                rcases List.mem_cons.1 hq with rfl | hq
                · rw [ha] at hy; cases hy
                · obtain ⟨ps1, r, ps2, y', rfl, h1, h2⟩ := ih ⟨q, hq, y, hy⟩
                  exact ⟨a :: ps1, r, ps2, y', rfl, by simpa using ⟨⟨cs, ha⟩, h1⟩, h2⟩
          obtain ⟨ps1, q, ps2, y, h1, h2, h3⟩ := key (params e) ⟨p, hp, _, herr⟩
          rw [seqPat_error.2 ⟨ps1, q, ps2, h1, h2, h3⟩] at hs
          cases hs
  | err e => simp [Expression.regex, hp] at hx
  | panic => simp [Expression.regex, hp] at hx
  | diverge => simp [Expression.regex, hp] at hx

/-! ## C26 -/

theorem groups_flatten (e : Expression) (hb : ∀ p ∈ params e, IsBuiltin p) :
    ((params e).map fun p => (bRe p).groups).flatten = (e.map SingleExpression.groups).flatten := by
  induction e with
  | nil => rfl
  | cons x es ih =>
    have ih := ih (fun p hp => hb p (mem_params.2 (List.mem_cons_of_mem _ (mem_params.1 hp))))
    cases x with
    | parameter p =>
      obtain ⟨b, h⟩ := hb p (by simp [params])
      rw [params_cons_parameter, List.map_cons, List.flatten_cons, ih, List.map_cons, List.flatten_cons, bRe_named h,
        groups_builtin]
      congr 1
      simp only [SingleExpression.groups, h]
      by_cases hs : b = .string
      · simp [hs]
      · rw [if_neg hs, if_neg (fun hn => hs (name_inj hn))]
    | _ => rw [params_cons_other (by intro p hp; cases hp)]; simpa [SingleExpression.groups] using ih

/-- C26: the groups of the regex are, in order, those of the elements. -/
theorem C26_groups (src : List Char) (e : Expression) (h : Expression.parse src = .ok e) (hb : AllBuiltin e) (c : Compiled)
    (hc : Expression.regex src = .ok c) : c.re.groups = (e.map SingleExpression.groups).flatten := by
  rw [regex_builtin h hb] at hc
  cases hc
  rw [groups_expr, groups_flatten e ((allBuiltin_iff e).1 hb)]

/-- C28: the named groups of the regex have pairwise distinct names, each made of the id of a `string` parameter of the
expression and 0 or 1. -/
theorem C28_names_unique (src : List Char) (e : Expression) (h : Expression.parse src = .ok e) (hb : AllBuiltin e) (c : Compiled)
    (hc : Expression.regex src = .ok c) : (c.re.groups.filterMap id).Nodup ∧
    ∀ n ∈ c.re.groups.filterMap id, ∃ p, .parameter p ∈ e ∧ p.input.frag = Builtin.string.name ∧
      (n = groupName p.id 0 ∨ n = groupName p.id 1) := by
  have hg := C26_groups src e h hb c hc
  have := bRe_nodup (ids_nodup h) ((allBuiltin_iff e).1 hb)
  rw [Re.names, groups_expr, groups_flatten e ((allBuiltin_iff e).1 hb)] at this
  rw [hg]
  refine ⟨this, fun n hn => ?_⟩
  obtain ⟨o, ho, hn⟩ := List.mem_filterMap.1 hn
  obtain ⟨l, hl, ho⟩ := List.mem_flatten.1 ho
  obtain ⟨x, hx, rfl⟩ := List.mem_map.1 hl
  cases x with
  | parameter p =>
    simp only [SingleExpression.groups] at ho
    split at ho
    · rename_i hs
      refine ⟨p, hx, hs, ?_⟩
      rcases List.mem_cons.1 ho with rfl | ho
      · exact .inl (Option.some.inj hn).symm
      · rw [List.mem_singleton] at ho; subst ho; exact .inr (Option.some.inj hn).symm
    · rw [List.mem_singleton] at ho; subst ho; cases hn
  | _ => simp [SingleExpression.groups] at ho

/-- C28: names determine parameter and group. -/
theorem C28_names_injective (i j k m : Nat) (h : groupName i k = groupName j m) : i = j ∧ k = m := groupName_inj h

/-! ## C25 -/

/-- C25: `Expression::regex` reports an unknown parameter iff there is one, and then the leftmost. -/
theorem C25_first_unknown (src : List Char) (x : ParameterError) :
    Expression.regex src = .err (.expansion x) ↔ ∃ e ps p qs, Expression.parse src = .ok e ∧ params e = ps ++ p :: qs ∧
      (∀ q ∈ ps, IsBuiltin q) ∧ ¬ IsBuiltin p ∧ x = .notFound p.input := by
  have hbi : ∀ p, (∃ cs, builtinRes p = .ok cs) ↔ IsBuiltin p := by
    intro p
    unfold builtinRes
    cases hb : builtinNamed p.input.frag with
    | none => simpa [IsBuiltin] using builtinNamed_none.1 hb
    | some b => simpa using ⟨b, builtinNamed_some.1 hb⟩
  have her : ∀ p x, builtinRes p = .error x ↔ ¬ IsBuiltin p ∧ x = .notFound p.input := by
    intro p x
    rw [← hbi]
    unfold builtinRes
    cases hb : builtinNamed p.input.frag <;> simp [eq_comm]
  cases hp : Expression.parse src with
  | ok e =>
    have h1 : Expression.regex src = .err (.expansion x) ↔ seqPat builtinRes e = .error x := by
      constructor
      · intro h
        rw [regex_eq hp] at h
        cases hs : seqPat builtinRes e with
        | error y => rw [hs] at h; simpa [compileRes] using h
        | ok cs =>
          rw [hs] at h
          simp only [compileRes] at h
          cases hr : Regex.parse (['^'] ++ cs ++ ['$']) <;> rw [hr] at h <;> cases h
      · intro h; rw [regex_eq hp, h]; rfl
    rw [h1, seqPat_error]
    constructor
    · rintro ⟨ps, p, qs, h1, h2, h3⟩
      exact ⟨e, ps, p, qs, rfl, h1, fun q hq => (hbi q).1 (h2 q hq), (her p x).1 h3⟩
    · rintro ⟨e', ps, p, qs, h0, h1, h2, h3⟩
      cases h0
      exact ⟨ps, p, qs, h1, fun q hq => (hbi q).2 (h2 q hq), (her p x).2 h3⟩
  | err y => simp [Expression.regex, hp]
  | panic => simp [Expression.regex, hp]
  | diverge => simp [Expression.regex, hp]

/-- C25: the reported span is the name's place in the source. -/
theorem C25_located (src : List Char) (sp : Span) (h : Expression.regex src = .err (.expansion (.notFound sp))) :
    LocatedIn src sp := by
  obtain ⟨e, ps, p, qs, h1, h2, -, -, h3⟩ := (C25_first_unknown src _).1 h
  cases h3
  refine C02_spans_located src e h1 _ ?_
  have : .parameter p ∈ e := mem_params.1 (by simp [h2])
  exact List.mem_flatMap.2 ⟨_, this, by simp [singleSpans]⟩

example : Expression.regex "{int} {foo} {bar}".toList = .err (.expansion (.notFound ⟨7, 1, "foo".toList⟩)) := rfl

/-! ## C29, C42 -/

theorem joinBars_eq (bs : List (List Char)) : joinBars bs = ['|'].intercalate bs := by
  induction bs with
  | nil => rfl
  | cons b bs ih =>
    cases bs with
    | nil => simp [joinBars]
    | cons c bs => rw [joinBars, ih]; simp [List.intercalate]; simp

theorem altPat_eq (a : Alternative) : altPat a = alternativePattern a := by
  cases a <;> simp [altPat, alternativePattern, literal, enclosed, quoteAll, List.flatMap]

theorem quoteAll_spaces {t : List Char} (h : ∀ c ∈ t, c = ' ') : quoteAll (unescape t) = t := by
  rw [unescape_plain fun hm => by have := h _ hm; revert this; decide]
  induction t with
  | nil => rfl
  | cons c t ih =>
    have := h c (by simp)
    subst this
    rw [quoteAll_cons, ih fun d hd => h d (by simp [hd])]; rfl

theorem builtinPat_eq (b : Builtin) (id : Nat) : builtinPat b id = b.pattern id := by
  cases b <;> try rfl
  show stringPattern id = _
  have d0 : decimal 0 = ['0'] := by decide
  have d1 : decimal 1 = ['1'] := by decide
  have e1 : "(?:\"(?P<__".toList = "(?:\"(?P<".toList ++ ['_', '_'] := by decide
  have e2 : "_0>[^\"\\\\]*(?:\\\\.[^\"\\\\]*)*)\"|'(?P<__".toList =
    ['_', '0'] ++ ">[^\"\\\\]*(?:\\\\.[^\"\\\\]*)*)\"|'(?P<".toList ++ ['_', '_'] := by decide
  have e3 : "_1>[^'\\\\]*(?:\\\\.[^'\\\\]*)*)')".toList = ['_', '1'] ++ ">[^'\\\\]*(?:\\\\.[^'\\\\]*)*)')".toList := by decide
  unfold stringPattern Builtin.pattern groupName
  rw [e1, e2, e3, d0, d1]
  simp only [List.append_assoc, List.cons_append, List.nil_append]

/-- C42, C29: the pattern is `^`, the pattern of each element with every optional and every alternation enclosed in its
own group, and `$`. -/
theorem C42_pattern (src : List Char) (e : Expression) (h : Expression.parse src = .ok e) (hb : AllBuiltin e) :
    ∃ c, Expression.regex src = .ok c ∧ ∀ pat : Parameter → List Char,
      (∀ p (b : Builtin), p.input.frag = b.name → pat p = b.pattern p.id) →
      c.pattern = ['^'] ++ e.flatMap (elementPattern pat) ++ ['$'] := by
  refine ⟨_, regex_builtin h hb, fun pat hpat => ?_⟩
  have : exprPat bPat e = e.flatMap (elementPattern pat) := by
    unfold exprPat List.flatMap
    congr 1
    refine List.map_congr_left fun x hx => ?_
    cases x with
    | text t => simp [elemPat, elementPattern, literal, quoteAll, List.flatMap]
    | whitespaces t =>
      have hv := (C06_parse_then_print src e h).1.1 _ (List.mem_map_of_mem (f := eraseSingle) hx)
      exact quoteAll_spaces hv.2
    | optional o => exact altPat_eq (.optional o)
    | alternation a =>
      simp only [elemPat, elementPattern, enclosed, joinBars_eq]
      have : a.map branchPat = a.map (·.flatMap alternativePattern) := List.map_congr_left fun b _ => by
        unfold branchPat List.flatMap
        rw [List.map_congr_left fun a _ => altPat_eq a]
      rw [this]; rfl
    | parameter p =>
      obtain ⟨b, hn⟩ := hb p hx
      simp only [elemPat, elementPattern, hpat p b hn, bPat, builtinNamed_some.2 hn, builtinPat_eq]
  show ['^'] ++ exprPat bPat e ++ ['$'] = _
  rw [this]

/-- C29: every match is a match of the whole subject; the pattern is anchored on both sides. -/
theorem C29_whole (src : List Char) (e : Expression) (h : Expression.parse src = .ok e) (hb : AllBuiltin e) (c : Compiled)
    (hc : Expression.regex src = .ok c) :
    (∃ p, c.pattern = ['^'] ++ p ++ ['$']) ∧ ∀ (U : Classes) (w pre x post : List Char) (l : List Cap),
      c.re.Finds U w pre x post l → pre = [] ∧ x = w ∧ post = [] := by
  obtain ⟨c', h1, h2⟩ := C27_captures src e h hb
  rw [hc] at h1
  cases h1
  rw [regex_builtin h hb] at hc
  cases hc
  refine ⟨⟨_, rfl⟩, fun U w pre x post l hm => ?_⟩
  obtain ⟨h3, h4, h5, -⟩ := (h2 ..).1 hm
  exact ⟨h3, h5, h4⟩

/-! ## C22, C33, C39 -/

/-- C22: `EscapeForRegex` over a text yields a valid regex that matches exactly the unescaped text, anywhere; exactly the
characters ``^$[]()\{}.|?*+`` are escaped. -/
theorem C22_literal (t : List Char) : ∃ cs, escapeForRegex t = some cs ∧ cs = (unescape t).flatMap quote ∧
    ∃ r, Regex.parse cs = .ok r ∧ r.groups = [] ∧ ∀ (U : Classes) (g : Nat) (pre x post : List Char) (l : List Cap),
      r.Match U g pre x post l ↔ x = unescape t ∧ l = [] := by
  refine ⟨_, escapeForRegex_eq t, by simp [quoteAll, List.flatMap], catL ((unescape t).map .lit), ?_, ?_, ?_⟩
  · obtain ⟨f, hf⟩ := ReadsAs.lits (unescape t) false
    have h1 := hf [] [] [] []
    have h2 : (catL ((unescape t).map Re.lit)).names = [] := by rw [Re.names, groups_catL, groups_lits]; rfl
    simp only [List.append_nil] at h1
    simp only [Regex.parse, (Lexes.quoteAll (unescape t)).lex, Frame.start, h1]
    simp [build, Frame.finish, altL, h2]
  · rw [groups_catL, groups_lits]
  · intro U g pre x post l; exact match_lits ..

/-- The expression for a literal string: reserved characters get a backslash. -/
def escapeAll (w : List Char) : List Char := w.flatMap fun c => if c ∈ reserved then ['\\', c] else [c]

theorem unescape_escapeAll (w : List Char) : unescape (escapeAll w) = w := by
  induction w with
  | nil => rfl
  | cons c w ih =>
    unfold escapeAll at ih ⊢
    rw [List.flatMap_cons]
    by_cases hc : c ∈ reserved
    · rw [if_pos hc]; simp only [List.cons_append, List.nil_append]; rw [unescape, ih]
    · rw [if_neg hc]
      have h : c ≠ '\\' := by rintro rfl; exact hc (by decide)
      simp only [List.cons_append, List.nil_append]
      rw [unescape, ih]
      · intro h' _; exact h h'
      · intro d r h' _; exact h h'

theorem escd_escapeAll (w : List Char) : Escd textStops (escapeAll w) := by
  induction w with
  | nil => exact .nil
  | cons c w ih =>
    unfold escapeAll at ih ⊢
    rw [List.flatMap_cons]
    by_cases hc : c ∈ reserved
    · rw [if_pos hc]; exact .esc _ _ hc ih
    · rw [if_neg hc]
      refine .char _ _ ?_ ?_ ih
      · rintro rfl; exact hc (by decide)
      · intro h
        simp only [textStops, List.mem_cons, List.not_mem_nil, or_false] at h
        rcases h with rfl | rfl | rfl | rfl <;> exact hc (by decide)

/-- C33: every literal string is expressible. -/
theorem C33_expressible (w : List Char) : ∃ c, Expression.regex (escapeAll w) = .ok c ∧
    ∀ (U : Classes) (v : List Char), c.re.IsMatch U v ↔ v = w := by
  by_cases hw : w = []
  · subst hw
    obtain ⟨c, h1, h2⟩ := C23_language [] [] rfl (by simp [AllBuiltin])
    refine ⟨c, h1, fun U v => (h2 U v).trans ?_⟩
    constructor
    · rintro ⟨l, h⟩; cases h; rfl
    · rintro rfl; exact ⟨[], .nil ..⟩
  · have hne : escapeAll w ≠ [] := by
      intro h
      have := unescape_escapeAll w
      rw [h] at this
      exact hw this.symm
    obtain ⟨e, h1, h2⟩ := C06_print_then_parse [.text (escapeAll w)]
      ⟨by simpa [Elem.Valid] using ⟨hne, escd_escapeAll w⟩, trivial⟩
    have h1 : Expression.parse (escapeAll w) = .ok e := by simpa [render, Elem.render] using h1
    obtain ⟨t, rfl, ht⟩ : ∃ t, e = [.text t] ∧ t.frag = escapeAll w := by
      cases e with
      | nil => simp [erase] at h2
      | cons x es =>
        simp only [erase, List.map_cons, List.cons.injEq, List.map_eq_nil_iff] at h2
        obtain ⟨h3, rfl⟩ := h2
        cases x <;> simp [eraseSingle] at h3
        exact ⟨_, rfl, h3⟩
    obtain ⟨c, h3, h4⟩ := C23_language _ _ h1 (by simp [AllBuiltin])
    refine ⟨c, h3, fun U v => (h4 U v).trans ?_⟩
    constructor
    · rintro ⟨l, h⟩
      cases h with
      | cons _ _ _ _ x y k l h5 h6 =>
        cases h6
        rw [List.append_nil, h5.1, ht, unescape_escapeAll]
    · rintro rfl
      refine ⟨[], ?_⟩
      have := Splits.cons (U := U) (.text t) [] 1 0 v [] [] [] ⟨by rw [ht, unescape_escapeAll], rfl⟩ (.nil ..)
      simpa using this

/-- C39: the expression consisting of a built-in parameter matches exactly the language of its type, and captures the
argument. -/
theorem C39_builtin (b : Builtin) : ∃ c, Expression.regex (['{'] ++ b.name ++ ['}']) = .ok c ∧ ∀ (U : Classes) (w : List Char),
    (c.re.IsMatch U w ↔ b.Lang U w) ∧ ∀ pre x post l, c.re.Finds U w pre x post l →
      pre = [] ∧ x = w ∧ post = [] ∧ b.Captures 1 0 w l := by
  obtain ⟨p, hp, hn⟩ : ∃ p, Expression.parse (['{'] ++ b.name ++ ['}']) = .ok [.parameter p] ∧ p.input.frag = b.name := by
    cases b <;> exact ⟨⟨⟨1, 1, _⟩, 0⟩, rfl, rfl⟩
  have hb : AllBuiltin [.parameter p] := by
    intro q hq
    simp only [List.mem_singleton, SingleExpression.parameter.injEq] at hq
    exact ⟨b, hq ▸ hn⟩
  have key : ∀ U w l, Splits U [.parameter p] 1 0 w l ↔ b.Lang U w ∧ b.Captures 1 0 w l := by
    intro U w l
    constructor
    · intro h
      cases h with
      | cons _ _ _ _ x y k l h1 h2 =>
        cases h2
        obtain ⟨b', h3, h4, h5⟩ := h1
        rw [hn] at h3
        cases name_inj h3
        rw [List.append_nil, List.append_nil]; exact ⟨h4, h5⟩
    · rintro ⟨h1, h2⟩
      have := Splits.cons (U := U) (.parameter p) [] 1 0 w [] l [] ⟨b, hn, h1, h2⟩ (.nil ..)
      simpa using this
  obtain ⟨c, h1, h2⟩ := C27_captures _ _ hp hb
  refine ⟨c, h1, fun U w => ⟨?_, ?_⟩⟩
  · simp only [Re.IsMatch, h2, key]
    constructor
    · rintro ⟨_, _, _, _, _, _, _, h, _⟩; exact h
    · intro h
      have : ∃ l, b.Captures 1 0 w l := by
        cases b with
        | string =>
          obtain ⟨q, i, rfl | rfl, hw, -⟩ := h
          · exact ⟨_, i, .inl ⟨hw, rfl⟩⟩
          · exact ⟨_, i, .inr ⟨hw, rfl⟩⟩
        | _ => exact ⟨_, rfl⟩
      obtain ⟨l, hl⟩ := this
      exact ⟨[], w, [], l, rfl, rfl, rfl, h, hl⟩
  · intro pre x post l hm
    obtain ⟨h3, h4, h5, h6⟩ := (h2 ..).1 hm
    exact ⟨h3, h5, h4, ((key ..).1 h6).2⟩

end CE
