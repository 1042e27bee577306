import Verif.Proof.Expression

/-! # All inputs: C07, C08, C18, C19 -/

namespace CE
open Spec

/-- One of the documented errors: neither `Other` nor `Needed`. -/
def Specific : PErr → Prop
  | .other _ _ => False
  | .needed _ => False
  | _ => True

/-- What a public parser may return: success or an irrecoverable documented error when `recoverable` is false, and a
recoverable `Other` when it is true. Everything else (`Incomplete`, panic, divergence) is excluded. -/
def Discipline {α : Type} (recoverable : Prop) : IRes α → Prop
  | .ok _ => ¬ recoverable
  | .error (.failure e) => Specific e ∧ ¬ recoverable
  | .error (.error (.other _ _)) => recoverable
  | _ => False

/-! ## Errors of the closed forms are documented errors -/

theorem escOut_specific {s : Span} {t r : List Char} {e : PErr} (h : escOut s t r = .error (.failure e)) : Specific e := by
  unfold escOut at h
  split at h
  · simp at h
  · split at h
    · split at h
      · simp at h; subst h; trivial
      · split at h <;> (simp at h; subst h; trivial)
    · simp at h

theorem parFailSpec_specific (inp o : Span) : Specific (parFailSpec inp o) := by
  unfold parFailSpec
  split
  · split
    · split <;> trivial
    · trivial
  · split <;> trivial
  · trivial
  · trivial

theorem optFailSpec_specific (inp o : Span) : Specific (optFailSpec inp o) := by
  unfold optFailSpec
  split
  · split
    · split <;> trivial
    · trivial
  · split <;> trivial
  · trivial
  · trivial

theorem discipline_parameter (s : Span) (n : Nat) :
    Discipline (s.frag.head? ≠ some '{') (parameter s n).1 := by
  rw [parameter_eq]
  unfold parSpec
  split
  next r hr =>
    split
    next e he =>
      obtain ⟨pe, rfl, -⟩ := escOut_err he
      exact ⟨escOut_specific he, by simp [hr]⟩
    next inp name he =>
      split
      · simp [Discipline, hr]
      · exact ⟨parFailSpec_specific _ _, by simp [hr]⟩
  next hn =>
    show s.frag.head? ≠ some '{'
    intro hc
    obtain ⟨r, hr⟩ := eq_cons_of_head? hc
    exact hn r hr

theorem discipline_optional (s : Span) : Discipline (s.frag.head? ≠ some '(') (optional s) := by
  rw [optional_eq]
  unfold optSpec
  split
  next r hr =>
    split
    next e he =>
      obtain ⟨pe, rfl, -⟩ := escOut_err he
      exact ⟨escOut_specific he, by simp [hr]⟩
    next inp name he =>
      split
      · split
        · exact ⟨trivial, by simp [hr]⟩
        · simp [Discipline, hr]
      · exact ⟨optFailSpec_specific _ _, by simp [hr]⟩
  next hn =>
    show s.frag.head? ≠ some '('
    intro hc
    obtain ⟨r, hr⟩ := eq_cons_of_head? hc
    exact hn r hr

/-- The first character is one at which no alternative can start. -/
def NoAlternative (cs : List Char) : Prop := cs = [] ∨ ∃ c r, cs = c :: r ∧ (c = ' ' ∨ c = '{' ∨ c = '/')

theorem noAlternative_iff (cs : List Char) : NoAlternative cs ↔ endsBranch cs := by
  unfold NoAlternative endsBranch
  cases cs with
  | nil => simp
  | cons c r => simp

theorem pieceFail_specific {s : Span} {e : PErr} (h : pieceFail s = some e) : Specific e := by
  unfold pieceFail at h
  split at h
  · have hd := discipline_optional s
    rw [optional_eq] at hd
    split at h
    next e' he => simp only [Option.some.injEq] at h; subst h; rw [he] at hd; exact hd.1
    · simp at h
  · split at h
    next e' he => simp only [Option.some.injEq] at h; subst h; exact escOut_specific he
    · simp at h

theorem discipline_alternative (s : Span) : Discipline (NoAlternative s.frag) (alternative s) := by
  rw [noAlternative_iff, alternative_eq]
  cases hp : pieceOk s.frag with
  | some qv =>
    intro he
    rw [pieceOk_none_of_ends he] at hp
    simp at hp
  | none =>
    simp only
    cases hf : pieceFail s with
    | some e => exact ⟨pieceFail_specific hf, fun he => by rw [pieceFail_of_ends he] at hf; simp at hf⟩
    | none => exact (pieceFail_none hp).1 hf

/-- `cs` begins with a (possibly empty) sequence of texts and optionals which ends at a space, a `{` or the end of
input, without any `/`. -/
def NoSlash (cs : List Char) : Prop :=
  ∃ b v, ValidPieces b ∧ cs = renderPieces b ++ v ∧ (v = [] ∨ ∃ c r, v = c :: r ∧ (c = ' ' ∨ c = '{'))

theorem noSlash_iff (cs : List Char) : NoSlash cs ↔ ∃ b v, Reads cs b v ∧ endsBranch v ∧ v.head? ≠ some '/' := by
  constructor
  · rintro ⟨b, v, h1, rfl, h2⟩
    have hv : endsBranch v ∧ v.head? ≠ some '/' := by
      rcases h2 with rfl | ⟨c, r, rfl, rfl | rfl⟩ <;> simp [endsBranch]
    exact ⟨b, v, .complete h1 v (fun _ _ _ => endsBranch_stop hv.1), hv⟩
  · rintro ⟨b, v, h1, h2, h3⟩
    refine ⟨b, v, h1.valid, h1.append, ?_⟩
    cases v with
    | nil => exact .inl rfl
    | cons c r =>
      have := h2 c rfl
      simp at h3
      exact .inr ⟨c, r, rfl, by grind⟩

theorem noSlash_unique {cs b v} (h : NoSlash cs) (hr : Reads cs b v) (hp : pieceOk v = none) :
    endsBranch v ∧ v.head? ≠ some '/' := by
  obtain ⟨b', v', h1, h2, h3⟩ := (noSlash_iff cs).1 h
  obtain ⟨rfl, rfl⟩ := hr.functional h1 hp (pieceOk_none_of_ends h2)
  exact ⟨h2, h3⟩

theorem readsBranches_not_noSlash {cs bs r} (h : ReadsBranches cs bs ('/' :: r)) : ¬ NoSlash cs := by
  intro hn
  obtain ⟨b, bs', v, rfl, h1, h2⟩ := h
  have := (noSlash_unique hn h1.1 (pieceOk_none_of_ends h1.2.1)).2
  generalize hrr : '/' :: r = rr at h2
  cases h2 with
  | nil => subst hrr; simp at this
  | cons => simp at this

theorem discipline_alternation (s : Span) : Discipline (NoSlash s.frag) (alternation s) := by
  cases altCase s with
  | noBranchSlash r h =>
    rw [alternation_no_branch_slash s r h]
    refine ⟨trivial, fun hn => ?_⟩
    have := (noSlash_unique hn (.nil _) (pieceOk_none_of_ends (by rw [h]; exact endsBranch_slash r))).2
    rw [h] at this; simp at this
  | noBranch h hs =>
    rw [alternation_no_branch s h hs]
    exact (noSlash_iff _).2 ⟨[], _, .nil _, h, hs⟩
  | failFirst b v e h hn hf =>
    rw [alternation_fail_first s h hn hf]
    refine ⟨pieceFail_specific hf, fun hns => ?_⟩
    have := (noSlash_unique hns h hn).1
    rw [pieceFail_of_ends (by simpa using this)] at hf
    simp at hf
  | failLater bs r b v e h hb hn he =>
    rw [alternation_fail_later s h hb hn he]
    exact ⟨pieceFail_specific he, readsBranches_not_noSlash h⟩
  | empty bs r h hr =>
    rw [alternation_empty s h hr]
    exact ⟨trivial, readsBranches_not_noSlash h⟩
  | full bs rest h hr =>
    rw [alternation_ok s h hr]
    have key : NoSlash s.frag ↔ bs.length = 1 := by
      obtain ⟨b, bs', v, rfl, h1, h2⟩ := h
      constructor
      · intro hn
        have := (noSlash_unique hn h1.1 (pieceOk_none_of_ends h1.2.1)).2
        cases h2 with
        | nil => simp
        | cons => simp at this
      · intro hl
        have : bs' = [] := by simpa using hl
        subst this
        cases h2
        exact (noSlash_iff _).2 ⟨b, _, h1.1, h1.2.1, hr⟩
    split
    next hl => exact key.2 hl
    next hl =>
      split
      · exact ⟨trivial, fun h => hl (key.1 h)⟩
      · exact fun h => hl (key.1 h)

theorem singleFail_specific {s : Span} {e : PErr} (h : SingleFail s e) : Specific e := by
  cases h with
  | alternation h => have := discipline_alternation s; rw [h] at this; exact this.1
  | parameter h hh => have := discipline_parameter s 0; rw [h] at this; exact this.1

theorem discipline_single (s : Span) (n : Nat) : Discipline (s.frag = []) (singleExpression s n).1 := by
  rcases singleCase s with h | ⟨e, v, h⟩ | ⟨e, h⟩
  · rw [single_nil s h n]; exact h
  · rw [single_ok s h n]
    have := h.blen_lt
    intro hc; rw [hc] at this; simp at this
  · rw [single_fail s h n]
    refine ⟨singleFail_specific h, fun hc => ?_⟩
    have h1 := single_fail s h n
    rw [single_nil s hc n] at h1
    simp at h1

theorem discipline_expression (s : Span) : Discipline False (expression s) := by
  rcases expression_cases s with ⟨es, h1, h2, h3⟩ | ⟨es, rest, e, h1, h2, h3⟩
  · rw [h3]; exact id
  · rw [h3]; exact ⟨singleFail_specific h2, id⟩

/-! ## C19 -/

/-- C19: recoverable errors are exactly `Other`, irrecoverable errors are documented ones, `Incomplete` is never
returned; and recoverability is decided by a simple condition on the input. -/
theorem C19_recoverability (s : Span) (n : Nat) :
    Discipline (s.frag.head? ≠ some '{') (parameter s n).1 ∧
    Discipline (s.frag.head? ≠ some '(') (optional s) ∧
    Discipline (NoAlternative s.frag) (alternative s) ∧
    Discipline (NoSlash s.frag) (alternation s) ∧
    Discipline (s.frag = []) (singleExpression s n).1 ∧
    Discipline False (expression s) :=
  ⟨discipline_parameter s n, discipline_optional s, discipline_alternative s, discipline_alternation s,
    discipline_single s n, discipline_expression s⟩

/-- Non-vacuity: each of the three allowed outcomes occurs. -/
example : optional (Span.new "x".toList) = .error (.error (.other ⟨0, 1, "x".toList⟩ .tag)) ∧
    optional (Span.new "(/".toList) = .error (.failure (.alternationInOptional ⟨1, 1, "/".toList⟩)) ∧
    optional (Span.new "(x)y".toList) = .ok (⟨3, 1, "y".toList⟩, ⟨⟨1, 1, "x".toList⟩⟩) := ⟨rfl, rfl, rfl⟩

/-! ## C08 -/

/-- The two outcomes that are not values in Rust do not occur. -/
def Returns {α : Type} (r : IRes α) : Prop := r ≠ .error .panic ∧ r ≠ .error .diverge

theorem Discipline.returns {α : Type} {p : Prop} {r : IRes α} (h : Discipline p r) : Returns r := by
  constructor <;> (rintro rfl; exact h)

/-- C08: public parsers never panic and always terminate. -/
theorem C08_no_panic (s : Span) (n : Nat) :
    Returns (parameter s n).1 ∧ Returns (optional s) ∧ Returns (alternative s) ∧ Returns (alternation s) ∧
    Returns (singleExpression s n).1 ∧ Returns (expression s) :=
  ⟨(discipline_parameter s n).returns, (discipline_optional s).returns, (discipline_alternative s).returns,
    (discipline_alternation s).returns, (discipline_single s n).returns, (discipline_expression s).returns⟩

/-- C08, for `Expression::parse`. -/
theorem C08_parse_no_panic (src : List Char) :
    Expression.parse src ≠ .panic ∧ Expression.parse src ≠ .diverge := by
  have h := discipline_expression (Span.new src)
  unfold Expression.parse
  cases he : expression (Span.new src) with
  | ok a => simp only []; split <;> simp
  | error e =>
    rw [he] at h
    cases e <;> simp_all [Discipline]

/-- The model can express a panic: slicing inside a multi-byte character. -/
example : (Span.new "é".toList).take 1 = none := by decide

/-! ## C07 -/

/-- C07: `Expression::parse` returns an AST or a documented error. -/
theorem C07_parse_total (src : List Char) :
    (∃ x, Expression.parse src = .ok x) ∨ ∃ e, Expression.parse src = .err e ∧ Specific e := by
  have h := discipline_expression (Span.new src)
  cases hp : Expression.parse src with
  | ok x => exact .inl ⟨x, rfl⟩
  | err e => have := (parse_err_iff src e).1 hp; rw [this] at h; exact .inr ⟨e, rfl, h.1⟩
  | panic => exact absurd hp (C08_parse_no_panic src).1
  | diverge => exact absurd hp (C08_parse_no_panic src).2

/-- C07: `parse::expression` consumes the whole input or fails irrecoverably. -/
theorem C07_expression_all_or_nothing (s : Span) :
    (∃ r x, expression s = .ok (r, x) ∧ r.frag = [] ∧ r.offset = s.offset + blen s.frag) ∨
    ∃ e, expression s = .error (.failure e) ∧ Specific e := by
  rcases expression_cases s with ⟨es, h1, h2, h3⟩ | ⟨es, rest, e, h1, h2, h3⟩
  · exact .inl ⟨_, _, h3, by simp, by simp⟩
  · exact .inr ⟨e, h3, singleFail_specific h2⟩

example : Expression.parse "a b".toList = .ok [.text ⟨0, 1, ['a']⟩, .whitespaces ⟨1, 1, [' ']⟩, .text ⟨2, 1, ['b']⟩] ∧
    Expression.parse "a (".toList = .err (.unfinishedOptional ⟨2, 1, ['(']⟩) := by decide

/-! ## C18 -/

/-- C18: `parameter` increments the indexer exactly when it returns a parameter, which carries the previous value. -/
theorem C18_parameter_indexer (s : Span) (n : Nat) :
    match parameter s n with
    | (.ok (_, p), m) => p.id = n ∧ m = n + 1
    | (.error _, m) => m = n := by
  rw [parameter_eq]
  rcases hp : parSpec s n with ⟨e | ⟨r, p⟩, m⟩
  · exact (parSpec_err hp).2.1
  · obtain ⟨t, v, -, -, -, rfl, rfl⟩ := parSpec_ok hp
    exact ⟨rfl, rfl⟩

/-- C18: so does `single_expression`. -/
theorem C18_single_indexer (s : Span) (n : Nat) :
    match singleExpression s n with
    | (.ok (_, .parameter p), m) => p.id = n ∧ m = n + 1
    | (_, m) => m = n := by
  rcases singleCase s with h | ⟨e, v, h⟩ | ⟨e, h⟩
  · rw [single_nil s h n]
  · rw [single_ok s h n]
    cases e <;> simp [Elem.locate, Elem.params]
  · rw [single_fail s h n]

example : singleExpression (Span.new "{x}".toList) 7 = (.ok (⟨3, 1, []⟩, .parameter ⟨⟨1, 1, ['x']⟩, 7⟩), 8) ∧
    (singleExpression (Span.new "{x".toList) 7).2 = 7 := ⟨rfl, rfl⟩

end CE
