import Verif.Prop.Message
import Verif.Prop.Reject
import Verif.Spec.Documented

/-! # C56: the documented failures of each parser -/

namespace CE
open Spec

theorem escapeFailure_kind {s pre t rest e} (h : EscapeFailure s pre t rest e) :
    ∃ k sp, Describes e k sp ∧ (k = .escapedNonReservedCharacter ∨ k = .escapedEndOfLine) := by
  cases h with
  | nonReserved d v _ => exact ⟨_, _, .escapedNonReservedCharacter _, .inl rfl⟩
  | endOfLine _ _ => exact ⟨_, _, .escapedEndOfLine _, .inr rfl⟩
  | endOfLineAfterText _ _ => exact ⟨_, _, .escapedNonReservedCharacter _, .inl rfl⟩

theorem optionalFailure_kind {s t rest e} (h : OptionalFailure s t rest e) : ∃ k sp, Describes e k sp ∧ k ∈ optionalDoc := by
  cases h with
  | escape e h =>
    obtain ⟨k, sp, hd, rfl | rfl⟩ := escapeFailure_kind h <;> exact ⟨_, sp, hd, by decide⟩
  | _ => exact ⟨_, _, by constructor, by decide⟩

theorem optional_kind (s : Span) (e : PErr) (h : optional s = .error (.failure e)) :
    ∃ k sp, Describes e k sp ∧ k ∈ optionalDoc := by
  cases (C13_optional s _).1 h with
  | failure r t rest _ _ _ h => exact optionalFailure_kind h

theorem parameterFailure_kind {s t rest e} (h : ParameterFailure s t rest e) :
    ∃ k sp, Describes e k sp ∧ (k ∈ parameterDoc ∨ k = .escapedEndOfLine) := by
  cases h with
  | escape e h =>
    obtain ⟨k, sp, hd, rfl | rfl⟩ := escapeFailure_kind h <;> exact ⟨_, sp, hd, by decide⟩
  | _ => exact ⟨_, _, by constructor, .inl (by decide)⟩

theorem parameter_kind (s : Span) (n : Nat) (e : PErr) (h : (parameter s n).1 = .error (.failure e)) :
    ∃ k sp, Describes e k sp ∧ (k ∈ parameterDoc ∨ k = .escapedEndOfLine) := by
  have h' : parameter s n = (.error (.failure e), (parameter s n).2) := Prod.ext h rfl
  have h2 := (C14_parameter s n _).1 h'
  generalize (parameter s n).2 = m at h2
  cases h2 with
  | failure r t rest _ _ _ h => exact parameterFailure_kind h

theorem alternative_kind (s : Span) (e : PErr) (h : alternative s = .error (.failure e)) :
    ∃ k sp, Describes e k sp ∧ k ∈ optionalDoc := by
  cases (C17_alternative s _).1 h with
  | optionalFailure _ h => exact optional_kind s e ((C13_optional s _).2 h)
  | textFailure _ _ _ _ _ h =>
    obtain ⟨k, sp, hd, rfl | rfl⟩ := escapeFailure_kind h <;> exact ⟨_, sp, hd, by decide⟩

theorem alternation_kind (s : Span) (e : PErr) (h : alternation s = .error (.failure e)) :
    ∃ k sp, Describes e k sp ∧ k ∈ alternationDoc := by
  cases (C15_alternation_failure s e).1 h with
  | emptyFirst r _ => exact ⟨_, _, .emptyAlternation _, by decide⟩
  | emptyLater bs r _ _ _ _ => exact ⟨_, _, .emptyAlternation _, by decide⟩
  | onlyOptional bs rest _ _ _ _ _ => exact ⟨_, _, .onlyOptionalInAlternation _, by decide⟩
  | piece bs b v _ _ _ _ _ h =>
    obtain ⟨k, sp, hd, hk⟩ := alternative_kind _ e ((C17_alternative _ _).2 h)
    exact ⟨k, sp, hd, List.mem_append_left _ hk⟩

theorem specific_kind {e : PErr} (h : Specific e) : ∃ k sp, Describes e k sp ∧ k ∈ expressionDoc := by
  cases e <;> first | exact h.elim | exact ⟨_, _, by constructor, by decide⟩

theorem parser_failure {α : Type} {p : Prop} {r : IRes α} {e} (hd : Discipline p r) (h : r = .error (.failure e)) :
    Specific e := by
  subst h; exact hd.1

/-- C56, in part: the documented list of irrecoverable failures is accurate for `optional`, `alternative`,
`alternation`, `single_expression` and `expression` (the full claim, `C56_false`, includes `parameter`); and `parameter`
fails in the documented ways and with `EscapedEndOfLine`. -/
theorem C56_documented_failures_partial (n : Nat) :
    Accurate optional optionalDoc ∧ Accurate alternative alternativeDoc ∧ Accurate alternation alternationDoc ∧
    Accurate (fun s => (singleExpression s n).1) expressionDoc ∧ Accurate expression expressionDoc ∧
    Accurate (fun s => (parameter s n).1) (.escapedEndOfLine :: parameterDoc) := by
  have hopt : ∀ k ∈ optionalDoc, ∃ src e sp, optional (Span.new src) = .error (.failure e) ∧
      alternative (Span.new src) = .error (.failure e) ∧ alternation (Span.new src) = .error (.failure e) ∧
      (singleExpression (Span.new src) n).1 = .error (.failure e) ∧ expression (Span.new src) = .error (.failure e) ∧
      Describes e k sp := by
    intro k hk
    simp only [optionalDoc, List.mem_cons, List.not_mem_nil, or_false] at hk
    rcases hk with rfl | rfl | rfl | rfl | rfl | rfl | rfl | rfl
    · exact ⟨"(a/b)".toList, _, _, rfl, rfl, rfl, rfl, rfl, by constructor⟩
    · exact ⟨"()".toList, _, _, rfl, rfl, rfl, rfl, rfl, by constructor⟩
    · exact ⟨"(\\".toList, _, _, rfl, rfl, rfl, rfl, rfl, by constructor⟩
    · exact ⟨"(a\\b)".toList, _, _, rfl, rfl, rfl, rfl, rfl, by constructor⟩
    · exact ⟨"(a(b)c)".toList, _, _, rfl, rfl, rfl, rfl, rfl, by constructor⟩
    · exact ⟨"(a{b}c)".toList, _, _, rfl, rfl, rfl, rfl, rfl, by constructor⟩
    · exact ⟨"(a{b)".toList, _, _, rfl, rfl, rfl, rfl, rfl, by constructor⟩
    · exact ⟨"(a".toList, _, _, rfl, rfl, rfl, rfl, rfl, by constructor⟩
  have halt : ∀ k ∈ alternationDoc, ∃ src e sp, alternation (Span.new src) = .error (.failure e) ∧
      (singleExpression (Span.new src) n).1 = .error (.failure e) ∧ expression (Span.new src) = .error (.failure e) ∧
      Describes e k sp := by
    intro k hk
    rcases List.mem_append.1 hk with hk | hk
    · obtain ⟨src, e, sp, -, -, h1, h2, h3, h4⟩ := hopt k hk
      exact ⟨src, e, sp, h1, h2, h3, h4⟩
    · simp only [List.mem_cons, List.not_mem_nil, or_false] at hk
      rcases hk with rfl | rfl
      · exact ⟨"a/".toList, _, _, rfl, rfl, rfl, by constructor⟩
      · exact ⟨"a/(b)".toList, _, _, rfl, rfl, rfl, by constructor⟩
  have hpar : ∀ k ∈ .escapedEndOfLine :: parameterDoc, ∃ src e sp, (parameter (Span.new src) n).1 = .error (.failure e) ∧
      (singleExpression (Span.new src) n).1 = .error (.failure e) ∧ expression (Span.new src) = .error (.failure e) ∧
      Describes e k sp := by
    intro k hk
    simp only [parameterDoc, List.mem_cons, List.not_mem_nil, or_false] at hk
    rcases hk with rfl | rfl | rfl | rfl | rfl | rfl
    · exact ⟨"{\\".toList, _, _, rfl, rfl, rfl, by constructor⟩
    · exact ⟨"{a\\b}".toList, _, _, rfl, rfl, rfl, by constructor⟩
    · exact ⟨"{a{b}c}".toList, _, _, rfl, rfl, rfl, by constructor⟩
    · exact ⟨"{a(b)c}".toList, _, _, rfl, rfl, rfl, by constructor⟩
    · exact ⟨"{a/b}".toList, _, _, rfl, rfl, rfl, by constructor⟩
    · exact ⟨"{a".toList, _, _, rfl, rfl, rfl, by constructor⟩
  have hexp : ∀ k ∈ expressionDoc, ∃ src e sp, (singleExpression (Span.new src) n).1 = .error (.failure e) ∧
      expression (Span.new src) = .error (.failure e) ∧ Describes e k sp := by
    intro k hk
    rcases List.mem_append.1 hk with hk | hk
    · rcases List.mem_append.1 hk with hk | hk
      · obtain ⟨src, e, sp, -, h1, h2, h3⟩ := halt k hk
        exact ⟨src, e, sp, h1, h2, h3⟩
      · obtain ⟨src, e, sp, -, -, -, h1, h2, h3⟩ := hopt k hk
        exact ⟨src, e, sp, h1, h2, h3⟩
    · obtain ⟨src, e, sp, -, h1, h2, h3⟩ := hpar k (List.mem_cons_of_mem _ hk)
      exact ⟨src, e, sp, h1, h2, h3⟩
  refine ⟨⟨optional_kind, ?_⟩, ⟨alternative_kind, ?_⟩, ⟨alternation_kind, ?_⟩, ⟨?_, ?_⟩, ⟨?_, ?_⟩, ⟨?_, ?_⟩⟩
  · intro k hk; obtain ⟨src, e, sp, h, -, -, -, -, hd⟩ := hopt k hk; exact ⟨src, e, sp, h, hd⟩
  · intro k hk; obtain ⟨src, e, sp, -, h, -, -, -, hd⟩ := hopt k hk; exact ⟨src, e, sp, h, hd⟩
  · intro k hk; obtain ⟨src, e, sp, h, -, -, hd⟩ := halt k hk; exact ⟨src, e, sp, h, hd⟩
  · intro s e h; exact specific_kind (parser_failure (discipline_single s n) h)
  · intro k hk; obtain ⟨src, e, sp, h, -, hd⟩ := hexp k hk; exact ⟨src, e, sp, h, hd⟩
  · intro s e h; exact specific_kind (parser_failure (discipline_expression s) h)
  · intro k hk; obtain ⟨src, e, sp, -, h, hd⟩ := hexp k hk; exact ⟨src, e, sp, h, hd⟩
  · intro s e h
    obtain ⟨k, sp, hd, hk⟩ := parameter_kind s n e h
    exact ⟨k, sp, hd, by rcases hk with hk | rfl; exact List.mem_cons_of_mem _ hk; exact List.mem_cons_self⟩
  · intro k hk; obtain ⟨src, e, sp, h, -, -, hd⟩ := hpar k hk; exact ⟨src, e, sp, h, hd⟩

/-- C56 is false of the code for `parameter`: on `{\` it fails with `EscapedEndOfLine`, which its documentation does not
list. -/
theorem C56_false : ∃ src e sp, (parameter (Span.new src) 0).1 = .error (.failure e) ∧ Describes e .escapedEndOfLine sp ∧
    Kind.escapedEndOfLine ∉ parameterDoc ∧ ¬ Accurate (fun s => (parameter s 0).1) parameterDoc := by
  have h : (parameter (Span.new "{\\".toList) 0).1 = .error (.failure (.escapedEndOfLine ⟨1, 1, "\\".toList⟩)) := rfl
  refine ⟨_, _, _, h, .escapedEndOfLine _, by decide, fun ha => ?_⟩
  obtain ⟨k, sp, hd, hk⟩ := ha.1 _ _ h
  cases hd
  exact absurd hk (by decide)

/-- The documented lists differ: `parameter` never fails as an alternation does, and `optional` never reports an
unfinished parameter. -/
example : Kind.emptyAlternation ∉ Kind.escapedEndOfLine :: parameterDoc ∧ Kind.unfinishedParameter ∉ alternationDoc ∧
    Kind.unfinishedParameter ∈ expressionDoc := by decide

end CE
