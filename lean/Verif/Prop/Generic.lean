import Verif.Proof.Generic

/-! # C63: the parsers do not care about the type of the input -/

namespace CE
open Spec

/-- C63: on any type of inputs which behave like spans, every parser gives what it gives on spans. -/
theorem C63_generic {I : Type} [G.Input I] (R : I → Span → Prop) (hR : Alike R) (i : I) (s : Span) (h : R i s) (n : Nat) :
    (ResRel R (ParameterRel R) (G.parameter i n).1 (parameter s n).1 ∧ (G.parameter i n).2 = (parameter s n).2) ∧
    ResRel R (OptionalRel R) (G.optional i) (optional s) ∧
    ResRel R (AlternativeRel R) (G.alternative i) (alternative s) ∧
    ResRel R (AlternationRel R) (G.alternation i) (alternation s) ∧
    (ResRel R (SingleRel R) (G.singleExpression i n).1 (singleExpression s n).1 ∧
      (G.singleExpression i n).2 = (singleExpression s n).2) ∧
    ResRel R (ExpressionRel R) (G.expression i) (expression s) :=
  ⟨rel_parameter hR i s n h, rel_optional hR i s h, rel_alternative hR i s h, rel_alternation hR i s h,
    rel_singleExpression hR i s n h, rel_expression hR i s h⟩

/-! ## Spans -/

theorem optRel_eq {α : Type} (x : Option α) : OptRel Eq x x := by
  cases x with
  | none => exact .none
  | some a => exact .some _ _ rfl

/-- Spans behave like spans. -/
theorem alike_span : Alike (Eq : Span → Span → Prop) where
  elements := by rintro i s rfl; rfl
  inputLen := by rintro i s rfl; rfl
  take := by rintro i s n rfl; exact optRel_eq _
  takeFrom := by rintro i s n rfl; exact optRel_eq _
  takeSplit := by
    rintro i s n rfl
    show OptRel _ (i.takeSplit n) (i.takeSplit n)
    cases i.takeSplit n with
    | none => exact .none
    | some a => exact .some _ _ ⟨rfl, rfl⟩
  position := by rintro i s q rfl; rfl
  sliceIndex := by rintro i s n rfl; rfl
  offsetTo := by rintro i s i' s' rfl rfl; rfl
  compare := by rintro i s t rfl; rfl

/-- C63: the generic parser at `Spanned` is the parser of the other properties. -/
theorem C63_spanned (s : Span) : ResRel Eq (ExpressionRel Eq) (G.expression s) (expression s) :=
  rel_expression alike_span s s rfl

/-! ## Plain strings -/

/-- A slice of a `&str` which starts at `base`, and the corresponding span. -/
def AtAddress (base : Nat) (i : G.Str) (s : Span) : Prop := i.addr = base + s.offset ∧ i.text = s.frag

/-- Slices of a `&str` behave like spans. -/
theorem alike_str (base : Nat) : Alike (AtAddress base) where
  elements i s h := h.2
  inputLen i s h := by show blen i.text = _; rw [h.2]; rfl
  take i s n h := by
    show OptRel _ ((splitBytes n i.text).map _) (s.take n)
    rw [h.2]
    unfold Span.take
    rcases splitBytes n s.frag with _ | ⟨a, b⟩
    · exact .none
    · exact .some _ _ ⟨h.1, rfl⟩
  takeFrom i s n h := by
    show OptRel _ ((splitBytes n i.text).map _) (s.takeFrom n)
    rw [h.2]
    unfold Span.takeFrom
    rcases splitBytes n s.frag with _ | ⟨a, b⟩
    · exact .none
    · exact .some _ _ ⟨by show i.addr + n = base + (s.offset + n); rw [h.1]; omega, rfl⟩
  takeSplit i s n h := by
    show OptRel _ ((splitBytes n i.text).map _) (s.takeSplit n)
    rw [h.2]
    unfold Span.takeSplit Span.takeFrom Span.take
    rcases splitBytes n s.frag with _ | ⟨a, b⟩
    · exact .none
    · exact .some _ _ ⟨⟨by show i.addr + n = base + (s.offset + n); rw [h.1]; omega, rfl⟩, h.1, rfl⟩
  position i s q h := by show Span.positionL q i.text = _; rw [h.2]; rfl
  sliceIndex i s n h := by show Span.sliceIndexL n i.text = _; rw [h.2]; rfl
  offsetTo i s i' s' h h' := by
    show (if i.addr ≤ i'.addr then some (i'.addr - i.addr) else none) = s.offsetTo s'
    unfold Span.offsetTo
    rw [h.1, h'.1]
    by_cases hle : s.offset ≤ s'.offset
    · rw [if_pos (by omega), if_pos hle]; congr 1; omega
    · rw [if_neg (by omega), if_neg hle]
  compare i s t h := by show t.isPrefixOf i.text = _; rw [h.2]

/-- C63: on a plain `&str`, wherever it is in memory, the parser builds the same tree from the same texts with the same
ids, or fails with the same error at the same place, as on a `Spanned` with this text. -/
theorem C63_str (addr : Nat) (t : List Char) :
    ResRel (AtAddress addr) (ExpressionRel (AtAddress addr)) (G.expression (⟨addr, t⟩ : G.Str)) (expression (Span.new t)) :=
  rel_expression (alike_str addr) _ _ ⟨rfl, rfl⟩

/-- C63: in particular the address is irrelevant for whether and how far an expression is read. -/
theorem C63_str_ok (addr : Nat) (t : List Char) (rest : List Char) :
    (∃ a e, G.expression (⟨addr, t⟩ : G.Str) = .ok (⟨a, rest⟩, e)) ↔
      ∃ o l e, expression (Span.new t) = .ok (⟨o, l, rest⟩, e) := by
  have h := C63_str addr t
  generalize G.expression (⟨addr, t⟩ : G.Str) = x at *
  generalize expression (Span.new t) = y at *
  cases h with
  | error e e' h => simp
  | ok r r' a a' hr ha =>
    obtain ⟨ra, rt⟩ := r
    obtain ⟨o, l, f⟩ := r'
    have : rt = f := hr.2
    subst this
    constructor
    · rintro ⟨b, e, h⟩; cases h; exact ⟨_, _, _, rfl⟩
    · rintro ⟨b, c, e, h⟩; cases h; exact ⟨_, _, rfl⟩

/-! ## Spans with extra data -/

/-- A span with extra data, and the span. -/
def WithExtra {X : Type} (x : X) (i : G.Located X) (s : Span) : Prop := i = ⟨s, x⟩

/-- Spans with extra data behave like spans. -/
theorem alike_located {X : Type} (x : X) : Alike (WithExtra x) where
  elements := by rintro i s rfl; rfl
  inputLen := by rintro i s rfl; rfl
  take := by
    rintro i s n rfl
    show OptRel _ ((s.take n).map _) (s.take n)
    cases s.take n with
    | none => exact .none
    | some a => exact .some _ _ rfl
  takeFrom := by
    rintro i s n rfl
    show OptRel _ ((s.takeFrom n).map _) (s.takeFrom n)
    cases s.takeFrom n with
    | none => exact .none
    | some a => exact .some _ _ rfl
  takeSplit := by
    rintro i s n rfl
    show OptRel _ ((s.takeSplit n).map _) (s.takeSplit n)
    cases s.takeSplit n with
    | none => exact .none
    | some a => exact .some _ _ ⟨rfl, rfl⟩
  position := by rintro i s q rfl; rfl
  sliceIndex := by rintro i s n rfl; rfl
  offsetTo := by rintro i s i' s' rfl rfl; rfl
  compare := by rintro i s t rfl; rfl

/-- C63: extra data attached to the input is attached to every span of the result and of the error, and changes nothing
else. -/
theorem C63_extra {X : Type} (x : X) (s : Span) :
    ResRel (WithExtra x) (ExpressionRel (WithExtra x)) (G.expression (⟨s, x⟩ : G.Located X)) (expression s) :=
  rel_expression (alike_located x) _ _ rfl

/-! ## Examples -/

/-- A string in the middle of a program's memory. -/
example : G.expression (⟨4096, "é {b}c/d(e)".toList⟩ : G.Str) = .ok (⟨4108, []⟩,
    [.text ⟨4096, ['é']⟩, .whitespaces ⟨4098, [' ']⟩, .parameter ⟨⟨4100, ['b']⟩, 0⟩,
     .alternation [[.text ⟨4102, ['c']⟩], [.text ⟨4104, ['d']⟩, .optional ⟨⟨4106, ['e']⟩⟩]]]) := rfl

/-- Extra data comes back with every part. -/
example : G.expression (⟨Span.new "a b".toList, 7⟩ : G.Located Nat) = .ok (⟨⟨3, 1, []⟩, 7⟩,
    [.text ⟨⟨0, 1, ['a']⟩, 7⟩, .whitespaces ⟨⟨1, 1, [' ']⟩, 7⟩, .text ⟨⟨2, 1, ['b']⟩, 7⟩]) := rfl

/-- ... and with an error. -/
example : G.expression (⟨Span.new "a (".toList, 7⟩ : G.Located Nat) =
    .error (.failure (.unfinishedOptional ⟨⟨2, 1, ['(']⟩, 7⟩)) := rfl

end CE
