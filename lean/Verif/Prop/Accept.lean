import Verif.Proof.Locate
import Verif.Proof.Grammar

/-! # Properties of accepted expressions: C01-C06, C09-C11, C44 -/

namespace CE
open Spec

/-! ## C01 -/

/-- C01: writing out the AST gives back the source. -/
theorem C01_lossless (src : List Char) (x : Expression) (h : Expression.parse src = .ok x) : print x = src := by
  obtain ⟨es, -, h2, rfl⟩ := (parse_ok_iff src x).1 h
  rw [print_locate, h2]

/-- Non-vacuity: an accepted expression with every kind of element. -/
example : Expression.parse "é\\/(s) a(b)/c {int}".toList = .ok
    [.text ⟨0, 1, "é\\/".toList⟩, .optional ⟨⟨5, 1, "s".toList⟩⟩, .whitespaces ⟨7, 1, " ".toList⟩,
     .alternation [[.text ⟨8, 1, "a".toList⟩, .optional ⟨⟨10, 1, "b".toList⟩⟩], [.text ⟨13, 1, "c".toList⟩]],
     .whitespaces ⟨14, 1, " ".toList⟩, .parameter ⟨⟨16, 1, "int".toList⟩, 0⟩] := by decide

/-! ## C02 -/

/-- C02: every span of the AST is a slice of the source at its byte offset, on its line. -/
theorem C02_spans_located (src : List Char) (x : Expression) (h : Expression.parse src = .ok x) :
    ∀ sp ∈ spans x, LocatedIn src sp := by
  obtain ⟨es, -, h2, rfl⟩ := (parse_ok_iff src x).1 h
  intro sp hsp
  have := spans_at (Span.new src) [] 0 es [] sp hsp
  simp only [List.nil_append, List.append_nil, h2] at this
  exact at_new this

/-- Byte lengths of the model are those of Lean's own UTF-8 strings. -/
theorem blen_eq_utf8 (cs : List Char) : blen cs = (String.ofList cs).utf8ByteSize := by
  induction cs with
  | nil => rfl
  | cons c cs ih =>
    have h1 := String.utf8ByteSize_singleton (c := c)
    simp only [← String.size_toByteArray, String.toByteArray_singleton, String.toByteArray_ofList] at h1 ih ⊢
    rw [List.utf8Encode_cons, ByteArray.size_append, h1, blen_cons, ih]

/-- Non-vacuity: offsets count bytes and lines count newlines. -/
example : ∃ x, Expression.parse "🦀\n{}(o)".toList = .ok x ∧
    spans x = [⟨0, 1, "🦀\n".toList⟩, ⟨6, 2, []⟩, ⟨8, 2, "o".toList⟩] := ⟨_, rfl, by decide⟩

/-! ## C03 -/

/-- C03: parameter ids are `0, 1, 2, ...` in source order. -/
theorem C03_ids (src : List Char) (x : Expression) (h : Expression.parse src = .ok x) :
    ids x = List.range (ids x).length := by
  obtain ⟨es, -, -, rfl⟩ := (parse_ok_iff src x).1 h
  rw [ids_locate]
  simp [List.range_eq_range']

example : ∃ x, Expression.parse "{a} {b}{c}".toList = .ok x ∧ ids x = [0, 1, 2] := ⟨_, rfl, by decide⟩

/-! ## C04, C05 -/

/-- C05: exactly the relaxed grammar is accepted. -/
theorem C05_accepts_iff_relaxed (src : List Char) :
    (∃ x, Expression.parse src = .ok x) ↔ Grammar.Relaxed.expression src := by
  constructor
  · rintro ⟨x, h⟩
    obtain ⟨es, h1, rfl, -⟩ := (parse_ok_iff src x).1 h
    exact relaxed_of_canonical h1
  · intro h
    obtain ⟨es, h1, h2⟩ := canonical_of_relaxed h
    exact ⟨_, (parse_ok_iff src _).2 ⟨es, h1, h2, rfl⟩⟩

/-- C04: every string of the README grammar is accepted. -/
theorem C04_readme_accepted (src : List Char) (h : Grammar.Readme.expression src) :
    ∃ x, Expression.parse src = .ok x := (C05_accepts_iff_relaxed src).2 (readme_relaxed h)

/-- C05: the relaxation is real. -/
theorem C05_strict : ∃ src, (∃ x, Expression.parse src = .ok x) ∧ ¬ Grammar.Readme.expression src :=
  ⟨"\\)".toList, ⟨[.text ⟨0, 1, "\\)".toList⟩], by decide⟩, not_readme_escaped_paren []⟩

/-- Non-vacuity of C04: `a(b)/c` is derivable in the README grammar. -/
example : Grammar.Readme.expression "a(b)/c".toList := by
  have ch : ∀ c : Char, c ∉ Grammar.alternativeToEscape → Grammar.plus Grammar.Readme.textInAlternative [c] :=
    fun c hc => ⟨[c], [], rfl, .inl ⟨c, rfl, hc⟩, .nil⟩
  have ho : Grammar.Readme.optional "(b)".toList :=
    ⟨['('], "b)".toList, rfl, rfl, ['b'], [')'], rfl, ⟨['b'], [], rfl, .inl ⟨'b', rfl, by decide⟩, .nil⟩, rfl⟩
  have h1 : Grammar.Readme.singleAlternation "a(b)".toList :=
    ⟨"a(b)".toList, [], rfl, .inl ⟨['a'], "(b)".toList, rfl, ch 'a' (by decide), .cons _ [] ho .nil⟩, .nil⟩
  have h2 : Grammar.Readme.singleAlternation ['c'] :=
    ⟨['c'], [], rfl, .inl ⟨['c'], [], rfl, ch 'c' (by decide), .nil⟩, .nil⟩
  exact .cons "a(b)/c".toList [] (.inl ⟨"a(b)".toList, "/c".toList, rfl, h1, "/c".toList, [], rfl,
    ⟨['/'], ['c'], rfl, rfl, h2⟩, .nil⟩) .nil

/-! ## C06 -/

/-- C06: every canonical tree, written down, is parsed back to itself. -/
theorem C06_print_then_parse (es : List Elem) (h : Canonical es) :
    ∃ x, Expression.parse (render es) = .ok x ∧ erase x = es :=
  ⟨_, (parse_ok_iff _ _).2 ⟨es, h, rfl, rfl⟩, erase_locate _ _ _ _⟩

/-- C06: every AST returned is canonical and is determined by its plain tree, whose rendering is the source. -/
theorem C06_parse_then_print (src : List Char) (x : Expression) (h : Expression.parse src = .ok x) :
    Canonical (erase x) ∧ render (erase x) = src ∧ x = locate (Span.new src) [] 0 (erase x) := by
  obtain ⟨es, h1, h2, rfl⟩ := (parse_ok_iff src x).1 h
  rw [erase_locate]
  exact ⟨h1, h2, rfl⟩

/-- C06: the concrete syntax is unambiguous. -/
theorem C06_unambiguous (es es' : List Elem) (h : Canonical es) (h' : Canonical es') (hr : render es = render es') :
    es = es' := by
  obtain ⟨x, h1, rfl⟩ := C06_print_then_parse es h
  obtain ⟨x', h2, rfl⟩ := C06_print_then_parse es' h'
  rw [hr, h2] at h1
  simp only [Outcome.ok.injEq] at h1
  rw [h1]

/-- C06: printing the AST and parsing again gives the very same AST. -/
theorem C06_reparse (src : List Char) (x : Expression) (h : Expression.parse src = .ok x) :
    Expression.parse (print x) = .ok x := by rw [C01_lossless src x h, h]

/-- Non-vacuity: a canonical tree. -/
example : Canonical [.text "a".toList, .opt "b c".toList, .ws " ".toList, .alt [[.text "x".toList], [.opt "y".toList,
    .text "z".toList]], .param []] := by
  have h : ∃ x, Expression.parse "a(b c) x/(y)z{}".toList = .ok x ∧ erase x = [.text "a".toList, .opt "b c".toList,
    .ws " ".toList, .alt [[.text "x".toList], [.opt "y".toList, .text "z".toList]], .param []] := ⟨_, rfl, by decide⟩
  obtain ⟨x, h1, h2⟩ := h
  rw [← h2]; exact (C06_parse_then_print _ x h1).1

/-! ## C09 -/

/-- C09, for parts of alternations. -/
def wfAlternative : Alternative → Prop
  | .text s => s.frag ≠ [] ∧ Escd [' ', '(', '{', '/'] s.frag
  | .optional o => o.input.frag ≠ [] ∧ Escd ['(', ')', '{', '/'] o.input.frag

/-- C09, for elements. -/
def wfSingle : SingleExpression → Prop
  | .text s => s.frag ≠ [] ∧ Escd [' ', '(', '{', '/'] s.frag
  | .whitespaces s => s.frag ≠ [] ∧ ∀ c ∈ s.frag, c = ' '
  | .optional o => o.input.frag ≠ [] ∧ Escd ['(', ')', '{', '/'] o.input.frag
  | .parameter p => Escd ['{', '}', '(', '/'] p.input.frag
  | .alternation a => ∀ b ∈ a, ∀ q ∈ b, wfAlternative q

/-- C09: elements of a parsed AST are well formed. -/
theorem C09_wellFormed (src : List Char) (x : Expression) (h : Expression.parse src = .ok x) :
    ∀ e ∈ x, wfSingle e := by
  have hc := (C06_parse_then_print src x h).1
  intro e he
  have hv := hc.1 (eraseSingle e) (by unfold erase; exact List.mem_map_of_mem he)
  cases e with
  | alternation a =>
    intro b hb q hq
    have := (hv.2 (b.map erasePiece) (List.mem_map_of_mem (f := (·.map erasePiece)) hb)).1.1
      (erasePiece q) (List.mem_map_of_mem hq)
    cases q <;> exact this
  | _ => exact hv

/-- What well-escaped means, spelled out on occurrences: read from the left in units of characters and escapes, every
unit is a plain character which is no stop character, or a backslash followed by a reserved character. -/
theorem C09_escd_occurrence {stops : List Char} (a : List Char) (c : Char) (b : List Char)
    (h : Escd stops (a ++ c :: b)) (ha : Escd stops a) :
    (c ≠ '\\' ∧ c ∉ stops) ∨ (c = '\\' ∧ ∃ d r, b = d :: r ∧ d ∈ reserved) := by
  induction ha with
  | nil =>
    generalize hl : [] ++ c :: b = l at h
    cases h with
    | nil => simp at hl
    | char _ _ hc hs _ => simp at hl; obtain ⟨rfl, rfl⟩ := hl; exact .inl ⟨hc, hs⟩
    | esc d cs hd _ => simp at hl; obtain ⟨rfl, rfl⟩ := hl; exact .inr ⟨rfl, d, cs, rfl, hd⟩
  | char x xs hx hxs _ ih =>
    generalize hl : x :: xs ++ c :: b = l at h
    cases h with
    | nil => simp at hl
    | char _ _ _ _ h => simp at hl; obtain ⟨rfl, rfl⟩ := hl; exact ih h
    | esc d cs hd h => simp at hl; exact absurd hl.1 hx
  | esc d cs hd _ ih =>
    generalize hl : '\\' :: d :: cs ++ c :: b = l at h
    cases h with
    | nil => simp at hl
    | char _ _ hx _ h => simp at hl; exact absurd hl.1.symm hx
    | esc d' cs' hd' h =>
      simp only [List.cons_append, List.cons.injEq, true_and] at hl
      obtain ⟨rfl, rfl⟩ := hl
      exact ih h

/-! ## C10 -/

/-- An element of kind text. -/
def isText : SingleExpression → Prop | .text _ => True | _ => False
def isWs : SingleExpression → Prop | .whitespaces _ => True | _ => False
def isAlternation : SingleExpression → Prop | .alternation _ => True | _ => False
def isParam : SingleExpression → Prop | .parameter _ => True | _ => False

theorem noAdj_split {α : Type} {bad : α → α → Prop} {l r : List α} {a b : α} (h : NoAdj bad (l ++ a :: b :: r)) :
    ¬ bad a b := by
  induction l with
  | nil => exact h.1
  | cons c l ih => exact ih (noAdj_tail (by simpa using h))

/-- C10: maximal munch. -/
theorem C10_adjacency (src : List Char) (x : Expression) (h : Expression.parse src = .ok x)
    (l r : Expression) (a b : SingleExpression) (hx : x = l ++ a :: b :: r) :
    ¬ (isText a ∧ isText b) ∧ ¬ (isWs a ∧ isWs b) ∧
    (isAlternation a → isWs b ∨ isParam b) ∧ (isAlternation b → isWs a ∨ isParam a) := by
  have hc := (C06_parse_then_print src x h).1.2
  subst hx
  unfold erase at hc
  simp only [List.map_append, List.map_cons] at hc
  have := noAdj_split hc
  cases a <;> cases b <;> simp_all [eraseSingle, Elem.Bad, isText, isWs, isAlternation, isParam]

example : ∃ x, Expression.parse "a/b {c}d/e".toList = .ok x ∧ ∃ p q r s t, x = [.alternation p, .whitespaces q,
    .parameter r, .alternation s] ++ t := ⟨_, rfl, _, _, _, _, [], rfl⟩

/-! ## C11 -/

/-- C11: alternations are never degenerate. -/
theorem C11_alternations (src : List Char) (x : Expression) (h : Expression.parse src = .ok x) (a : Alternation)
    (ha : .alternation a ∈ x) :
    2 ≤ a.length ∧ ∀ b ∈ a, (∃ s, .text s ∈ b) ∧ (∀ q ∈ b, wfAlternative q) ∧
      ∀ l s s' r, b ≠ l ++ .text s :: .text s' :: r := by
  have hv := (C06_parse_then_print src x h).1.1 _ (List.mem_map_of_mem (f := eraseSingle) ha)
  refine ⟨by simpa using hv.1, ?_⟩
  intro b hb
  have hb' := hv.2 (b.map erasePiece) (List.mem_map_of_mem (f := (·.map erasePiece)) hb)
  refine ⟨?_, C09_wellFormed src x h _ ha b hb, ?_⟩
  · have := hb'.2
    simp only [List.any_map, List.any_eq_true, Function.comp] at this
    obtain ⟨q, hq, ht⟩ := this
    cases q with
    | optional o => simp [erasePiece, Piece.isText] at ht
    | text s => exact ⟨s, hq⟩
  · rintro l s s' r rfl
    have := hb'.1.2
    simp only [List.map_append, List.map_cons] at this
    exact noAdj_split this ⟨rfl, rfl⟩

/-! ## C44 -/

/-- C44: the spans of an AST are pairwise disjoint and in source order. -/
theorem C44_spans_ordered (src : List Char) (x : Expression) (h : Expression.parse src = .ok x) :
    (spans x).Pairwise (fun a b => a.offset + blen a.frag ≤ b.offset) := by
  obtain ⟨es, -, -, rfl⟩ := (parse_ok_iff src x).1 h
  exact (spans_range (Span.new src) [] 0 es).2

end CE
