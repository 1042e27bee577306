import Verif.Prop.Escape
import Verif.Spec.Shift

/-! # Location independence (C20) and composition (C21) -/

namespace CE
open Spec

variable (o l : Nat)

theorem Span.sub_shift (s : Span) (p f : List Char) : (s.shift o l).sub p f = (s.sub p f).shift o l := by
  simp [Span.shift, Span.sub]; omega

@[simp] theorem Span.shift_frag (s : Span) : (s.shift o l).frag = s.frag := rfl

theorem escapeFailure_shift {s : Span} {pre t rest : List Char} {e : PErr} (h : EscapeFailure s pre t rest e) :
    EscapeFailure (s.shift o l) pre t rest (e.shift o l) := by
  cases h with
  | nonReserved d v h => simpa only [PErr.shift, ← Span.sub_shift] using EscapeFailure.nonReserved d v h
  | endOfLine h ht => simpa only [PErr.shift, ← Span.sub_shift] using EscapeFailure.endOfLine h ht
  | endOfLineAfterText h ht => simpa only [PErr.shift, ← Span.sub_shift] using EscapeFailure.endOfLineAfterText h ht

theorem optionalFailure_shift {s : Span} {t rest : List Char} {e : PErr} (h : OptionalFailure s t rest e) :
    OptionalFailure (s.shift o l) t rest (e.shift o l) := by
  cases h with
  | empty v h ht => simpa only [PErr.shift, ← Span.sub_shift] using OptionalFailure.empty v h ht
  | alternation v h => simpa only [PErr.shift, ← Span.sub_shift] using OptionalFailure.alternation v h
  | nested t' v h h' => simpa only [PErr.shift, ← Span.sub_shift] using OptionalFailure.nested t' v h h'
  | unescapedParen v h h' => simpa only [PErr.shift, ← Span.sub_shift] using OptionalFailure.unescapedParen v h h'
  | parameter t' v h => simpa only [PErr.shift, ← Span.sub_shift] using OptionalFailure.parameter t' v h
  | unescapedBrace v h h' => simpa only [PErr.shift, ← Span.sub_shift] using OptionalFailure.unescapedBrace v h h'
  | unfinished h => simpa only [PErr.shift, ← Span.sub_shift] using OptionalFailure.unfinished h
  | escape e h => exact .escape _ (escapeFailure_shift o l h)

theorem parameterFailure_shift {s : Span} {t rest : List Char} {e : PErr} (h : ParameterFailure s t rest e) :
    ParameterFailure (s.shift o l) t rest (e.shift o l) := by
  cases h with
  | nested t' v h h' => simpa only [PErr.shift, ← Span.sub_shift] using ParameterFailure.nested t' v h h'
  | unescapedBrace v h h' => simpa only [PErr.shift, ← Span.sub_shift] using ParameterFailure.unescapedBrace v h h'
  | optional t' v h => simpa only [PErr.shift, ← Span.sub_shift] using ParameterFailure.optional t' v h
  | unescapedParen v h h' => simpa only [PErr.shift, ← Span.sub_shift] using ParameterFailure.unescapedParen v h h'
  | unescapedSlash v h => simpa only [PErr.shift, ← Span.sub_shift] using ParameterFailure.unescapedSlash v h
  | unfinished h => simpa only [PErr.shift, ← Span.sub_shift] using ParameterFailure.unfinished h
  | escape e h => exact .escape _ (escapeFailure_shift o l h)

/-! ## C20 -/

/-- C20 for `optional`. -/
theorem C20_optional (s : Span) :
    optional (s.shift o l) = (optional s).shift o l (Optional.shift o l) := by
  rw [C13_optional]
  have h := (C13_optional s _).1 rfl
  generalize optional s = res at h
  cases h with
  | notOptional h => exact .notOptional h
  | ok t v h => simpa only [IRes.shift, Optional.shift, ← Span.sub_shift] using OptionalOutcome.ok (s := s.shift o l) t v h
  | failure r t rest e hs hr he => exact .failure r t rest _ hs hr (optionalFailure_shift o l he)

/-- C20 for `parameter`, at every indexer. -/
theorem C20_parameter (s : Span) (n : Nat) :
    parameter (s.shift o l) n = ((parameter s n).1.shift o l (Parameter.shift o l 0), (parameter s n).2) := by
  rw [C14_parameter]
  have h := (C14_parameter s n _).1 rfl
  generalize parameter s n = res at h
  cases h with
  | notParameter h => exact .notParameter h
  | ok t v h => simpa only [IRes.shift, Parameter.shift, Nat.add_zero, ← Span.sub_shift] using ParameterOutcome.ok (s := s.shift o l) (n := n) t v h
  | failure r t rest e hs hr he => exact .failure r t rest _ hs hr (parameterFailure_shift o l he)

/-- C20 for `alternative`. -/
theorem C20_alternative (s : Span) :
    alternative (s.shift o l) = (alternative s).shift o l (Alternative.shift o l) := by
  rw [C17_alternative]
  have h := (C17_alternative s _).1 rfl
  generalize alternative s = res at h
  cases h with
  | optional r x hh h =>
    refine .optional _ _ hh ?_
    rw [← C13_optional, C20_optional, (C13_optional _ _).2 h]
    rfl
  | optionalFailure e h =>
    refine .optionalFailure _ ?_
    rw [← C13_optional, C20_optional, (C13_optional _ _).2 h]
    rfl
  | text t rest hh hr ht hb =>
    simpa only [IRes.shift, Alternative.shift, ← Span.sub_shift] using
      AlternativeOutcome.text (s := s.shift o l) t rest hh hr ht hb
  | textFailure t rest e hh hr he => exact .textFailure t rest _ hh hr (escapeFailure_shift o l he)
  | none h => exact .none h

theorem locatePieces_shift (s : Span) (pre) (b : List Piece) :
    locatePieces (s.shift o l) pre b = (locatePieces s pre b).map (Alternative.shift o l) := by
  induction b generalizing pre with
  | nil => rfl
  | cons q b ih => cases q <;> simp [locatePieces, ih, Piece.locate, Alternative.shift, Optional.shift, Span.sub_shift]

theorem locateBranches_shift (s : Span) (pre) (bs : List (List Piece)) :
    locateBranches (s.shift o l) pre bs = Alternation.shift o l (locateBranches s pre bs) := by
  induction bs generalizing pre with
  | nil => rfl
  | cons b bs ih =>
    simp only [locateBranches, ih, locatePieces_shift]
    rfl

theorem alternationFailure_shift {s : Span} {e : PErr} (h : AlternationFailure s e) :
    AlternationFailure (s.shift o l) (e.shift o l) := by
  cases h with
  | emptyFirst r h => simpa only [PErr.shift, ← Span.sub_shift] using AlternationFailure.emptyFirst (s := s.shift o l) r h
  | emptyLater bs r hne hb hs hr =>
    simpa only [PErr.shift, ← Span.sub_shift] using AlternationFailure.emptyLater (s := s.shift o l) bs r hne hb hs hr
  | onlyOptional bs rest hl hb hs hr ho =>
    simpa only [PErr.shift, ← Span.sub_shift] using
      AlternationFailure.onlyOptional (s := s.shift o l) bs rest hl hb hs hr ho
  | piece bs b v e hb hv hs hlast he =>
    refine .piece bs b v _ hb hv hs hlast ?_
    rw [Span.sub_shift, ← C17_alternative, C20_alternative, (C17_alternative _ _).2 he]
    rfl

/-- C20 for `alternation`. -/
theorem C20_alternation (s : Span) :
    alternation (s.shift o l) = (alternation s).shift o l (Alternation.shift o l) := by
  have fail : ∀ e, alternation s = .error (.failure e) →
      alternation (s.shift o l) = (alternation s).shift o l (Alternation.shift o l) := by
    intro e he
    rw [he]
    exact (C15_alternation_failure _ _).2 (alternationFailure_shift o l ((C15_alternation_failure _ _).1 he))
  cases altCase s with
  | noBranchSlash r h => exact fail _ (alternation_no_branch_slash s r h)
  | failFirst b v e h hn hf => exact fail _ (alternation_fail_first s h hn hf)
  | failLater bs r b v e h hb hn he => exact fail _ (alternation_fail_later s h hb hn he)
  | empty bs r h hr => exact fail _ (alternation_empty s h hr)
  | noBranch h hs =>
    rw [alternation_no_branch s h hs, alternation_no_branch (s.shift o l) h hs]
    rfl
  | full bs rest h hr =>
    rw [alternation_ok s h hr, alternation_ok (s.shift o l) h hr]
    split
    · simp [IRes.shift, Err.shift, PErr.shift, Span.sub_shift]
    · split
      · simp [IRes.shift, Err.shift, PErr.shift, Span.sub_shift]
      · simp [IRes.shift, Span.sub_shift, locateBranches_shift]

theorem locateElem_shift (s : Span) (pre n) (e : Elem) :
    e.locate (s.shift o l) pre n = (e.locate s pre n).shift o l 0 := by
  cases e with
  | alt bs => simp [Elem.locate, SingleExpression.shift, locateBranches_shift]
  | _ => simp [Elem.locate, SingleExpression.shift, Optional.shift, Parameter.shift, Span.sub_shift]

/-- C20 for `single_expression`, at every indexer. -/
theorem C20_single (s : Span) (n : Nat) : singleExpression (s.shift o l) n =
    ((singleExpression s n).1.shift o l (SingleExpression.shift o l 0), (singleExpression s n).2) := by
  rcases singleCase s with h | ⟨e, v, h⟩ | ⟨e, h⟩
  · rw [single_nil s h, single_nil (s.shift o l) h]
    rfl
  · rw [single_ok s h n, single_ok (s.shift o l) h n]
    simp [IRes.shift, Span.sub_shift, locateElem_shift]
  · rw [single_fail s h n, single_fail (s.shift o l) (e := e.shift o l) ?_ n]
    · rfl
    · cases h with
      | alternation h => exact .alternation (by rw [C20_alternation, h]; rfl)
      | parameter h hh => exact .parameter (by rw [C20_parameter, h]; rfl) hh

theorem locate_shift (s : Span) (pre n k) (es : List Elem) :
    locate (s.shift o l) pre (n + k) es = Expression.shift o l k (locate s pre n es) := by
  induction es generalizing pre n with
  | nil => rfl
  | cons e es ih =>
    have := ih (pre ++ e.render) (n + e.params)
    unfold Expression.shift at this ⊢
    simp only [locate, List.map_cons]
    rw [← this, show n + k + e.params = n + e.params + k by omega]
    congr 1
    cases e with
    | alt bs => simp [Elem.locate, SingleExpression.shift, locateBranches_shift]
    | _ => simp [Elem.locate, SingleExpression.shift, Optional.shift, Parameter.shift, Span.sub_shift]

/-- C20 for `expression`: parsing at another place gives the same result, moved there. -/
theorem C20_expression (s : Span) :
    expression (s.shift o l) = (expression s).shift o l (Expression.shift o l 0) := by
  rcases expression_cases s with ⟨es, h1, h2, h3⟩ | ⟨es, rest, e, h1, h2, h3⟩
  · rw [h3, (expression_ok_iff (s.shift o l) _ _).2 ⟨es, h1, h2, rfl, rfl⟩]
    have := locate_shift o l s [] 0 0 es
    simp only [Nat.add_zero] at this
    simp [IRes.shift, Span.sub_shift, this]
  · rw [h3, expression_fail (s.shift o l) (e := e.shift o l) h1 ?_]
    · rfl
    · rw [Span.sub_shift]
      generalize s.sub (render es) rest = s' at h2
      cases h2 with
      | alternation h => exact .alternation (by rw [C20_alternation, h]; rfl)
      | parameter h hh => exact .parameter (by rw [C20_parameter, h]; rfl) hh

/-- Non-vacuity: parsing starting at byte 10 of line 3. -/
example : expression ((Span.new "a {b}".toList).shift 10 2) = .ok (⟨15, 3, []⟩,
    [.text ⟨10, 3, "a".toList⟩, .whitespaces ⟨11, 3, " ".toList⟩, .parameter ⟨⟨13, 3, "b".toList⟩, 0⟩]) := rfl

/-! ## C21 -/

theorem locate_append (s : Span) (pre n) (a b : List Elem) :
    locate s pre n (a ++ b) = locate s pre n a ++ locate s (pre ++ render a) (n + nParams a) b := by
  induction a generalizing pre n with
  | nil => simp [locate, nParams]
  | cons e a ih => simp [locate, ih, render_cons, nParams, Nat.add_assoc]

theorem noAdj_append {α : Type} {bad : α → α → Prop} {a b : List α} (ha : NoAdj bad a) (hb : NoAdj bad b)
    (h : ∀ x y, a.getLast? = some x → b.head? = some y → ¬ bad x y) : NoAdj bad (a ++ b) := by
  induction a with
  | nil => exact hb
  | cons x a ih =>
    cases a with
    | nil =>
      cases b with
      | nil => trivial
      | cons y b => exact ⟨h x y rfl rfl, hb⟩
    | cons x' a => exact ⟨ha.1, ih ha.2 (fun u v hu hv => h u v (by rw [List.getLast?_cons_cons]; exact hu) hv)⟩

theorem canonical_append {a b : List Elem} (ha : Canonical a) (hb : Canonical b)
    (h : ∀ x y, a.getLast? = some x → b.head? = some y → ¬ Elem.Bad x y) : Canonical (a ++ b) :=
  ⟨fun e he => (List.mem_append.1 he).elim (ha.1 e) (hb.1 e), noAdj_append ha.2 hb.2 h⟩

/-- Whether an AST element is whitespace. -/
def isWsElem : SingleExpression → Bool
  | .whitespaces _ => true
  | _ => false

theorem eraseSingle_ws {e : SingleExpression} : (∃ t, eraseSingle e = .ws t) ↔ isWsElem e = true := by
  cases e <;> simp [eraseSingle, isWsElem]

theorem new_sub_shift (src b pre : List Char) (p f : List Char) :
    (Span.new src).sub (pre ++ p) f = ((Span.new b).sub p f).shift (blen pre) (pre.count '\n') := by
  simp [Span.shift, Span.sub, Span.new, nlCount_eq_count]; omega

theorem locate_new_shift (src b pre : List Char) (n : Nat) (es : List Elem) :
    locate (Span.new src) pre n es =
      Expression.shift (blen pre) (pre.count '\n') n (locate (Span.new b) [] 0 es) := by
  rw [← locate_shift]
  have h1 := locate_sub' (Span.new src) pre [] es [] n
  rw [List.append_nil] at h1
  rw [← h1, Nat.zero_add]
  have h2 := locate_sub' ((Span.new b).shift (blen pre) (pre.count '\n')) [] [] es [] n
  simp only [List.append_nil] at h2
  rw [← h2]
  congr 1
  simp [Span.shift, Span.sub, Span.new, nlCount_eq_count, Nat.add_comm]

/-- C21: two accepted expressions, joined by spaces, are accepted, and the AST is that of the first, the whitespace, and
that of the second moved behind it and renumbered. -/
theorem C21_compose (a b : List Char) (x y : Expression) (k : Nat) (hk : 0 < k)
    (ha : Expression.parse a = .ok x) (hb : Expression.parse b = .ok y)
    (hx : ∀ e, x.getLast? = some e → isWsElem e = false) (hy : ∀ e, y.head? = some e → isWsElem e = false) :
    Expression.parse (a ++ List.replicate k ' ' ++ b) =
      .ok (x ++ .whitespaces ⟨blen a, 1 + a.count '\n', List.replicate k ' '⟩ ::
        Expression.shift (blen a + k) (a.count '\n') (ids x).length y) := by
  obtain ⟨ea, h1, rfl, rfl⟩ := (parse_ok_iff a x).1 ha
  obtain ⟨eb, h3, rfl, rfl⟩ := (parse_ok_iff b y).1 hb
  have hlast : ∀ t, ea.getLast? ≠ some (.ws t) := by
    intro t ht
    have he := erase_locate (Span.new (render ea)) [] 0 ea
    rw [← he] at ht
    unfold erase at ht
    rw [List.getLast?_map] at ht
    cases hl : (locate (Span.new (render ea)) [] 0 ea).getLast? with
    | none => rw [hl] at ht; simp at ht
    | some e =>
      rw [hl] at ht
      simp only [Option.map_some, Option.some.injEq] at ht
      have := eraseSingle_ws.1 ⟨t, ht⟩
      rw [hx e hl] at this; simp at this
  have hfirst : ∀ t, eb.head? ≠ some (.ws t) := by
    intro t ht
    have he := erase_locate (Span.new (render eb)) [] 0 eb
    rw [← he] at ht
    unfold erase at ht
    rw [List.head?_map] at ht
    cases hl : (locate (Span.new (render eb)) [] 0 eb).head? with
    | none => rw [hl] at ht; simp at ht
    | some e =>
      rw [hl] at ht
      simp only [Option.map_some, Option.some.injEq] at ht
      have := eraseSingle_ws.1 ⟨t, ht⟩
      rw [hy e hl] at this; simp at this
  have hws : Canonical [.ws (List.replicate k ' ')] := by
    refine ⟨?_, trivial⟩
    intro e he
    simp at he; subst he
    exact ⟨by simp; omega, by simp⟩
  have hcan : Canonical (ea ++ ([.ws (List.replicate k ' ')] ++ eb)) := by
    refine canonical_append h1 (canonical_append hws h3 ?_) ?_
    · intro u v hu hv
      simp at hu; subst hu
      cases v <;> simp [Elem.Bad]
      exact hfirst _ hv
    · intro u v hu hv
      simp at hv; subst hv
      cases u <;> simp [Elem.Bad]
      exact hlast _ hu
  refine (parse_ok_iff _ _).2 ⟨_, hcan, ?_, ?_⟩
  · simp [render_append, render_cons, Elem.render]
  · generalize hsrc : render ea ++ List.replicate k ' ' ++ render eb = src
    rw [locate_append, locate_new_shift src (render ea) [] 0 ea]
    congr 1
    · unfold Expression.shift
      conv => lhs; rw [← List.map_id (locate (Span.new (render ea)) [] 0 ea)]
      congr 1
      funext e
      cases e <;> simp [SingleExpression.shift, Span.shift, Optional.shift, Parameter.shift, Alternation.shift]
      next a =>
        have : (fun x => List.map (Alternative.shift 0 0) x) = id := by
          funext x
          have : Alternative.shift 0 0 = id := by
            funext q; cases q <;> simp [Alternative.shift, Span.shift, Optional.shift]
          simp [this]
        simp [this]
    · simp only [List.singleton_append, locate, Elem.locate, List.nil_append]
      congr 1
      · simp [Span.new, Span.sub, nlCount_eq_count]
      · rw [locate_new_shift src (render eb), ids_locate]
        simp only [Elem.params, Nat.zero_add, Nat.add_zero, List.length_range', blen_append, Elem.render,
          List.count_append]
        have h1 : blen (List.replicate k ' ') = k := by
          clear hsrc hws hcan hk
          induction k with
          | zero => rfl
          | succ k ih => rw [List.replicate_succ, blen_cons, ih]; simp; omega
        have h2 : List.count '\n' (List.replicate k ' ') = 0 := by simp [List.count_replicate]
        rw [h1, h2, Nat.add_zero]

/-- Non-vacuity. -/
example : Expression.parse ("é{a}".toList ++ List.replicate 2 ' ' ++ "{b}/c".toList) = Expression.parse "é{a}  {b}/c".toList := rfl
example : ∃ x y, Expression.parse "é{a}".toList = .ok x ∧ Expression.parse "{b} c".toList = .ok y ∧
    (∀ e, x.getLast? = some e → isWsElem e = false) ∧ (∀ e, y.head? = some e → isWsElem e = false) :=
  
  ⟨_, _, rfl, rfl, by intro e h; simp at h; subst h; rfl, by intro e h; simp at h; subst h; rfl⟩

end CE
