import Verif.Prop.Errors

/-! # Rejected expressions: C43, C12 -/

namespace CE
open Spec

/-! ## C43 -/

theorem noSlash_not_failure {s : Span} (h : NoSlash s.frag) (e : PErr) : alternation s ≠ .error (.failure e) := by
  intro he
  have := discipline_alternation s
  rw [he] at this
  exact this.2 h

/-- After a text, an optional or an alternation, `alternation` cannot fail irrecoverably. -/
theorem ElemOk.noSlash {cs e v} (h : ElemOk cs e v) (hw : ¬ ((∃ t, e = .ws t) ∨ (∃ t, e = .param t))) : NoSlash v := by
  rw [noSlash_iff]
  cases h with
  | alt bs v h hv hl ho => exact ⟨[], v, .nil _, h.valid.2.2, hv⟩
  | ws t => exact absurd (.inl ⟨t, rfl⟩) hw
  | param t => exact absurd (.inr ⟨t, rfl⟩) hw
  | piece q v b rest h hr hq =>
    obtain ⟨b1, bs1, w, hbb, h1, h2⟩ := h
    simp only [List.cons.injEq] at hbb
    obtain ⟨rfl, rfl⟩ := hbb
    cases h2
    obtain ⟨h3, h4, -⟩ := h1
    cases h3 with
    | cons _ _ v2 _ _ hp hre =>
      rw [hq] at hp
      simp only [Option.some.injEq, Prod.mk.injEq, true_and] at hp
      subst hp
      exact ⟨b, _, hre, h4, hr⟩

theorem readsElems_fresh {cs es rest} (h : ReadsElems cs es rest) (hn : ¬ NoSlash rest) : Fresh es := by
  induction h with
  | nil => intro e he; simp at he
  | cons cs e v es rest he hr ih =>
    cases hr with
    | nil =>
      intro e' he'
      simp at he'; subst he'
      apply Classical.byContradiction
      intro hc
      exact hn (he.noSlash hc)
    | cons _ e2 v2 es2 _ he2 hr2 =>
      intro e' he'
      rw [List.getLast?_cons_cons] at he'
      exact ih hn e' he'

theorem alternation_failure_head {s e} (h : alternation s = .error (.failure e)) : s.frag.head? ≠ some ' ' := by
  intro hh
  refine noSlash_not_failure (s := s) ?_ e h
  obtain ⟨r, hr⟩ := eq_cons_of_head? hh
  exact ⟨[], s.frag, ⟨by simp, trivial⟩, by simp [renderPieces], .inr ⟨' ', r, hr, .inl rfl⟩⟩

theorem fresh_bdry {es R} (h : Fresh es) (hR : R.head? ≠ some ' ') : Bdry es R := by
  intro e he
  rcases h e he with ⟨t, rfl⟩ | ⟨t, rfl⟩
  · exact hR
  · trivial

theorem brace_bdry {es : List Elem} {r} : Bdry es ('{' :: r) := by
  intro e _
  cases e <;> simp [Ends, endsBranch]

/-- C43: exactly which inputs are rejected, and with which error. -/
theorem C43_parse_err_iff (src : List Char) (e : PErr) : Expression.parse src = .err e ↔ Failure src e := by
  rw [parse_err_iff]
  constructor
  · intro h
    rcases expression_cases (Span.new src) with ⟨es, -, -, h3⟩ | ⟨es, rest, e', h1, h2, h3⟩
    · rw [h3] at h; simp at h
    · rw [h3] at h
      simp only [Except.error.injEq, Err.failure.injEq] at h
      subst h
      have happ : src = render es ++ rest := h1.append
      cases h2 with
      | alternation ha =>
        refine .alternation es rest e' h1.canonical (readsElems_fresh h1 ?_) happ ((C15_alternation_failure _ _).1 ha)
        intro hn
        exact noSlash_not_failure (by simpa using hn) _ ha
      | parameter hp hh =>
        rw [Span.sub_frag] at hh
        obtain ⟨r, rfl⟩ := eq_cons_of_head? hh
        have := parameter_fail_indexer hp 0
        have := (C14_parameter _ _ _).1 this
        generalize hs : (Span.new src).sub (render es) ('{' :: r) = s at this
        cases this with
        | failure r' t w e' hr' hrun hf =>
          rw [← hs] at hr'
          simp only [Span.sub_frag, List.cons.injEq, true_and] at hr'
          subst hr'
          exact .parameter es _ r t w e' h1.canonical happ rfl hrun (by rw [hs]; exact hf)
  · intro h
    cases h with
    | parameter es rest r t w e hc happ hr hrun hf =>
      subst hr
      have hre := readsElems_bdry ('{' :: r) es hc brace_bdry
      rw [← happ] at hre
      refine expression_fail (Span.new src) (es := es) (rest := '{' :: r) hre (.parameter ?_ (by simp))
      rw [(C14_parameter _ _ _).2 (.failure r t w e (by simp) hrun hf)]
    | alternation es rest e hc hfr happ hf =>
      have ha := (C15_alternation_failure _ _).2 hf
      have hh := alternation_failure_head ha
      rw [Span.sub_frag] at hh
      have hre := readsElems_bdry rest es hc (fresh_bdry hfr hh)
      rw [← happ] at hre
      exact expression_fail (Span.new src) hre (.alternation ha)

/-- Non-vacuity: a rejected input, with a canonical beginning. -/
example : Failure "a b/(c".toList (.unfinishedOptional ⟨4, 1, "(".toList⟩) := (C43_parse_err_iff _ _).1 (by decide)
example : Failure "é {a/".toList (.unescapedReservedCharacter ⟨5, 1, "/".toList⟩) :=
  (C43_parse_err_iff _ _).1 (by decide)

/-- C43: every input is accepted or rejected with exactly one of the specified failures. -/
theorem C43_dichotomy (src : List Char) :
    (∃ es, Canonical es ∧ render es = src) ↔ ¬ ∃ e, Failure src e := by
  constructor
  · rintro ⟨es, h1, h2⟩ ⟨e, he⟩
    have h3 := (parse_ok_iff src _).2 ⟨es, h1, h2, rfl⟩
    have h4 := (C43_parse_err_iff src e).2 he
    rw [h3] at h4; simp at h4
  · intro h
    rcases expression_cases (Span.new src) with ⟨es, h1, h2, -⟩ | ⟨es, rest, e', h1, h2, h3⟩
    · exact ⟨es, h1, h2.symm⟩
    · exact absurd ⟨e', (C43_parse_err_iff src e').1 ((parse_err_iff src e').2 h3)⟩ h

/-! ## C12 -/

/-- The span carried by an error. -/
def errSpan : PErr → Option Span
  | .nestedParameter s | .optionalInParameter s | .unfinishedParameter s | .nestedOptional s
  | .parameterInOptional s | .emptyOptional s | .alternationInOptional s | .unfinishedOptional s
  | .emptyAlternation s | .onlyOptionalInAlternation s | .unescapedReservedCharacter s
  | .escapedNonReservedCharacter s | .escapedEndOfLine s | .other s _ => some s
  | .needed _ => none

/-- The error's span is a non-empty slice of what is at `s`. -/
def ErrAt (s : Span) (e : PErr) : Prop :=
  ∃ pre f post, s.frag = pre ++ f ++ post ∧ f ≠ [] ∧ errSpan e = some (s.sub pre f)

theorem errAt_sub {s : Span} {pre f : List Char} {e : PErr} (hs : s.frag = pre ++ f) (h : ErrAt (s.sub pre f) e) :
    ErrAt s e := by
  obtain ⟨p, g, q, h1, h2, h3⟩ := h
  rw [Span.sub_frag] at h1
  exact ⟨pre ++ p, g, q, by rw [hs, h1]; simp, h2, by rw [h3]; simp⟩

theorem escapeFailure_at {s pre t rest e} (hs : s.frag = pre ++ t ++ rest) (h : EscapeFailure s pre t rest e) :
    ErrAt s e := by
  cases h with
  | nonReserved d v h => exact ⟨pre ++ t, ['\\', d], v, by simp [hs, h], by simp, rfl⟩
  | endOfLine h ht => exact ⟨pre, ['\\'], [], by simp [hs, h, ht], by simp, rfl⟩
  | endOfLineAfterText h ht =>
    refine ⟨pre, (t ++ ['\\']).take 2, (t ++ ['\\']).drop 2, ?_, ?_, rfl⟩
    · rw [List.append_assoc, List.take_append_drop, hs, h]; simp
    · cases t with
      | nil => exact absurd rfl ht
      | cons c t => simp

theorem optionalFailure_at {s r t rest e} (hs : s.frag = '(' :: r) (hr : Run optStops r t rest)
    (h : OptionalFailure s t rest e) : ErrAt s e := by
  have hsr : s.frag = '(' :: (t ++ rest) := by rw [hs, hr.1]
  cases h with
  | empty v h ht => exact ⟨[], ['(', ')'], v, by simp [hsr, h, ht], by simp, rfl⟩
  | alternation v h => exact ⟨'(' :: t, ['/'], v, by simp [hsr, h], by simp, rfl⟩
  | nested t' v h => exact ⟨'(' :: t, _, v, by simp [hsr, h.1], by simp, rfl⟩
  | unescapedParen v h => exact ⟨'(' :: t, ['('], v, by simp [hsr, h], by simp, rfl⟩
  | parameter t' v h => exact ⟨'(' :: t, _, v, by simp [hsr, h.1], by simp, rfl⟩
  | unescapedBrace v h => exact ⟨'(' :: t, ['{'], v, by simp [hsr, h], by simp, rfl⟩
  | unfinished h => exact ⟨[], ['('], t ++ rest, by simp [hsr], by simp, rfl⟩
  | escape e h => exact escapeFailure_at (by simp [hsr]) h

theorem parameterFailure_at {s r t rest e} (hs : s.frag = '{' :: r) (hr : Run nameStops r t rest)
    (h : ParameterFailure s t rest e) : ErrAt s e := by
  have hsr : s.frag = '{' :: (t ++ rest) := by rw [hs, hr.1]
  cases h with
  | nested t' v h => exact ⟨'{' :: t, _, v, by simp [hsr, h.1], by simp, rfl⟩
  | unescapedBrace v h => exact ⟨'{' :: t, ['{'], v, by simp [hsr, h], by simp, rfl⟩
  | optional t' v h => exact ⟨'{' :: t, _, v, by simp [hsr, h.1], by simp, rfl⟩
  | unescapedParen v h => exact ⟨'{' :: t, ['('], v, by simp [hsr, h], by simp, rfl⟩
  | unescapedSlash v h => exact ⟨'{' :: t, ['/'], v, by simp [hsr, h], by simp, rfl⟩
  | unfinished h => exact ⟨[], ['{'], t ++ rest, by simp [hsr], by simp, rfl⟩
  | escape e h => exact escapeFailure_at (by simp [hsr]) h

theorem alternativeFailure_at {s e} (h : AlternativeOutcome s (.error (.failure e))) : ErrAt s e := by
  cases h with
  | optionalFailure e h =>
    cases h with
    | failure r t rest e h1 h2 h3 => exact optionalFailure_at h1 h2 h3
  | textFailure t rest e _ hr h => exact escapeFailure_at (by simpa using hr.1) h

theorem alternationFailure_at {s e} (h : AlternationFailure s e) : ErrAt s e := by
  cases h with
  | emptyFirst r h => exact ⟨[], ['/'], r, by simp [h], by simp, rfl⟩
  | emptyLater bs r hne hb hs hr => exact ⟨renderBranches bs, ['/'], r, by simp [hs], by simp, rfl⟩
  | onlyOptional bs rest hl hb hs hr ho =>
    refine ⟨[], renderBranches bs, rest, by simp [hs], ?_, rfl⟩
    match bs, hl with
    | b :: b' :: bs, _ => simp [renderBranches_cons]
  | piece bs b v e hb hv hs hlast he => exact errAt_sub hs (alternativeFailure_at he)

/-- C12: every error of `Expression::parse` carries a non-empty, correctly located slice of the source. -/
theorem C12_error_spans (src : List Char) (e : PErr) (h : Expression.parse src = .err e) :
    ∃ sp, errSpan e = some sp ∧ sp.frag ≠ [] ∧ LocatedIn src sp := by
  have key : ErrAt (Span.new src) e := by
    cases (C43_parse_err_iff src e).1 h with
    | parameter es rest r t w e hc happ hr hrun hf =>
      exact errAt_sub happ (parameterFailure_at (by simpa using hr) hrun hf)
    | alternation es rest e hc hfr happ hf => exact errAt_sub happ (alternationFailure_at hf)
  obtain ⟨pre, f, post, h1, h2, h3⟩ := key
  exact ⟨_, h3, by simpa using h2, at_new ⟨pre, post, by simpa [Span.new] using h1, by simp⟩⟩

/-- Non-vacuity: an error on the second line, after multi-byte characters. -/
example : Expression.parse "é\n{x".toList = .err (.unfinishedParameter ⟨3, 2, "{".toList⟩) := by decide

end CE
