import Verif.Proof.Errors
import Verif.Proof.Locate
import Verif.Prop.Total

/-! # Errors: C12-C17, C43 -/

namespace CE
open Spec

/-! ## C13 -/

/-- C13: the outcome of `optional` on any input. -/
theorem C13_optional (s : Span) (res : IRes Optional) : optional s = res ↔ OptionalOutcome s res := by
  constructor
  · rintro rfl
    by_cases hh : s.frag.head? = some '('
    · obtain ⟨r, hr⟩ := eq_cons_of_head? hh
      have hd := discipline_optional s
      rw [optional_eq] at hd ⊢
      cases ho : optSpec s with
      | ok a =>
        obtain ⟨a, o⟩ := a
        obtain ⟨t, v, h1, -, rfl, rfl⟩ := optSpec_ok ho
        exact .ok t v (optOk_iff.1 h1)
      | error e =>
        obtain ⟨-, ⟨pe, rfl⟩ | rfl⟩ := optSpec_err ho
        · exact .failure r _ _ pe hr (run_erun class_opt r) ((optionalFailure_iff hr rfl pe).1 ho)
        · rw [ho] at hd; exact absurd hh hd
    · rw [optional_ne s hh]; exact .notOptional hh
  · intro h
    cases h with
    | notOptional h => exact optional_ne s h
    | ok t v h => rw [optional_eq, optSpec_of_optOk (optOk_iff.2 h)]
    | failure r t rest e hs hr he => rw [optional_eq]; exact (optionalFailure_iff hs ((run_iff class_opt).1 hr) e).2 he

/-- Non-vacuity: a nested optional. -/
example : OptionalOutcome ⟨3, 1, "(a(b)c) d".toList⟩ (.error (.failure (.nestedOptional ⟨5, 1, "(b)".toList⟩))) :=
  (C13_optional _ _).1 rfl
example : OptionalOutcome ⟨0, 1, "(a b\\))c".toList⟩ (.ok (⟨7, 1, "c".toList⟩, ⟨⟨1, 1, "a b\\)".toList⟩⟩)) :=
  (C13_optional _ _).1 rfl

/-! ## C14 -/

/-- C14: the outcome of `parameter` on any input, with the new value of the indexer. -/
theorem C14_parameter (s : Span) (n : Nat) (res : IRes Parameter × Nat) :
    parameter s n = res ↔ ParameterOutcome s n res := by
  constructor
  · rintro rfl
    by_cases hh : s.frag.head? = some '{'
    · obtain ⟨r, hr⟩ := eq_cons_of_head? hh
      rw [parameter_eq]
      rcases ho : parSpec s n with ⟨e | ⟨a, o⟩, m⟩
      · obtain ⟨-, rfl, ⟨pe, rfl⟩ | rfl⟩ := parSpec_err ho
        · exact .failure r _ _ pe hr (run_erun class_name r) ((parameterFailure_iff hr rfl pe).1 ho)
        · exact absurd ho (parSpec_head_error hh _ _)
      · obtain ⟨t, v, h1, -, rfl, rfl, rfl⟩ := parSpec_ok ho
        exact .ok t v (parOk_iff.1 h1)
    · rw [parameter_ne s n hh]; exact .notParameter hh
  · intro h
    cases h with
    | notParameter h => exact parameter_ne s n h
    | ok t v h => rw [parameter_eq, parSpec_of_parOk n (parOk_iff.2 h)]
    | failure r t rest e hs hr he =>
      rw [parameter_eq]; exact (parameterFailure_iff hs ((run_iff class_name).1 hr) e).2 he

example : ParameterOutcome ⟨0, 1, "{a(b)}".toList⟩ 7
    (.error (.failure (.optionalInParameter ⟨2, 1, "(b)".toList⟩)), 7) := (C14_parameter _ _ _).1 rfl
example : ParameterOutcome ⟨0, 1, "{}x".toList⟩ 7 (.ok (⟨2, 1, "x".toList⟩, ⟨⟨1, 1, []⟩, 7⟩), 8) :=
  (C14_parameter _ _ _).1 rfl

/-! ## `alternative` -/

theorem endOr_iff (cs : List Char) : EndOr [' ', '{', '/'] cs ↔ endsBranch cs := by
  rw [← noAlternative_iff]
  simp [EndOr, NoAlternative]

theorem endOr2_iff (cs : List Char) : EndOr [' ', '{'] cs ↔ endsBranch cs ∧ cs.head? ≠ some '/' := by
  cases cs with
  | nil => simp [EndOr, endsBranch]
  | cons c r =>
    simp [EndOr, endsBranch]
    constructor
    · rintro (rfl | rfl) <;> simp
    · grind

/-- C17/C19: the outcome of `alternative` on any input. -/
theorem C17_alternative (s : Span) (res : IRes Alternative) : alternative s = res ↔ AlternativeOutcome s res := by
  have key : ∀ res, alternative s = res → AlternativeOutcome s res := by
    rintro res rfl
    rw [alternative_eq]
    by_cases hh : s.frag.head? = some '('
    · have ho : ∀ t v, optOk s.frag = some (t, v) →
          OptionalOutcome s (.ok (s.sub ('(' :: t ++ [')']) v, ⟨s.sub ['('] t⟩)) :=
        fun t v h => .ok t v (optOk_iff.1 h)
      cases hp : pieceOk s.frag with
      | some qv =>
        obtain ⟨q, v⟩ := qv
        unfold pieceOk at hp
        rw [if_pos hh] at hp
        split at hp
        next t v' h =>
          simp only [Option.some.injEq, Prod.mk.injEq] at hp
          obtain ⟨rfl, rfl⟩ := hp
          simpa [Piece.render, Piece.locate] using AlternativeOutcome.optional _ _ hh (ho t v' h)
        · simp at hp
      | none =>
        simp only
        cases hf : pieceFail s with
        | some e =>
          simp only
          refine .optionalFailure e ((C13_optional _ _).1 ?_)
          unfold pieceFail at hf
          rw [if_pos hh] at hf
          rw [optional_eq]
          split at hf
          next e' he => simp only [Option.some.injEq] at hf; subst hf; exact he
          · simp at hf
        | none => have := (pieceFail_none hp).1 hf _ hh; simp at this
    · have hrun := run_erun class_text s.frag
      have happ := erun_append isWithoutWhitespace s.frag
      cases hp : pieceOk s.frag with
      | some qv =>
        obtain ⟨q, v⟩ := qv
        unfold pieceOk at hp
        rw [if_neg hh, optOk_head_none hh] at hp
        simp only at hp
        split at hp
        · simp at hp
        next ht =>
          split at hp
          · simp at hp
          next hb =>
            simp only [Option.some.injEq, Prod.mk.injEq] at hp
            obtain ⟨rfl, rfl⟩ := hp
            simpa [Piece.render, Piece.locate] using AlternativeOutcome.text _ _ hh hrun ht hb
      | none =>
        simp only
        cases hf : pieceFail s with
        | some e =>
          simp only
          refine .textFailure _ _ e hh hrun ?_
          unfold pieceFail at hf
          rw [if_neg hh] at hf
          split at hf
          next e' he =>
            simp only [Option.some.injEq] at hf; subst hf
            have := (escOut_failure_iff (s := s) (pre := []) (e := e') happ.symm).1 (by simpa using he)
            exact this
          · simp at hf
        | none => exact .none ((pieceFail_none hp).1 hf)
  constructor
  · exact key res
  · -- each outcome determines the result
    intro h
    cases h with
    | optional r o hh h =>
      have := (C13_optional _ _).2 h
      obtain ⟨t, v, h1, -, rfl, rfl⟩ := optSpec_ok (by rw [← optional_eq]; exact this)
      rw [alternative_eq]
      unfold pieceOk
      rw [h1]
      simp [Piece.render, Piece.locate]
    | optionalFailure e h =>
      have := (C13_optional _ _).2 h
      unfold alternative alt altS
      simp only [P.lift, pmap, this]
    | text t rest hh hr ht hb =>
      rw [run_iff class_text] at hr
      rw [alternative_eq]
      unfold pieceOk
      rw [optOk_head_none hh, if_neg hh, hr]
      simp [ht, hb, Piece.render, Piece.locate]
    | textFailure t rest e hh hr he =>
      have happ := hr.1
      rw [run_iff class_text] at hr
      have h2 := (escOut_failure_iff (s := s) (pre := []) (e := e) happ).2 he
      simp only [Span.sub_nil_frag] at h2
      have hb : rest.head? = some '\\' := by
        obtain ⟨_, -, h⟩ := escOut_err h2; exact h
      rw [alternative_eq]
      unfold pieceOk pieceFail
      rw [optOk_head_none hh, if_neg hh, if_neg hh, hr]
      simp only [hb, h2, if_true, ite_self]
    | none h =>
      rw [alternative_eq, pieceOk_none_of_ends h, pieceFail_of_ends h]

/-! ## C15 -/

/-- Errors of a single piece. -/
def ofPiece : PErr → Prop
  | .emptyAlternation _ => False
  | .onlyOptionalInAlternation _ => False
  | _ => True

theorem escapeFailure_ofPiece {s pre t rest e} (h : EscapeFailure s pre t rest e) : ofPiece e := by
  cases h <;> trivial

theorem alternative_ofPiece {s e} (h : AlternativeOutcome s (.error (.failure e))) : ofPiece e := by
  cases h with
  | optionalFailure e h =>
    cases h with
    | failure r t rest e _ _ h =>
      cases h with
      | escape e h => exact escapeFailure_ofPiece h
      | _ => trivial
  | textFailure t rest e _ _ h => exact escapeFailure_ofPiece h

theorem pieceFail_outcome {s : Span} {e : PErr} (hn : pieceOk s.frag = none) (hf : pieceFail s = some e) :
    AlternativeOutcome s (.error (.failure e)) := by
  rw [← C17_alternative, alternative_eq, hn, hf]

theorem outcome_pieceFail {s : Span} {e : PErr} (h : AlternativeOutcome s (.error (.failure e))) :
    pieceOk s.frag = none ∧ pieceFail s = some e := by
  rw [← C17_alternative, alternative_eq] at h
  cases hp : pieceOk s.frag with
  | some qv => rw [hp] at h; simp at h
  | none =>
    rw [hp] at h
    simp only at h
    cases hf : pieceFail s with
    | none => rw [hf] at h; simp at h
    | some e' => rw [hf] at h; simp at h; subst h; exact ⟨rfl, rfl⟩

theorem slashTerminated_nil : slashTerminated [] = [] := rfl

theorem slashTerminated_eq {bs : List (List Piece)} (h : bs ≠ []) : slashTerminated bs = renderBranches bs ++ ['/'] := by
  induction bs with
  | nil => exact absurd rfl h
  | cons b bs ih =>
    cases bs with
    | nil => simp [slashTerminated, renderBranches]
    | cons b' bs =>
      have := ih (by simp)
      rw [renderBranches, List.append_assoc, List.cons_append, ← this]
      · simp [slashTerminated]
      · simp

theorem onlyOpt_iff (bs : List (List Piece)) : onlyOpt bs = true ↔ ∃ b ∈ bs, ∀ q ∈ b, q.isText = false := by
  simp [onlyOpt]

/-- C15: the irrecoverable failures of `alternation` on any input. -/
theorem C15_alternation_failure (s : Span) (e : PErr) :
    alternation s = .error (.failure e) ↔ AlternationFailure s e := by
  constructor
  · intro h
    cases altCase s with
    | noBranchSlash r hr =>
      rw [alternation_no_branch_slash s r hr] at h
      simp only [Except.error.injEq, Err.failure.injEq] at h
      subst h
      exact .emptyFirst r hr
    | noBranch he hs => rw [alternation_no_branch s he hs] at h; simp at h
    | failFirst b v e' hb hn hf =>
      rw [alternation_fail_first s hb hn hf] at h
      simp only [Except.error.injEq, Err.failure.injEq] at h
      subst h
      refine .piece [] b v e' (by simp [Branches]) hb.valid (by simpa [slashTerminated] using hb.append) ?_
        (by simpa [slashTerminated] using pieceFail_outcome (by simpa using hn) hf)
      intro q hq ht
      have h3 := hb.stop q hq ht
      apply Classical.byContradiction
      intro hc
      unfold pieceFail at hf
      rw [Span.sub_frag, if_neg hc] at hf
      have happ := erun_append isWithoutWhitespace v
      rw [h3.1] at happ
      simp only [List.nil_append] at happ
      rw [escOut_ne (by rw [happ]; exact h3.2)] at hf
      simp at hf
    | failLater bs r b v e' hbs hb hn hf =>
      rw [alternation_fail_later s hbs hb hn hf] at h
      simp only [Except.error.injEq, Err.failure.injEq] at h
      subst h
      have hne := hbs.valid.2.1
      have heq : slashTerminated bs ++ renderPieces b = renderBranches bs ++ '/' :: renderPieces b := by
        rw [slashTerminated_eq hne]; simp
      refine .piece bs b v e' hbs.valid.1 hb.valid ?_ ?_
        (by rw [heq]; exact pieceFail_outcome (by simpa using hn) hf)
      · rw [heq, hbs.append, hb.append]; simp
      intro q hq ht
      have h3 := hb.stop q hq ht
      apply Classical.byContradiction
      intro hc
      unfold pieceFail at hf
      rw [Span.sub_frag, if_neg hc] at hf
      have happ := erun_append isWithoutWhitespace v
      rw [h3.1] at happ
      simp only [List.nil_append] at happ
      rw [escOut_ne (by rw [happ]; exact h3.2)] at hf
      simp at hf
    | empty bs r hb hr =>
      rw [alternation_empty s hb hr] at h
      simp only [Except.error.injEq, Err.failure.injEq] at h
      subst h
      exact .emptyLater bs r hb.valid.2.1 hb.valid.1 hb.append ((endOr_iff r).2 hr)
    | full bs rest hb hr =>
      rw [alternation_ok s hb hr] at h
      split at h
      · simp at h
      next hl =>
        split at h
        next ho =>
          simp only [Except.error.injEq, Err.failure.injEq] at h
          subst h
          have hl2 : 2 ≤ bs.length := by
            have : bs.length ≠ 0 := by simpa using hb.valid.2.1
            omega
          exact .onlyOptional bs rest hl2 hb.valid.1 hb.append ((endOr2_iff rest).2 ⟨hb.valid.2.2, hr⟩)
            ((onlyOpt_iff bs).1 ho)
        · simp at h
  · intro h
    cases h with
    | emptyFirst r h => exact alternation_no_branch_slash s r h
    | emptyLater bs r hne hb hs hr =>
      have : ReadsBranches s.frag bs ('/' :: r) := by
        rw [hs]; exact .complete hb hne (endsBranch_slash r)
      exact alternation_empty s this ((endOr_iff r).1 hr)
    | onlyOptional bs rest hl hb hs hr ho =>
      obtain ⟨hr1, hr2⟩ := (endOr2_iff rest).1 hr
      have hne : bs ≠ [] := by rintro rfl; simp at hl
      have : ReadsBranches s.frag bs rest := by
        rw [hs]; exact .complete hb hne hr1
      rw [alternation_ok s this hr2, if_neg (by omega), if_pos ((onlyOpt_iff bs).2 ho)]
    | piece bs b v e hb hv hs hlast he =>
      obtain ⟨hn, hf⟩ := outcome_pieceFail he
      simp only [Span.sub_frag] at hn
      have hread : Reads (renderPieces b ++ v) b v := by
        refine .complete hv v ?_
        intro q hq ht
        have := hlast q hq ht
        refine ⟨erun_stop class_text ?_ (by decide), by rw [this]; simp⟩
        intro c hc; rw [this] at hc; simp at hc; subst hc; decide
      by_cases hne : bs = []
      · subst hne
        simp only [slashTerminated_nil, List.nil_append] at hs hf
        exact alternation_fail_first s (by rw [hs]; exact hread) hn hf
      · rw [slashTerminated_eq hne] at hs hf
        have : ReadsBranches s.frag bs ('/' :: (renderPieces b ++ v)) := by
          rw [hs]
          have := ReadsBranches.complete hb hne (endsBranch_slash (renderPieces b ++ v))
          simpa using this
        exact alternation_fail_later s this hread hn (by simpa using hf)

/-- C15: `EmptyAlternation` is reported exactly when a branch is missing at a `/`, on that `/`. -/
theorem C15_empty (s : Span) (sp : Span) :
    alternation s = .error (.failure (.emptyAlternation sp)) ↔
      ∃ bs r, Branches bs ∧ s.frag = renderBranches bs ++ '/' :: r ∧ (bs = [] ∨ EndOr [' ', '{', '/'] r) ∧
        sp = s.sub (renderBranches bs) ['/'] := by
  rw [C15_alternation_failure]
  constructor
  · intro h
    cases h with
    | emptyFirst r h => exact ⟨[], r, by simp [Branches], h, .inl rfl, rfl⟩
    | emptyLater bs r hne hb hs hr => exact ⟨bs, r, hb, hs, .inr hr, rfl⟩
    | piece bs b v e hb hv hs hl he => exact absurd (alternative_ofPiece he) (by simp [ofPiece])
  · rintro ⟨bs, r, hb, hs, hor, rfl⟩
    by_cases hne : bs = []
    · subst hne; exact .emptyFirst r hs
    · exact .emptyLater bs r hne hb hs (hor.resolve_left hne)

/-- C15: `OnlyOptionalInAlternation` is reported exactly for a complete alternation with a branch of optionals only,
on the whole alternation. -/
theorem C15_onlyOptional (s : Span) (sp : Span) :
    alternation s = .error (.failure (.onlyOptionalInAlternation sp)) ↔
      ∃ bs rest, 2 ≤ bs.length ∧ Branches bs ∧ s.frag = renderBranches bs ++ rest ∧ EndOr [' ', '{'] rest ∧
        (∃ b ∈ bs, ∀ q ∈ b, q.isText = false) ∧ sp = s.sub [] (renderBranches bs) := by
  rw [C15_alternation_failure]
  constructor
  · intro h
    cases h with
    | onlyOptional bs rest hl hb hs hr ho => exact ⟨bs, rest, hl, hb, hs, hr, ho, rfl⟩
    | piece bs b v e hb hv hs hl he => exact absurd (alternative_ofPiece he) (by simp [ofPiece])
  · rintro ⟨bs, rest, hl, hb, hs, hr, ho, rfl⟩
    exact .onlyOptional bs rest hl hb hs hr ho

/-- C15: `alternation` succeeds exactly on a complete alternation each of whose branches has a text. -/
theorem C15_ok (s r : Span) (a : Alternation) :
    alternation s = .ok (r, a) ↔
      ∃ bs rest, 2 ≤ bs.length ∧ (∀ b ∈ bs, ValidPieces b ∧ ∃ q ∈ b, q.isText = true) ∧
        s.frag = renderBranches bs ++ rest ∧ EndOr [' ', '{'] rest ∧
        r = s.sub (renderBranches bs) rest ∧ a = locateBranches s [] bs := by
  constructor
  · intro h
    cases altCase s with
    | noBranchSlash r hr => rw [alternation_no_branch_slash s r hr] at h; simp at h
    | noBranch he hs => rw [alternation_no_branch s he hs] at h; simp at h
    | failFirst b v e' hb hn hf => rw [alternation_fail_first s hb hn hf] at h; simp at h
    | failLater bs r b v e' hbs hb hn hf => rw [alternation_fail_later s hbs hb hn hf] at h; simp at h
    | empty bs r hb hr => rw [alternation_empty s hb hr] at h; simp at h
    | full bs rest hb hr =>
      rw [alternation_ok s hb hr] at h
      split at h
      · simp at h
      next hl =>
        split at h
        · simp at h
        next ho =>
          simp only [Except.ok.injEq, Prod.mk.injEq] at h
          have hl2 : 2 ≤ bs.length := by
            have : bs.length ≠ 0 := by simpa using hb.valid.2.1
            omega
          refine ⟨bs, rest, hl2, ?_, hb.append, (endOr2_iff rest).2 ⟨hb.valid.2.2, hr⟩, h.1.symm, h.2.symm⟩
          intro b hbm
          have := onlyOpt_false.1 (by simpa using ho) b hbm
          exact ⟨(hb.valid.1 b hbm).1, by simpa using this⟩
  · rintro ⟨bs, rest, hl, hb, hs, hr, rfl, rfl⟩
    obtain ⟨hr1, hr2⟩ := (endOr2_iff rest).1 hr
    have hne : bs ≠ [] := by rintro rfl; simp at hl
    have : ReadsBranches s.frag bs rest := by
      rw [hs]
      refine .complete (fun b hbm => ⟨(hb b hbm).1, ?_⟩) hne hr1
      obtain ⟨q, hq, -⟩ := (hb b hbm).2
      exact List.ne_nil_of_mem hq
    rw [alternation_ok s this hr2, if_neg (by omega), if_neg]
    rw [onlyOpt_iff]
    rintro ⟨b, hbm, hall⟩
    obtain ⟨q, hq, ht⟩ := (hb b hbm).2
    rw [hall q hq] at ht; simp at ht

example : alternation ⟨2, 1, "a/ ".toList⟩ = .error (.failure (.emptyAlternation ⟨3, 1, "/".toList⟩)) := rfl
example : alternation ⟨2, 1, "a/(b) c".toList⟩ =
    .error (.failure (.onlyOptionalInAlternation ⟨2, 1, "a/(b)".toList⟩)) := rfl
example : alternation ⟨2, 1, "a/b(c) d".toList⟩ = .ok (⟨8, 1, " d".toList⟩,
    [[.text ⟨2, 1, "a".toList⟩], [.text ⟨4, 1, "b".toList⟩, .optional ⟨⟨6, 1, "c".toList⟩⟩]]) := rfl
example : alternation ⟨2, 1, "a/b(/".toList⟩ =
    .error (.failure (.alternationInOptional ⟨6, 1, "/".toList⟩)) := rfl

end CE
