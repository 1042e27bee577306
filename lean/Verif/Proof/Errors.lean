import Verif.Proof.Expression
import Verif.Spec.Errors

/-! # Closed forms against the specified outcomes -/

namespace CE
open Spec

/-- The run computed by `erun` is the longest well-escaped prefix. -/
theorem run_erun {p : Char → Bool} {stops : List Char} (h : ClassOf p stops) (cs : List Char) :
    Run stops cs (erun p cs).1 (erun p cs).2 := by
  refine ⟨(erun_append p cs).symm, erun_escd h cs, ?_⟩
  rintro u r rfl hu
  induction hu generalizing r with
  | nil => simp
  | char c cs hc hs _ ih =>
    rw [List.cons_append, erun_cons_class h _ hc hs]
    have := ih r
    simp; omega
  | esc d cs hd _ ih =>
    rw [List.cons_append, List.cons_append, erun_cons_esc _ hd]
    have := ih r
    simp; omega

theorem run_unique {stops cs t rest t' rest'} (h : Run stops cs t rest) (h' : Run stops cs t' rest') :
    t = t' ∧ rest = rest' := by
  have h1 := h.2.2 t' rest' h'.1 h'.2.1
  have h2 := h'.2.2 t rest h.1 h.2.1
  have : t ++ rest = t' ++ rest' := by rw [← h.1, ← h'.1]
  exact List.append_inj this (by omega)

theorem run_iff {p : Char → Bool} {stops : List Char} (h : ClassOf p stops) {cs t rest : List Char} :
    Run stops cs t rest ↔ erun p cs = (t, rest) := by
  constructor
  · intro hr
    obtain ⟨h1, h2⟩ := run_unique (run_erun h cs) hr
    exact Prod.ext h1 h2
  · intro he
    have := run_erun h cs
    rwa [he] at this

theorem optOk_iff {cs t v : List Char} : optOk cs = some (t, v) ↔ IsOptional cs t v := by
  constructor
  · exact optOk_head
  · rintro ⟨rfl, h1, h2⟩
    simpa using optOk_complete h1 h2 v

theorem parOk_iff {cs t v : List Char} : parOk cs = some (t, v) ↔ IsParameter cs t v := by
  constructor
  · intro h; obtain ⟨h1, h2⟩ := parOk_sound h; exact ⟨by simpa using h1, h2⟩
  · rintro ⟨rfl, h1⟩
    simpa using parOk_complete h1 v

theorem closedRun_iff {p : Char → Bool} {stops : List Char} (h : ClassOf p stops) {close : Char} (hc : close ∈ stops)
    (hcb : close ≠ '\\') {cs : List Char} : closedRun p close cs = true ↔ Closes stops close cs := by
  unfold closedRun
  simp only [decide_eq_true_eq]
  constructor
  · intro hh
    obtain ⟨v, hv⟩ := eq_cons_of_head? hh
    exact ⟨(erun p cs).1, v, by rw [← hv, erun_append], erun_escd h cs⟩
  · rintro ⟨t, v, rfl, ht⟩
    rw [erun_of_escd h ht _ (by rw [erun_cons_stop h _ hcb hc])]
    simp

/-! ## `escOut` -/

theorem escOut_failure_iff {s : Span} {pre f t rest : List Char} {e : PErr} (hf : f = t ++ rest) :
    escOut (s.sub pre f) t rest = .error (.failure e) ↔ EscapeFailure s pre t rest e := by
  subst hf
  constructor
  · intro h
    unfold escOut at h
    split at h
    · simp at h
    next c r' =>
      split at h
      next hc =>
        subst hc
        split at h
        next d v =>
          simp only [Span.sub_sub, Except.error.injEq, Err.failure.injEq] at h
          subst h
          exact .nonReserved d v rfl
        next =>
          split at h
          next ht =>
            simp only [Span.sub_sub, Except.error.injEq, Err.failure.injEq, List.append_nil] at h
            subst h
            exact .endOfLine rfl ht
          next ht =>
            simp only [Span.sub_sub, Except.error.injEq, Err.failure.injEq, List.append_nil, Span.sub_frag] at h
            subst h
            exact .endOfLineAfterText rfl ht
      next => simp at h
  · intro h
    cases h with
    | nonReserved d v h => subst h; simp [escOut]
    | endOfLine h ht => subst h; simp [escOut, ht]
    | endOfLineAfterText h ht => subst h; simp [escOut, ht]

theorem run_head {p : Char → Bool} {cs t rest : List Char} (he : erun p cs = (t, rest)) :
    (∃ v, rest = '\\' :: v) ∨ rest = [] ∨ ∃ c v, rest = c :: v ∧ c ≠ '\\' ∧ p c = false := by
  cases rest with
  | nil => exact .inr (.inl rfl)
  | cons c v =>
    by_cases hc : c = '\\'
    · subst hc; exact .inl ⟨v, rfl⟩
    · exact .inr (.inr ⟨c, v, rfl, hc, (erun_rest_head p cs c v (by rw [he])).1 hc⟩)

/-! ## `optional` -/

theorem optionalFailure_iff {s : Span} {r t rest : List Char} (hs : s.frag = '(' :: r)
    (he : erun isInOptional r = (t, rest)) (e : PErr) :
    optSpec s = .error (.failure e) ↔ OptionalFailure s t rest e := by
  have happ := erun_append isInOptional r
  rw [he] at happ
  simp only at happ
  have hesc : EscapeFailure s ['('] t rest e ↔ escOut (s.sub ['('] r) t rest = .error (.failure e) :=
    (escOut_failure_iff happ.symm).symm
  clear happ
  rcases run_head he with ⟨v, rfl⟩ | rfl | ⟨c, v, rfl, hc, hp⟩
  · have : optSpec s = .error (.failure e) ↔ escOut (s.sub ['('] r) t ('\\' :: v) = .error (.failure e) := by
      unfold optSpec
      rw [hs]
      simp only [he]
      cases hh : escOut (s.sub ['('] r) t ('\\' :: v) with
      | ok a => exact absurd rfl (escOut_ok hh).2
      | error e' => simp
    rw [this, ← hesc]
    clear this hesc
    constructor
    · exact fun h => .escape e h
    · intro h
      cases h with
      | escape e h => exact h
      | nested t' v h => simp [IsOptional] at h
      | parameter t' v h => simp [IsParameter] at h
      | _ => simp_all
  · have : optSpec s = .error (.failure (.unfinishedOptional (s.sub [] ['(']))) := by
      clear hesc
      unfold optSpec
      rw [hs]
      simp [he, escOut, optFailSpec]
    rw [this]
    simp only [Except.error.injEq, Err.failure.injEq]
    constructor
    · rintro rfl; exact .unfinished rfl
    · intro h
      cases h with
      | escape e h => cases h <;> contradiction
      | nested t' v h => simp [IsOptional] at h
      | parameter t' v h => simp [IsParameter] at h
      | unfinished => rfl
      | _ => simp_all
  · clear hesc
    have hnb : (c :: v).head? ≠ some '\\' := by simpa using hc
    rcases isInOptional_false hp with rfl | rfl | rfl | rfl | rfl
    · -- `(`
      have : optSpec s = .error (.failure (optFailSpec (s.sub ('(' :: t) ('(' :: v)) (s.sub [] ['(']))) := by
        unfold optSpec
        rw [hs]
        simp only [he]
        rw [escOut_ne hnb]
        simp
      rw [this]
      simp only [optFailSpec, Span.sub_frag, Except.error.injEq, Err.failure.injEq]
      cases ho : optOk ('(' :: v) with
      | some tv =>
        obtain ⟨t', v'⟩ := tv
        simp only
        have hio := optOk_iff.1 ho
        by_cases hcl : closedRun isInOptional ')' v' = true
        · rw [if_pos hcl]
          rw [closedRun_iff class_opt (by decide) (by decide)] at hcl
          constructor
          · rintro rfl; simpa using OptionalFailure.nested t' v' hio hcl
          · intro h
            cases h with
            | escape e h => cases h <;> simp_all
            | nested t'' v'' h _ =>
              have := optOk_iff.2 h
              rw [ho] at this
              simp only [Option.some.injEq, Prod.mk.injEq] at this
              obtain ⟨rfl, rfl⟩ := this
              simp
            | parameter t' v h => simp [IsParameter] at h
            | unescapedParen _ _ h => exact absurd ⟨t', v', hio, hcl⟩ h
            | _ => simp_all
        · rw [if_neg hcl]
          rw [closedRun_iff class_opt (by decide) (by decide)] at hcl
          have hno : ¬ ∃ t' v', IsOptional ('(' :: v) t' v' ∧ Closes optStops ')' v' := by
            rintro ⟨t2, v2, h1, h2⟩
            have := optOk_iff.2 h1
            rw [ho] at this
            simp only [Option.some.injEq, Prod.mk.injEq] at this
            obtain ⟨rfl, rfl⟩ := this
            exact hcl h2
          constructor
          · rintro rfl; simpa using OptionalFailure.unescapedParen v rfl hno
          · intro h
            cases h with
            | escape e h => cases h <;> simp_all
            | nested t'' v'' h h2 => exact absurd ⟨t'', v'', h, h2⟩ hno
            | parameter t' v h => simp [IsParameter] at h
            | unescapedParen _ _ h => simp
            | _ => simp_all
      | none =>
        simp only
        have hno : ¬ ∃ t' v', IsOptional ('(' :: v) t' v' ∧ Closes optStops ')' v' := by
          rintro ⟨t2, v2, h1, h2⟩
          have := optOk_iff.2 h1
          rw [ho] at this
          simp at this
        constructor
        · rintro rfl; simpa using OptionalFailure.unescapedParen v rfl hno
        · intro h
          cases h with
          | escape e h => cases h <;> simp_all
          | nested t'' v'' h h2 => exact absurd ⟨t'', v'', h, h2⟩ hno
          | parameter t' v h => simp [IsParameter] at h
          | unescapedParen _ _ h => simp
          | _ => simp_all
    · -- `)`
      by_cases ht : t = []
      · have : optSpec s = .error (.failure (.emptyOptional (s.sub [] ['(', ')']))) := by
          unfold optSpec
          rw [hs]
          simp [he, escOut, ht]
        rw [this]
        simp only [Except.error.injEq, Err.failure.injEq]
        constructor
        · rintro rfl; exact .empty v rfl ht
        · intro h
          cases h with
          | escape e h => cases h <;> simp_all
          | nested t'' v'' h h2 => simp [IsOptional] at h
          | parameter t' v h => simp [IsParameter] at h
          | empty => rfl
          | _ => simp_all
      · have : optSpec s = .ok (s.sub ('(' :: t ++ [')']) v, ⟨s.sub ['('] t⟩) := by
          unfold optSpec
          rw [hs]
          simp [he, escOut, ht]
        rw [this]
        simp only [reduceCtorEq, false_iff]
        intro h
        cases h with
        | escape e h => cases h <;> simp_all
        | nested t'' v'' h h2 => simp [IsOptional] at h
        | parameter t' v h => simp [IsParameter] at h
        | _ => simp_all
    · -- `{`
      have : optSpec s = .error (.failure (optFailSpec (s.sub ('(' :: t) ('{' :: v)) (s.sub [] ['(']))) := by
        unfold optSpec
        rw [hs]
        simp only [he]
        rw [escOut_ne hnb]
        simp
      rw [this]
      simp only [optFailSpec, Span.sub_frag, Except.error.injEq, Err.failure.injEq]
      cases ho : parOk ('{' :: v) with
      | some tv =>
        obtain ⟨t', v'⟩ := tv
        simp only
        have hio := parOk_iff.1 ho
        constructor
        · rintro rfl; simpa using OptionalFailure.parameter t' v' hio
        · intro h
          cases h with
          | escape e h => cases h <;> simp_all
          | nested t'' v'' h _ => simp [IsOptional] at h
          | parameter t'' v'' h =>
            have := parOk_iff.2 h
            rw [ho] at this
            simp only [Option.some.injEq, Prod.mk.injEq] at this
            obtain ⟨rfl, rfl⟩ := this
            simp
          | unescapedBrace _ _ h => exact absurd ⟨t', v', hio⟩ h
          | _ => simp_all
      | none =>
        simp only
        have hno : ¬ ∃ t' v', IsParameter ('{' :: v) t' v' := by
          rintro ⟨t2, v2, h1⟩
          have := parOk_iff.2 h1
          rw [ho] at this
          simp at this
        constructor
        · rintro rfl; simpa using OptionalFailure.unescapedBrace v rfl hno
        · intro h
          cases h with
          | escape e h => cases h <;> simp_all
          | nested t'' v'' h h2 => simp [IsOptional] at h
          | parameter t' v h => exact absurd ⟨_, _, h⟩ hno
          | unescapedBrace _ _ h => simp
          | _ => simp_all
    · exact absurd rfl hc
    · -- `/`
      have : optSpec s = .error (.failure (.alternationInOptional (s.sub ('(' :: t) ['/']))) := by
        unfold optSpec
        rw [hs]
        simp [he, escOut, optFailSpec]
      rw [this]
      simp only [Except.error.injEq, Err.failure.injEq]
      constructor
      · rintro rfl; exact .alternation v rfl
      · intro h
        cases h with
        | escape e h => cases h <;> simp_all
        | nested t'' v'' h h2 => simp [IsOptional] at h
        | parameter t' v h => simp [IsParameter] at h
        | alternation => rfl
        | _ => simp_all

/-! ## `parameter` -/

theorem parameterFailure_iff {s : Span} {n : Nat} {r t rest : List Char} (hs : s.frag = '{' :: r)
    (he : erun isName r = (t, rest)) (e : PErr) :
    parSpec s n = (.error (.failure e), n) ↔ ParameterFailure s t rest e := by
  have happ := erun_append isName r
  rw [he] at happ
  simp only at happ
  have hesc : EscapeFailure s ['{'] t rest e ↔ escOut (s.sub ['{'] r) t rest = .error (.failure e) :=
    (escOut_failure_iff happ.symm).symm
  clear happ
  rcases run_head he with ⟨v, rfl⟩ | rfl | ⟨c, v, rfl, hc, hp⟩
  · have : parSpec s n = (.error (.failure e), n) ↔ escOut (s.sub ['{'] r) t ('\\' :: v) = .error (.failure e) := by
      unfold parSpec
      rw [hs]
      simp only [he]
      cases hh : escOut (s.sub ['{'] r) t ('\\' :: v) with
      | ok a => exact absurd rfl (escOut_ok hh).2
      | error e' => simp
    rw [this, ← hesc]
    clear this hesc
    constructor
    · exact fun h => .escape e h
    · intro h
      cases h with
      | escape e h => exact h
      | optional t' v h => simp [IsOptional] at h
      | nested t' v h => simp [IsParameter] at h
      | _ => simp_all
  · have : parSpec s n = (.error (.failure (.unfinishedParameter (s.sub [] ['{']))), n) := by
      unfold parSpec
      rw [hs]
      simp [he, escOut, parFailSpec]
    rw [this]
    simp only [Prod.mk.injEq, and_true, Except.error.injEq, Err.failure.injEq]
    constructor
    · rintro rfl; exact .unfinished rfl
    · intro h
      cases h with
      | escape e h => cases h <;> contradiction
      | optional t' v h => simp [IsOptional] at h
      | nested t' v h => simp [IsParameter] at h
      | unfinished => rfl
      | _ => simp_all
  · clear hesc
    have hnb : (c :: v).head? ≠ some '\\' := by simpa using hc
    rcases isName_false hp with rfl | rfl | rfl | rfl | rfl
    · -- `{`
      have : parSpec s n = (.error (.failure (parFailSpec (s.sub ('{' :: t) ('{' :: v)) (s.sub [] ['{']))), n) := by
        unfold parSpec
        rw [hs]
        simp only [he]
        rw [escOut_ne hnb]
        simp
      rw [this]
      simp only [parFailSpec, Span.sub_frag, Prod.mk.injEq, and_true, Except.error.injEq, Err.failure.injEq]
      cases ho : parOk ('{' :: v) with
      | some tv =>
        obtain ⟨t', v'⟩ := tv
        simp only
        have hio := parOk_iff.1 ho
        by_cases hcl : closedRun isName '}' v' = true
        · rw [if_pos hcl]
          rw [closedRun_iff class_name (by decide) (by decide)] at hcl
          constructor
          · rintro rfl; simpa using ParameterFailure.nested t' v' hio hcl
          · intro h
            cases h with
            | escape e h => cases h <;> simp_all
            | nested t'' v'' h _ =>
              have := parOk_iff.2 h
              rw [ho] at this
              simp only [Option.some.injEq, Prod.mk.injEq] at this
              obtain ⟨rfl, rfl⟩ := this
              simp
            | optional t' v h => simp [IsOptional] at h
            | unescapedBrace _ _ h => exact absurd ⟨t', v', hio, hcl⟩ h
            | _ => simp_all
        · rw [if_neg hcl]
          rw [closedRun_iff class_name (by decide) (by decide)] at hcl
          have hno : ¬ ∃ t' v', IsParameter ('{' :: v) t' v' ∧ Closes nameStops '}' v' := by
            rintro ⟨t2, v2, h1, h2⟩
            have := parOk_iff.2 h1
            rw [ho] at this
            simp only [Option.some.injEq, Prod.mk.injEq] at this
            obtain ⟨rfl, rfl⟩ := this
            exact hcl h2
          constructor
          · rintro rfl; simpa using ParameterFailure.unescapedBrace v rfl hno
          · intro h
            cases h with
            | escape e h => cases h <;> simp_all
            | nested t'' v'' h h2 => exact absurd ⟨t'', v'', h, h2⟩ hno
            | optional t' v h => simp [IsOptional] at h
            | unescapedBrace _ _ h => simp
            | _ => simp_all
      | none =>
        simp only
        have hno : ¬ ∃ t' v', IsParameter ('{' :: v) t' v' ∧ Closes nameStops '}' v' := by
          rintro ⟨t2, v2, h1, h2⟩
          have := parOk_iff.2 h1
          rw [ho] at this
          simp at this
        constructor
        · rintro rfl; simpa using ParameterFailure.unescapedBrace v rfl hno
        · intro h
          cases h with
          | escape e h => cases h <;> simp_all
          | nested t'' v'' h h2 => exact absurd ⟨t'', v'', h, h2⟩ hno
          | optional t' v h => simp [IsOptional] at h
          | unescapedBrace _ _ h => simp
          | _ => simp_all
    · -- `}`
      have : parSpec s n = (.ok (s.sub ('{' :: t ++ ['}']) v, ⟨s.sub ['{'] t, n⟩), n + 1) := by
        unfold parSpec
        rw [hs]
        simp [he, escOut]
      rw [this]
      simp only [reduceCtorEq, Prod.mk.injEq, false_and, false_iff]
      intro h
      cases h with
      | escape e h => cases h <;> simp_all
      | optional t'' v'' h => simp [IsOptional] at h
      | nested t' v h => simp [IsParameter] at h
      | _ => simp_all
    · -- `(`
      have : parSpec s n = (.error (.failure (parFailSpec (s.sub ('{' :: t) ('(' :: v)) (s.sub [] ['{']))), n) := by
        unfold parSpec
        rw [hs]
        simp only [he]
        rw [escOut_ne hnb]
        simp
      rw [this]
      simp only [parFailSpec, Span.sub_frag, Prod.mk.injEq, and_true, Except.error.injEq, Err.failure.injEq]
      cases ho : optOk ('(' :: v) with
      | some tv =>
        obtain ⟨t', v'⟩ := tv
        simp only
        have hio := optOk_iff.1 ho
        constructor
        · rintro rfl; simpa using ParameterFailure.optional t' v' hio
        · intro h
          cases h with
          | escape e h => cases h <;> simp_all
          | nested t'' v'' h _ => simp [IsParameter] at h
          | optional t'' v'' h =>
            have := optOk_iff.2 h
            rw [ho] at this
            simp only [Option.some.injEq, Prod.mk.injEq] at this
            obtain ⟨rfl, rfl⟩ := this
            simp
          | unescapedParen _ _ h => exact absurd ⟨t', v', hio⟩ h
          | _ => simp_all
      | none =>
        simp only
        have hno : ¬ ∃ t' v', IsOptional ('(' :: v) t' v' := by
          rintro ⟨t2, v2, h1⟩
          have := optOk_iff.2 h1
          rw [ho] at this
          simp at this
        constructor
        · rintro rfl; simpa using ParameterFailure.unescapedParen v rfl hno
        · intro h
          cases h with
          | escape e h => cases h <;> simp_all
          | nested t'' v'' h h2 => simp [IsParameter] at h
          | optional t' v h => exact absurd ⟨_, _, h⟩ hno
          | unescapedParen _ _ h => simp
          | _ => simp_all
    · exact absurd rfl hc
    · -- `/`
      have : parSpec s n = (.error (.failure (.unescapedReservedCharacter (s.sub ('{' :: t) ['/']))), n) := by
        unfold parSpec
        rw [hs]
        simp [he, escOut, parFailSpec]
      rw [this]
      simp only [Prod.mk.injEq, and_true, Except.error.injEq, Err.failure.injEq]
      constructor
      · rintro rfl; exact .unescapedSlash v rfl
      · intro h
        cases h with
        | escape e h => cases h <;> simp_all
        | optional t'' v'' h => simp [IsOptional] at h
        | nested t' v h => simp [IsParameter] at h
        | unescapedSlash => rfl
        | _ => simp_all

end CE
