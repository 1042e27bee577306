import Verif.Spec.Lookahead
import Verif.Prop.Reject
import Verif.Prop.Total

/-! # C66, C67: what `single_expression` returns, and how far the parsers look ahead -/

namespace CE
open Spec

theorem plain_iff (cs : List Char) : Plain cs ↔ NoSlash cs := by
  unfold Plain NoSlash EndOr
  constructor
  · rintro ⟨b, v, h1, h2, h3⟩
    refine ⟨b, v, h1, h2, ?_⟩
    rcases h3 with h3 | ⟨c, r, h3, h4⟩
    · exact .inl h3
    · exact .inr ⟨c, r, h3, by simpa using h4⟩
  · rintro ⟨b, v, h1, h2, h3⟩
    refine ⟨b, v, h1, h2, ?_⟩
    rcases h3 with h3 | ⟨c, r, h3, h4⟩
    · exact .inl h3
    · exact .inr ⟨c, r, h3, by simpa using h4⟩

theorem plain_piece {cs : List Char} (h : Plain cs) (hn : ¬ endsBranch cs) :
    ∃ q w b rest, ReadsBranches cs [q :: b] rest ∧ rest.head? ≠ some '/' ∧ pieceOk cs = some (q, w) := by
  obtain ⟨b, v, h1, h2, h3⟩ := (noSlash_iff cs).1 ((plain_iff cs).1 h)
  cases id h1 with
  | nil => exact absurd h2 hn
  | cons _ q w b _ hp hre => exact ⟨q, w, b, v, ⟨_, [], v, rfl, ⟨h1, h2, by simp⟩, .nil v⟩, h3, hp⟩

theorem plain_of_reads {cs : List Char} {b rest} (h : ReadsBranches cs [b] rest) (hr : rest.head? ≠ some '/') :
    Plain cs := by
  obtain ⟨h1, -, h3⟩ := h.valid
  refine ⟨b, rest, (h1 b (by simp)).1, ?_, (endOr2_iff rest).2 ⟨h3, hr⟩⟩
  have := h.append
  simpa [renderBranches] using this

theorem optional_elem {cs t v : List Char} (h : IsOptional cs t v) (hp : Plain cs) : ElemOk cs (.opt t) v := by
  have ho := optOk_iff.2 h
  have hn : ¬ endsBranch cs := by
    intro he; have := he '(' (by rw [h.1]; simp); simp at this
  obtain ⟨q, w, b, rest, h1, h2, h3⟩ := plain_piece hp hn
  have h4 : pieceOk cs = some (.opt t, v) := by unfold pieceOk; rw [ho]
  rw [h4] at h3
  simp only [Option.some.injEq, Prod.mk.injEq] at h3
  obtain ⟨rfl, rfl⟩ := h3
  exact .piece (.opt t) _ b rest h1 h2 h4

theorem text_elem {cs t v : List Char} (h : Run textStops cs t v) (ht : t ≠ []) (hp : Plain cs) :
    ElemOk cs (.text t) v := by
  have hr := (run_iff class_text).1 h
  have hn : ¬ endsBranch cs := by
    intro he; have := (endsBranch_stop he).1; rw [hr] at this; exact ht this
  obtain ⟨q, w, b, rest, h1, h2, h3⟩ := plain_piece hp hn
  cases q with
  | opt t' =>
    exfalso
    have := (pieceOk_sound h3).1
    simp only [Piece.render, List.cons_append] at this
    rw [this, erun_cons_stop class_text _ (by decide) (by decide)] at hr
    simp at hr; exact ht hr.1
  | text t' =>
    have h4 := h3
    unfold pieceOk at h3
    split at h3
    next => simp at h3
    split at h3
    · simp at h3
    split at h3
    · simp at h3
    split at h3
    · simp at h3
    simp only [Option.some.injEq, Prod.mk.injEq, Piece.text.injEq] at h3
    rw [hr] at h3
    obtain ⟨rfl, rfl⟩ := h3
    exact .piece (.text _) _ b rest h1 h2 h4

/-- C66: what `single_expression` returns, for every input and every value of the indexer. -/
theorem C66_single (s : Span) (n : Nat) (res : IRes SingleExpression × Nat) :
    singleExpression s n = res ↔ SingleOutcome s n res := by
  constructor
  · rintro rfl
    rcases singleCase s with h | ⟨e, v, h⟩ | ⟨e, h⟩
    · rw [single_nil s h]; exact .eof h
    · rw [single_ok s h]
      cases h with
      | alt bs v h hv hl ho =>
        refine .alternation bs v hl (fun b hb => ⟨(h.valid.1 b hb).1, ?_⟩) h.append
          ((endOr2_iff v).2 ⟨h.valid.2.2, hv⟩)
        simpa using onlyOpt_false.1 ho b hb
      | ws t v h hne ht hv => exact .whitespaces t v h hne ht hv
      | param t v h => exact .parameter t v (parOk_iff.1 h)
      | piece q v b rest h hr hq =>
        have hp := plain_of_reads h hr
        cases q with
        | opt t =>
          have ⟨h1, h2, _⟩ := pieceOk_sound hq
          refine .optional t v ⟨?_, h2⟩ hp
          simpa [Piece.render] using h1
        | text t =>
          have ⟨h1, h2, h3⟩ := pieceOk_sound hq
          refine .text t v ?_ h2.1 hp
          rw [run_iff class_text, h1]
          exact erun_of_escd class_text h2.2 _ (h3 rfl).1
    · rw [single_fail s h]
      cases h with
      | alternation h => exact .alternationFailure e ((C15_alternation_failure s e).1 h)
      | parameter h hh =>
        have := parameter_fail_indexer h n
        have := (C14_parameter _ _ _).1 this
        cases this with
        | failure r t w e h1 h2 h3 => exact .parameterFailure r t w e h1 h2 h3
  · intro h
    cases h with
    | eof h => exact single_nil s h n
    | alternation bs v hl hb hs hv =>
      obtain ⟨hr1, hr2⟩ := (endOr2_iff v).1 hv
      have hne : bs ≠ [] := by rintro rfl; simp at hl
      have hrb : ReadsBranches s.frag bs v := by
        rw [hs]
        refine .complete (fun b hbm => ⟨(hb b hbm).1, ?_⟩) hne hr1
        obtain ⟨q, hq, -⟩ := (hb b hbm).2
        exact List.ne_nil_of_mem hq
      exact single_ok s (.alt bs v hrb hr2 hl (onlyOpt_false.2 fun b hbm => by simpa using (hb b hbm).2)) n
    | optional t v h hp => exact single_ok s (optional_elem h hp) n
    | parameter t v h => exact single_ok s (.param t v (parOk_iff.2 h)) n
    | text t v h ht hp => exact single_ok s (text_elem h ht hp) n
    | whitespaces t v h hne ht hv => exact single_ok s (.ws t v h hne ht hv) n
    | alternationFailure e h => exact single_fail s (.alternation ((C15_alternation_failure s e).2 h)) n
    | parameterFailure r t w e h1 h2 h3 =>
      refine single_fail s (.parameter ?_ (by rw [h1]; rfl)) n
      rw [(C14_parameter s 0 _).2 (.failure r t w e h1 h2 h3)]

/-- Non-vacuity: an optional followed by text, a parameter, and a failure far from the beginning. -/
example : SingleOutcome ⟨3, 1, "(a)b {c}".toList⟩ 4 (.ok (⟨6, 1, "b {c}".toList⟩, .optional ⟨⟨4, 1, ['a']⟩⟩), 4) ∧
    SingleOutcome ⟨0, 1, "{a}b".toList⟩ 4 (.ok (⟨3, 1, ['b']⟩, .parameter ⟨⟨1, 1, ['a']⟩, 4⟩), 5) ∧
    SingleOutcome ⟨0, 1, "a(b)c/".toList⟩ 4 (.error (.failure (.emptyAlternation ⟨5, 1, ['/']⟩)), 4) :=
  ⟨(C66_single _ _ _).1 rfl, (C66_single _ _ _).1 rfl, (C66_single _ _ _).1 rfl⟩

/-! ## C67: lookahead -/

theorem sub_eq {s : Span} {x : List Char} {y : List Char} {o l z} (h : s.sub x y = ⟨o, l, z⟩) :
    s.offset + blen x = o ∧ s.line + nlCount x = l ∧ y = z := by
  simpa [Span.sub] using h

/-- C67: what `optional` returns depends only on what it consumes. -/
theorem C67_optional (o l : Nat) (x y y' : List Char) : SameOn optional o l x y y' := by
  intro a o' l' h
  have := (C13_optional _ _).1 h
  generalize hg : (Except.ok ((⟨o', l', y⟩ : Span), a) : IRes Optional) = g at this
  cases this with
  | ok t v ho =>
    simp only [Except.ok.injEq, Prod.mk.injEq] at hg
    obtain ⟨h1, rfl⟩ := hg
    obtain ⟨h2, h3, rfl⟩ := sub_eq h1.symm
    obtain ⟨h4, h5, h6⟩ := ho
    have hx : x = '(' :: t ++ [')'] := List.append_cancel_right (bs := v) (by simpa using h4)
    subst hx
    rw [C13_optional]
    have := OptionalOutcome.ok (s := ⟨o, l, '(' :: t ++ [')'] ++ y'⟩) t y' ⟨by simp, h5, h6⟩
    simpa only [Span.sub, h2, h3] using this
  | notOptional => simp at hg
  | failure => simp at hg

/-- C67: what `parameter` returns depends only on what it consumes. -/
theorem C67_parameter (n o l : Nat) (x y y' : List Char) : SameOn (fun s => (parameter s n).1) o l x y y' := by
  intro a o' l' h
  have := (C14_parameter ⟨o, l, x ++ y⟩ n _).1 rfl
  simp only at h
  generalize hg : parameter ⟨o, l, x ++ y⟩ n = g at this h
  cases this with
  | ok t v ho =>
    simp only [Except.ok.injEq, Prod.mk.injEq] at h
    obtain ⟨h1, rfl⟩ := h
    obtain ⟨h2, h3, rfl⟩ := sub_eq h1
    obtain ⟨h4, h5⟩ := ho
    have hx : x = '{' :: t ++ ['}'] := List.append_cancel_right (bs := v) (by simpa using h4)
    subst hx
    have := ParameterOutcome.ok (s := ⟨o, l, '{' :: t ++ ['}'] ++ y'⟩) (n := n) t y' ⟨by simp, h5⟩
    simp only
    rw [(C14_parameter _ _ _).2 this]
    simp only [Span.sub, h2, h3]
  | notParameter => simp at h
  | failure => simp at h

theorem locatePieces_frag (o l : Nat) (f f' pre : List Char) (b : List Piece) :
    locatePieces ⟨o, l, f⟩ pre b = locatePieces ⟨o, l, f'⟩ pre b := by
  induction b generalizing pre with
  | nil => rfl
  | cons p b ih => cases p <;> simp [locatePieces, Piece.locate, Span.sub, ih]

theorem locateBranches_frag (o l : Nat) (f f' pre : List Char) (bs : List (List Piece)) :
    locateBranches ⟨o, l, f⟩ pre bs = locateBranches ⟨o, l, f'⟩ pre bs := by
  induction bs generalizing pre with
  | nil => rfl
  | cons b bs ih => simp [locateBranches, locatePieces_frag o l f f', ih]

theorem run_swap {x y y' : List Char} (h : Run textStops (x ++ y) x y) (hy : (erun isWithoutWhitespace y').1 = []) :
    Run textStops (x ++ y') x y' := by
  rw [run_iff class_text]
  exact erun_of_escd class_text h.2.1 _ hy

/-- C67: what `alternative` returns depends only on what it consumes and on the next character. -/
theorem C67_alternative (o l : Nat) (x y y' : List Char) (hy : y'.head? = y.head?) :
    SameOn alternative o l x y y' := by
  intro a o' l' h
  have := (C17_alternative _ _).1 h
  generalize hg : (Except.ok ((⟨o', l', y⟩ : Span), a) : IRes Alternative) = g at this
  cases this with
  | optional r q hh ho =>
    simp only [Except.ok.injEq, Prod.mk.injEq] at hg
    obtain ⟨rfl, rfl⟩ := hg
    have h1 := C67_optional o l x y y' _ _ _ ((C13_optional _ _).2 ho)
    rw [C17_alternative]
    refine .optional _ _ ?_ ((C13_optional _ _).1 h1)
    have := (C13_optional _ _).1 h1
    generalize hg : (Except.ok ((⟨o', l', y'⟩ : Span), q) : IRes Optional) = g at this
    cases this with
    | ok t v ho => rw [ho.1]; rfl
    | notOptional => simp at hg
    | failure => simp at hg
  | text t rest hh hr hne hb =>
    simp only [Except.ok.injEq, Prod.mk.injEq] at hg
    obtain ⟨h1, rfl⟩ := hg
    obtain ⟨h2, h3, rfl⟩ := sub_eq h1.symm
    have hx : x = t := List.append_cancel_right (bs := rest) hr.1
    subst hx
    rw [C17_alternative]
    have hstop : (erun isWithoutWhitespace y').1 = [] := by
      refine erun_stop class_text ?_ (by decide)
      intro c hc
      rw [hy] at hc
      rcases run_head ((run_iff class_text).1 hr) with ⟨v, rfl⟩ | rfl | ⟨c', v, rfl, h1, h2⟩
      · simp at hb
      · simp at hc
      · simp only [List.head?_cons, Option.some.injEq] at hc
        subst hc
        exact Classical.byContradiction fun hn => by simp [(class_text c').2 ⟨h1, hn⟩] at h2
    have := AlternativeOutcome.text (s := ⟨o, l, x ++ y'⟩) x y' ?_ (run_swap hr hstop) hne (by rw [hy]; exact hb)
    · simpa only [Span.sub, h2, h3, blen_nil, nlCount_nil] using this
    · cases x with
      | nil => exact absurd rfl hne
      | cons c x => simpa using hh
  | optionalFailure => simp at hg
  | textFailure => simp at hg
  | none => simp at hg

/-- C67: what `alternation` returns depends only on what it consumes, if the rest ends it as well. -/
theorem C67_alternation (o l : Nat) (x y y' : List Char) (hy : EndOr [' ', '{'] y') :
    SameOn alternation o l x y y' := by
  intro a o' l' h
  obtain ⟨bs, rest, hl, hb, hs, hr, h1, rfl⟩ := (C15_ok _ _ _).1 h
  obtain ⟨h2, h3, rfl⟩ := sub_eq h1.symm
  have hx : x = renderBranches bs := List.append_cancel_right (bs := rest) hs
  subst hx
  rw [C15_ok]
  refine ⟨bs, y', hl, hb, rfl, hy, ?_, ?_⟩
  · simp only [Span.sub, h2, h3]
  · exact locateBranches_frag _ _ _ _ _ _

theorem boundary_other {x y : List Char} (hx : x.head? ≠ some '{' ∧ x.head? ≠ some ' ') (h : Boundary x y) :
    EndOr [' ', '{'] y := by
  unfold Boundary at h
  split at h
  · simp_all
  · simp_all
  · exact h

theorem branches_head {bs : List (List Piece)} (hl : 2 ≤ bs.length) (hb : Branches bs) :
    (renderBranches bs).head? ≠ some '{' ∧ (renderBranches bs).head? ≠ some ' ' := by
  match bs, hl with
  | b :: b' :: bs, _ =>
    obtain ⟨⟨h1, -⟩, h2⟩ := hb b (by simp)
    cases b with
    | nil => exact absurd rfl h2
    | cons q b =>
      rw [renderBranches_cons]
      have := h1 q (by simp)
      cases q with
      | opt t => simp [renderPieces, Piece.render]
      | text t =>
        obtain ⟨h3, h4⟩ := this
        cases h4 with
        | nil => exact absurd rfl h3
        | char c cs _ h5 =>
          constructor <;> (intro hc; simp [renderPieces, Piece.render] at hc; subst hc; simp [textStops] at h5)
        | esc => simp [renderPieces, Piece.render]

/-- C67: what `single_expression` returns depends only on what it consumes, provided the rest ends the element: any
rest after a parameter, any rest not starting with a space after whitespace, and a rest that is empty or starts with
a space or a parameter after anything else. -/
theorem C67_single (n o l : Nat) (x y y' : List Char) (hy : Boundary x y') :
    SameOn (fun s => (singleExpression s n).1) o l x y y' := by
  intro a o' l' h
  have := (C66_single ⟨o, l, x ++ y⟩ n _).1 rfl
  simp only at h ⊢
  generalize hg : singleExpression ⟨o, l, x ++ y⟩ n = g at this h
  cases this with
  | eof => simp at h
  | alternationFailure => simp at h
  | parameterFailure => simp at h
  | alternation bs v hl hb hs hv =>
    simp only [Except.ok.injEq, Prod.mk.injEq] at h
    obtain ⟨h1, rfl⟩ := h
    obtain ⟨h2, h3, rfl⟩ := sub_eq h1
    have hx : x = renderBranches bs := List.append_cancel_right (bs := v) hs
    subst hx
    have hbr : Branches bs := fun b hbm => ⟨(hb b hbm).1, by
      obtain ⟨q, hq, -⟩ := (hb b hbm).2; exact List.ne_nil_of_mem hq⟩
    rw [(C66_single _ n _).2 (.alternation bs y' hl hb rfl (boundary_other (branches_head hl hbr) hy))]
    simp only [Span.sub, h2, h3, locateBranches_frag o l _ (renderBranches bs ++ v)]
  | optional t v ho hp =>
    simp only [Except.ok.injEq, Prod.mk.injEq] at h
    obtain ⟨h1, rfl⟩ := h
    obtain ⟨h2, h3, rfl⟩ := sub_eq h1
    obtain ⟨h4, h5, h6⟩ := ho
    have hx : x = '(' :: t ++ [')'] := List.append_cancel_right (bs := v) (by simpa using h4)
    subst hx
    have hp' : Plain ('(' :: t ++ [')'] ++ y') :=
      ⟨[.opt t], y', ⟨by simpa [Piece.Valid] using ⟨h5, h6⟩, trivial⟩, by simp [renderPieces, Piece.render],
        boundary_other (by simp) hy⟩
    rw [(C66_single _ n _).2 (.optional t y' ⟨by simp, h5, h6⟩ hp')]
    simp only [Span.sub, h2, h3]
  | parameter t v ho =>
    simp only [Except.ok.injEq, Prod.mk.injEq] at h
    obtain ⟨h1, rfl⟩ := h
    obtain ⟨h2, h3, rfl⟩ := sub_eq h1
    obtain ⟨h4, h5⟩ := ho
    have hx : x = '{' :: t ++ ['}'] := List.append_cancel_right (bs := v) (by simpa using h4)
    subst hx
    rw [(C66_single _ n _).2 (.parameter t y' ⟨by simp, h5⟩)]
    simp only [Span.sub, h2, h3]
  | text t v hr hne hp =>
    simp only [Except.ok.injEq, Prod.mk.injEq] at h
    obtain ⟨h1, rfl⟩ := h
    obtain ⟨h2, h3, rfl⟩ := sub_eq h1
    have hx : x = t := List.append_cancel_right (bs := v) hr.1
    subst hx
    have hy' : EndOr [' ', '{'] y' := by
      refine boundary_other ?_ hy
      have := hr.2.1
      cases this with
      | nil => exact absurd rfl hne
      | char c cs _ h5 =>
        clear hg hp hr
        constructor <;> (intro hc; simp at hc; subst hc; simp [textStops] at h5)
      | esc => simp
    have hp' : Plain (x ++ y') :=
      ⟨[.text x], y', ⟨by simpa [Piece.Valid] using ⟨hne, hr.2.1⟩, trivial⟩, by simp [renderPieces, Piece.render], hy'⟩
    rw [(C66_single _ n _).2 (.text x y' (run_swap hr (endsBranch_stop ((endOr2_iff y').1 hy').1).1) hne hp')]
    simp only [Span.sub, h2, h3]
  | whitespaces t v hs hne ht hv =>
    simp only [Except.ok.injEq, Prod.mk.injEq] at h
    obtain ⟨h1, rfl⟩ := h
    obtain ⟨h2, h3, rfl⟩ := sub_eq h1
    have hx : x = t := List.append_cancel_right (bs := v) hs
    subst hx
    have hv' : y'.head? ≠ some ' ' := by
      cases x with
      | nil => exact absurd rfl hne
      | cons c x => have := ht c (by simp); subst this; exact hy
    rw [(C66_single _ n _).2 (.whitespaces x y' rfl hne ht hv')]
    simp only [Span.sub, h2, h3]

/-! ### `single_expression` looks arbitrarily far ahead -/

theorem optionals_render (n : Nat) : optionals n = renderPieces (List.replicate n (.opt ['b'])) := by
  induction n with
  | zero => rfl
  | succ n ih => simp [optionals, List.replicate_succ, renderPieces, Piece.render] at ih ⊢; exact ih

theorem optionals_valid (n : Nat) : ValidPieces (.text ['a'] :: List.replicate n (.opt ['b'])) := by
  have ha : Escd textStops ['a'] := .char _ _ (by decide) (by decide) .nil
  have hb : Escd optStops ['b'] := .char _ _ (by decide) (by decide) .nil
  refine ⟨?_, ?_⟩
  · intro p hp
    rcases List.mem_cons.1 hp with rfl | hp
    · exact ⟨by simp, ha⟩
    · rw [List.eq_of_mem_replicate hp]; exact ⟨by simp, hb⟩
  · cases n with
    | zero => trivial
    | succ n =>
      refine ⟨by simp [Piece.Bad, Piece.isText], ?_⟩
      change NoAdj _ (List.replicate (n + 1) _)
      induction n with
      | zero => trivial
      | succ n ih => exact ⟨by simp [Piece.Bad, Piece.isText], ih⟩

/-- C67: no bound on the lookahead of `single_expression` exists: the text `a` followed by any number of optionals is
read as the text, unless a `/` follows the optionals; then everything is one alternation, or even a failure. -/
theorem C67_unbounded (n : Nat) :
    singleExpression (Span.new ('a' :: optionals n)) 0 =
      (.ok (⟨1, 1, optionals n⟩, .text ⟨0, 1, ['a']⟩), 0) ∧
    (∃ a, singleExpression (Span.new ('a' :: optionals n ++ ['/', 'c'])) 0 =
      (.ok (⟨3 * n + 3, 1, []⟩, .alternation a), 0)) ∧
    singleExpression (Span.new ('a' :: optionals n ++ ['/'])) 0 =
      (.error (.failure (.emptyAlternation ⟨3 * n + 1, 1, ['/']⟩)), 0) := by
  have hv := optionals_valid n
  have hr := optionals_render n
  have hb : blen (optionals n) = 3 * n ∧ nlCount (optionals n) = 0 := by
    clear hv hr
    induction n with
    | zero => exact ⟨rfl, rfl⟩
    | succ n ih => 
      have h1 : blen ['(', 'b', ')'] = 3 ∧ nlCount ['(', 'b', ')'] = 0 := ⟨rfl, rfl⟩
      have h2 : optionals (n + 1) = ['(', 'b', ')'] ++ optionals n := rfl
      rw [h2, blen_append, nlCount_append, h1.1, h1.2, ih.1, ih.2]
      omega
  have hstop : (erun isWithoutWhitespace (optionals n)).1 = [] := by
    cases n with
    | zero => rfl
    | succ n => exact erun_stop class_text (by simp [optionals, textStops]) (by decide)
  refine ⟨?_, ?_, ?_⟩
  · rw [C66_single]
    refine .text ['a'] (optionals n) ?_ (by simp) ⟨_, [], hv, ?_, .inl rfl⟩
    · rw [run_iff class_text]
      exact erun_of_escd (t := ['a']) class_text (.char _ _ (by decide) (by decide) .nil) _ hstop
    · simp [Span.new, renderPieces, Piece.render, hr]
  · refine ⟨locateBranches (Span.new ('a' :: optionals n ++ ['/', 'c'])) []
      [.text ['a'] :: List.replicate n (.opt ['b']), [.text ['c']]], ?_⟩
    have := SingleOutcome.alternation (s := Span.new ('a' :: optionals n ++ ['/', 'c'])) (n := 0)
      [.text ['a'] :: List.replicate n (.opt ['b']), [.text ['c']]] [] (by simp) ?_ ?_ (.inl rfl)
    · rw [(C66_single _ _ _).2 this]
      have h1 : renderBranches [.text ['a'] :: List.replicate n (.opt ['b']), [.text ['c']]] =
          ['a'] ++ optionals n ++ ['/', 'c'] := by simp [renderBranches, renderPieces, Piece.render, hr]
      have h2 : blen ['a'] = 1 ∧ nlCount ['a'] = 0 ∧ blen ['/', 'c'] = 2 ∧ nlCount ['/', 'c'] = 0 := ⟨rfl, rfl, rfl, rfl⟩
      simp only [h1, Span.sub, Span.new, blen_append, nlCount_append, hb, h2]
      simp only [Prod.mk.injEq, Except.ok.injEq, Span.mk.injEq, and_true]
      omega
    · intro b hb'
      simp only [List.mem_cons, List.not_mem_nil, or_false] at hb'
      rcases hb' with rfl | rfl
      · exact ⟨hv, .text ['a'], by simp, rfl⟩
      · exact ⟨⟨by simpa [Piece.Valid] using Escd.char _ _ (by decide) (by decide) .nil, trivial⟩, .text ['c'], by simp, rfl⟩
    · simp [Span.new, renderBranches, renderPieces, Piece.render, hr]
  · rw [C66_single]
    have := AlternationFailure.emptyLater (s := Span.new ('a' :: optionals n ++ ['/']))
      [.text ['a'] :: List.replicate n (.opt ['b'])] [] (by simp) (by simp [Branches]; exact hv) ?_ (.inl rfl)
    · have h1 : renderBranches [.text ['a'] :: List.replicate n (.opt ['b'])] = ['a'] ++ optionals n := by
        simp [renderBranches, renderPieces, Piece.render, hr]
      have h2 : blen ['a'] = 1 ∧ nlCount ['a'] = 0 := ⟨rfl, rfl⟩
      have h3 := SingleOutcome.alternationFailure (n := 0) _ this
      simp only [h1, Span.sub, Span.new, blen_append, nlCount_append, hb, h2] at h3
      have h4 : 3 * n + 1 = 0 + (1 + 3 * n) := by omega
      rw [h4]
      exact h3
    · simp [Span.new, renderBranches, renderPieces, Piece.render, hr]

/-- Non-vacuity: the rest may be replaced, and where it must not. -/
example : SameOn optional 4 1 "(a)".toList "b".toList "/{".toList ∧
    Boundary "{x}".toList "/".toList ∧ Boundary "a".toList " b".toList ∧ ¬ Boundary "a".toList "b".toList ∧
    (singleExpression (Span.new "a".toList) 0).1 = .ok (⟨1, 1, []⟩, .text ⟨0, 1, ['a']⟩) :=
  ⟨C67_optional _ _ _ _ _, trivial, .inr ⟨' ', ['b'], rfl, by simp⟩,
    by rintro (h | ⟨c, r, h, h'⟩)
       · simp at h
       · simp at h; rw [← h.1] at h'; simp at h', rfl⟩

end CE
