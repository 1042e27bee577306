import Verif.Proof.Alternation

/-! # Closed forms of `single_expression` and `expression` -/

namespace CE
open Spec

/-- The element of an expression that a piece is. -/
def _root_.CE.Spec.Piece.toElem : Piece → Elem
  | .text t => .text t
  | .opt t => .opt t

theorem toElem_render (q : Piece) : q.toElem.render = q.render := by cases q <;> rfl

/-- What `single_expression` reads from `cs`: element `e`, leaving `v`. -/
inductive ElemOk (cs : List Char) : Elem → List Char → Prop
  | alt (bs v) (h : ReadsBranches cs bs v) (hv : v.head? ≠ some '/') (hl : 2 ≤ bs.length) (ho : onlyOpt bs = false) :
      ElemOk cs (.alt bs) v
  | ws (t v) (h : cs = t ++ v) (hne : t ≠ []) (ht : ∀ c ∈ t, c = ' ') (hv : v.head? ≠ some ' ') : ElemOk cs (.ws t) v
  | param (t v) (h : parOk cs = some (t, v)) : ElemOk cs (.param t) v
  | piece (q v b rest) (h : ReadsBranches cs [q :: b] rest) (hr : rest.head? ≠ some '/')
      (hq : pieceOk cs = some (q, v)) : ElemOk cs q.toElem v

/-- `single_expression` fails irrecoverably. -/
inductive SingleFail (s : Span) (e : PErr) : Prop
  | alternation (h : alternation s = .error (.failure e))
  | parameter (h : (parameter s 0).1 = .error (.failure e)) (hh : s.frag.head? = some '{')

theorem optional_ne (s : Span) (h : s.frag.head? ≠ some '(') : optional s = .error (.error (.other s .tag)) := by
  rw [optional_eq]
  unfold optSpec
  split
  next r hr => rw [hr] at h; simp at h
  rfl

theorem parameter_ne (s : Span) (n : Nat) (h : s.frag.head? ≠ some '{') :
    parameter s n = (.error (.error (.other s .tag)), n) := by
  rw [parameter_eq]
  unfold parSpec
  split
  next r hr => rw [hr] at h; simp at h
  rfl

theorem textParser_stop (s : Span) (h : endsBranch s.frag) : textParser s = .error (.error (.other s .verify)) := by
  obtain ⟨h1, h2⟩ := endsBranch_stop h
  have happ := erun_append isWithoutWhitespace s.frag
  rw [h1] at happ
  simp only [List.nil_append] at happ
  rw [textParser_eq, escOut_ne (by rw [happ]; exact h2)]
  simp [h1]

theorem takeWhile_spaces {t v : List Char} (ht : ∀ c ∈ t, c = ' ') (hv : v.head? ≠ some ' ') :
    (t ++ v).takeWhile isWhitespace = t ∧ (t ++ v).dropWhile isWhitespace = v := by
  induction t with
  | nil =>
    cases v with
    | nil => simp
    | cons c v => simp at hv; simp [isWhitespace, hv]
  | cons c t ih =>
    have hc := ht c (by simp)
    obtain ⟨h1, h2⟩ := ih (fun c hc => ht c (by simp [hc]))
    subst hc
    simp [isWhitespace] at h1 h2 ⊢
    exact ⟨h1, h2⟩

theorem parSpec_head_error {s : Span} {n : Nat} (h : s.frag.head? = some '{') :
    ∀ k e, parSpec s n ≠ (.error (.error e), k) := by
  intro k e hp
  obtain ⟨r, hr⟩ := eq_cons_of_head? h
  unfold parSpec at hp
  rw [hr] at hp
  simp only at hp
  split at hp
  next e he => obtain ⟨pe, rfl, -⟩ := escOut_err he; simp at hp
  split at hp <;> simp at hp

theorem single_ok (s : Span) {e : Elem} {v : List Char} (h : ElemOk s.frag e v) (n : Nat) :
    singleExpression s n = (.ok (s.sub e.render v, e.locate s [] n), n + e.params) := by
  unfold singleExpression altS
  simp only [P.lift, pmap]
  cases h with
  | alt bs v h hv hl ho =>
    rw [alternation_ok s h hv, if_neg (by omega)]
    simp [ho, Elem.render, Elem.locate, Elem.params]
  | ws t v h hne ht hv =>
    obtain ⟨c, t', rfl⟩ : ∃ c t', t = c :: t' := by
      cases t with
      | nil => exact absurd rfl hne
      | cons c t' => exact ⟨c, t', rfl⟩
    have hc := ht c (by simp)
    have hh : s.frag.head? = some ' ' := by rw [h, ← hc]; simp
    have he : endsBranch s.frag := by intro d hd; rw [hh] at hd; simp at hd; simp [← hd]
    rw [alternation_no_branch s he (by rw [hh]; simp)]
    simp only [altGo, P.lift, pmap, pmapS]
    rw [optional_ne s (by rw [hh]; simp)]
    simp only
    rw [parameter_ne s n (by rw [hh]; simp)]
    simp only
    rw [textParser_stop s he]
    simp only
    obtain ⟨h1, h2⟩ := takeWhile_spaces ht hv
    rw [takeWhile1_eq, h, h1, h2]
    simp [Elem.render, Elem.locate, Elem.params]
  | param t v h =>
    have hs := (parOk_sound h).1
    have hh : s.frag.head? = some '{' := by rw [hs]; simp
    have he : endsBranch s.frag := by intro d hd; rw [hh] at hd; simp at hd; simp [← hd]
    rw [alternation_no_branch s he (by rw [hh]; simp)]
    simp only [altGo, P.lift, pmap, pmapS]
    rw [optional_ne s (by rw [hh]; simp)]
    simp only
    rw [parameter_eq, parSpec_of_parOk n h]
    simp [Elem.render, Elem.locate, Elem.params]
  | piece q v b rest h hr hq =>
    rw [alternation_ok s h hr]
    simp only [List.length_singleton, if_true]
    simp only [altGo, P.lift, pmap, pmapS]
    have hal := alternative_eq s
    rw [hq] at hal
    unfold pieceOk at hq
    split at hq
    next t v' ho =>
      simp only [Option.some.injEq, Prod.mk.injEq] at hq
      obtain ⟨rfl, rfl⟩ := hq
      rw [optional_eq, optSpec_of_optOk ho]
      simp [Elem.render, Elem.locate, Elem.params, Piece.toElem]
    next ho =>
      split at hq
      · simp at hq
      next hno =>
        split at hq
        · simp at hq
        next hne =>
          split at hq
          · simp at hq
          next hb =>
            simp only [Option.some.injEq, Prod.mk.injEq] at hq
            obtain ⟨rfl, rfl⟩ := hq
            rw [optional_ne s hno]
            simp only
            have hnb : s.frag.head? ≠ some '{' := by
              intro hc
              obtain ⟨r, hr⟩ := eq_cons_of_head? hc
              rw [hr, erun_cons_stop class_text _ (by decide) (by decide)] at hne
              exact hne rfl
            rw [parameter_ne s n hnb]
            simp only
            rw [textParser_eq, escOut_ne hb]
            simp [hne, Elem.render, Elem.locate, Elem.params, Piece.toElem]

theorem single_nil (s : Span) (h : s.frag = []) (n : Nat) :
    singleExpression s n = (.error (.error (.other s .alt)), n) := by
  have he : endsBranch s.frag := by rw [h]; intro c hc; simp at hc
  unfold singleExpression altS
  simp only [P.lift, pmap]
  rw [alternation_no_branch s he (by rw [h]; simp)]
  simp only [altGo, P.lift, pmap, pmapS]
  rw [optional_ne s (by rw [h]; simp)]
  simp only
  rw [parameter_ne s n (by rw [h]; simp)]
  simp only
  rw [textParser_stop s he]
  simp only
  rw [takeWhile1_eq, h]
  simp [PErr.or, PErr.append, PErr.fromErrorKind]

theorem parameter_fail_indexer {s : Span} {e : PErr} (h : (parameter s 0).1 = .error (.failure e)) (n : Nat) :
    parameter s n = (.error (.failure e), n) := by
  rw [parameter_eq] at h ⊢
  unfold parSpec at h ⊢
  split
  next r hr =>
    rw [hr] at h
    simp only at h
    cases he : escOut (s.sub ['{'] r) (erun isName r).1 (erun isName r).2 with
    | error e' => rw [he] at h; simp only at h ⊢; rw [h]
    | ok a =>
      rw [he] at h
      simp only at h ⊢
      split
      next v hv => rw [hv] at h; simp at h
      next hv =>
        split at h
        next v hv' => simp at h
        simpa using h
  next hn =>
    split at h
    next r hr => exact absurd hr (hn r)
    simp at h

theorem single_fail (s : Span) {e : PErr} (h : SingleFail s e) (n : Nat) :
    singleExpression s n = (.error (.failure e), n) := by
  unfold singleExpression altS
  simp only [P.lift, pmap]
  cases h with
  | alternation h => rw [h]
  | parameter h hh =>
    have he : endsBranch s.frag := by intro d hd; rw [hh] at hd; simp at hd; simp [← hd]
    rw [alternation_no_branch s he (by rw [hh]; simp)]
    simp only [altGo, P.lift, pmap, pmapS]
    rw [optional_ne s (by rw [hh]; simp)]
    simp only
    rw [parameter_fail_indexer h]

theorem spaces_split (cs : List Char) : ∃ t v, cs = t ++ v ∧ (∀ c ∈ t, c = ' ') ∧ v.head? ≠ some ' ' := by
  induction cs with
  | nil => exact ⟨[], [], by simp⟩
  | cons c cs ih =>
    by_cases hc : c = ' '
    · obtain ⟨t, v, h1, h2, h3⟩ := ih
      exact ⟨c :: t, v, by simp [h1], by simpa [hc] using h2, h3⟩
    · exact ⟨[], c :: cs, by simp, by simp, by simpa using hc⟩

/-- `single_expression` reads an element, fails, or the input is empty. -/
theorem singleCase (s : Span) : s.frag = [] ∨ (∃ e v, ElemOk s.frag e v) ∨ ∃ e, SingleFail s e := by
  cases altCase s with
  | noBranchSlash r h => exact .inr (.inr ⟨_, .alternation (alternation_no_branch_slash s r h)⟩)
  | noBranch h hs =>
    cases hf : s.frag with
    | nil => exact .inl rfl
    | cons c r =>
      right
      have hc := h c (by simp [hf])
      rcases hc with rfl | rfl | rfl
      · left
        obtain ⟨t, v, h1, h2, h3⟩ := spaces_split (' ' :: r)
        refine ⟨.ws t, v, .ws t v h1 ?_ h2 h3⟩
        rintro rfl
        simp at h1
        rw [← h1] at h3; simp at h3
      · rcases hp : parSpec s 0 with ⟨e | ⟨r', p⟩, m⟩
        · right
          obtain ⟨_, _, ⟨pe, rfl⟩ | rfl⟩ := parSpec_err hp
          · exact ⟨pe, .parameter (by rw [parameter_eq, hp]) (by simp [hf])⟩
          · exact absurd hp (parSpec_head_error (by simp [hf]) _ _)
        · left
          obtain ⟨t, v, h', -⟩ := parSpec_ok hp
          exact ⟨.param t, v, .param t v (by rw [← hf]; exact h')⟩
      · rw [hf] at hs; simp at hs
  | failFirst b v e h hn hf => exact .inr (.inr ⟨e, .alternation (alternation_fail_first s h hn hf)⟩)
  | failLater bs r b v e h hb hn he => exact .inr (.inr ⟨e, .alternation (alternation_fail_later s h hb hn he)⟩)
  | empty bs r h hr => exact .inr (.inr ⟨_, .alternation (alternation_empty s h hr)⟩)
  | full bs rest h hr =>
    right
    have hv := h.valid
    by_cases hl : bs.length = 1
    · left
      obtain ⟨b, hb⟩ := List.length_eq_one_iff.1 hl
      subst hb
      obtain ⟨b', bs', v, hbb, h1, h2⟩ := id h
      simp only [List.cons.injEq] at hbb
      obtain ⟨rfl, rfl⟩ := hbb
      obtain ⟨h3, h4, h5⟩ := h1
      generalize hcs : s.frag = cs at h h3 ⊢
      cases h3 with
      | nil => exact absurd rfl h5
      | cons _ q v' b _ hp hre => exact ⟨q.toElem, v', .piece q v' b rest h hr hp⟩
    · have hl2 : 2 ≤ bs.length := by
        have : bs.length ≠ 0 := by simpa using hv.2.1
        omega
      cases ho : onlyOpt bs with
      | true =>
        right
        refine ⟨_, .alternation (e := .onlyOptionalInAlternation (s.sub [] (renderBranches bs))) ?_⟩
        rw [alternation_ok s h hr, if_neg hl]
        simp [ho]
      | false => exact .inl ⟨.alt bs, rest, .alt bs rest h hr hl2 ho⟩

/-! ## Validity of what is read -/

theorem ElemOk.append {cs e v} (h : ElemOk cs e v) : cs = e.render ++ v := by
  cases h with
  | alt bs v h hv hl ho => exact h.append
  | ws t v h => exact h
  | param t v h => exact (parOk_sound h).1
  | piece q v b rest h hr hq => rw [toElem_render]; exact (pieceOk_sound hq).1

theorem onlyOpt_false {bs : List (List Piece)} : onlyOpt bs = false ↔ ∀ b ∈ bs, b.any Piece.isText = true := by
  simp [onlyOpt]

theorem ElemOk.valid {cs e v} (h : ElemOk cs e v) : e.Valid := by
  cases h with
  | alt bs v h hv hl ho => exact ⟨hl, fun b hb => ⟨(h.valid.1 b hb).1, onlyOpt_false.1 ho b hb⟩⟩
  | ws t v h hne ht => exact ⟨hne, ht⟩
  | param t v h => exact (parOk_sound h).2
  | piece q v b rest h hr hq =>
    have := (pieceOk_sound hq).2.1
    cases q <;> exact this

theorem Elem.render_ne_nil {e : Elem} (h : e.Valid) : e.render ≠ [] := by
  cases e with
  | alt bs =>
    cases bs with
    | nil => simp [Elem.Valid] at h
    | cons b bs =>
      simp only [Elem.render, renderBranches_cons]
      obtain ⟨h1, h2⟩ := h
      cases bs with
      | nil => simp at h1
      | cons b' bs' => simp
  | opt t => simp [Elem.render]
  | param t => simp [Elem.render]
  | text t => exact h.1
  | ws t => exact h.1

/-- An element of text, an optional or an alternation starts where a piece starts. -/
theorem ElemOk.piece_or {cs e v} (h : ElemOk cs e v) :
    (∃ t, e = .ws t) ∨ (∃ t, e = .param t) ∨ ∃ q v', pieceOk cs = some (q, v') := by
  cases h with
  | alt bs v h hv hl ho =>
    obtain ⟨b, bs', v', rfl, h1, h2⟩ := h
    obtain ⟨h3, h4, h5⟩ := h1
    cases h3 with
    | nil => exact absurd rfl h5
    | cons _ q v' b _ hp hre => exact .inr (.inr ⟨q, _, hp⟩)
  | ws t v h => exact .inl ⟨t, rfl⟩
  | param t v h => exact .inr (.inl ⟨t, rfl⟩)
  | piece q v b rest h hr hq => exact .inr (.inr ⟨q, v, hq⟩)

theorem piece_not_alt {cs q v b rest} (h : ReadsBranches cs [q :: b] rest) (hr : rest.head? ≠ some '/')
    (hq : pieceOk cs = some (q, v)) {bs v'} (h' : ReadsBranches v bs v') : bs.length < 2 := by
  obtain ⟨b1, bs1, w, hbb, h1, h2⟩ := h
  simp only [List.cons.injEq] at hbb
  obtain ⟨rfl, rfl⟩ := hbb
  cases h2
  obtain ⟨h3, h4, -⟩ := h1
  obtain ⟨b2, bs2, w2, rfl, h5, h6⟩ := h'
  cases h3 with
  | cons _ _ v2 _ _ hp hre =>
    rw [hq] at hp
    simp only [Option.some.injEq, Prod.mk.injEq, true_and] at hp
    subst hp
    obtain ⟨rfl, rfl⟩ := hre.functional h5.1 (pieceOk_none_of_ends h4) (pieceOk_none_of_ends h5.2.1)
    cases h6 with
    | nil => simp
    | cons r b3 v3 bs3 _ _ _ => simp at hr

theorem ElemOk.adj {cs e v e' v'} (h : ElemOk cs e v) (h' : ElemOk v e' v') : ¬ Elem.Bad e e' := by
  cases h with
  | alt bs v h hv hl ho =>
    have hn := pieceOk_none_of_ends h.valid.2.2
    rcases h'.piece_or with ⟨t, rfl⟩ | ⟨t, rfl⟩ | ⟨q, w, hw⟩
    · simp [Elem.Bad]
    · simp [Elem.Bad]
    · rw [hn] at hw; simp at hw
  | param t v h => cases e' <;> simp [Elem.Bad]
  | ws t v h hne ht hv =>
    cases h' with
    | ws t' v' h1 hne' ht' hv' =>
      cases t' with
      | nil => exact absurd rfl hne'
      | cons c t' => have := ht' c (by simp); rw [h1, this] at hv; simp at hv
    | piece q => cases q <;> simp [Elem.Bad, Piece.toElem]
    | alt => simp [Elem.Bad]
    | param => simp [Elem.Bad]
  | piece q v b rest h hr hq =>
    cases h' with
    | alt bs v' h1 hv1 hl ho => have := piece_not_alt h hr hq h1; omega
    | ws => cases q <;> simp [Elem.Bad, Piece.toElem]
    | param => cases q <;> simp [Elem.Bad, Piece.toElem]
    | piece q' v' b' rest' h1 hr1 hq1 =>
      have := pieceOk_text_next hq hq1
      cases q <;> cases q' <;> simp_all [Elem.Bad, Piece.toElem, Piece.isText]

/-! ## `expression` -/

/-- What `many0(single_expression)` reads. -/
inductive ReadsElems : List Char → List Elem → List Char → Prop
  | nil (cs) : ReadsElems cs [] cs
  | cons (cs e v es rest) : ElemOk cs e v → ReadsElems v es rest → ReadsElems cs (e :: es) rest

theorem render_cons (e : Elem) (es) : render (e :: es) = e.render ++ render es := by simp [render]
@[simp] theorem render_nil : render [] = [] := rfl

theorem ReadsElems.append {cs es rest} (h : ReadsElems cs es rest) : cs = render es ++ rest := by
  induction h with
  | nil => simp
  | cons cs e v es rest he _ ih => rw [he.append, ih, render_cons]; simp

theorem ReadsElems.canonical {cs es rest} (h : ReadsElems cs es rest) : Canonical es := by
  induction h with
  | nil => exact ⟨by simp, trivial⟩
  | cons cs e v es rest he hr ih =>
    refine ⟨?_, ?_⟩
    · intro e' he'
      rcases List.mem_cons.1 he' with rfl | he'
      · exact he.valid
      · exact ih.1 e' he'
    · cases hr with
      | nil => trivial
      | cons _ e' v' es' _ he' hr' => exact ⟨he.adj he', ih.2⟩

theorem ElemOk.blen_lt {cs e v} (h : ElemOk cs e v) : blen v < blen cs := by
  have := blen_pos_of_ne_nil (Elem.render_ne_nil h.valid)
  rw [h.append]; simp; omega

theorem locateElem_sub (s : Span) (pre f : List Char) (e : Elem) (pre' : List Char) (n : Nat) :
    e.locate (s.sub pre f) pre' n = e.locate s (pre ++ pre') n := by
  cases e <;> simp [Elem.locate]
  next bs =>
    cases bs with
    | nil => rfl
    | cons b bs => simp [locateBranches_cons, locatePieces_sub, locateSlashed_sub]

theorem locate_sub' (s : Span) (pre f : List Char) (es : List Elem) (pre' : List Char) (n : Nat) :
    locate (s.sub pre f) pre' n es = locate s (pre ++ pre') n es := by
  induction es generalizing pre' n with
  | nil => rfl
  | cons e es ih => simp [locate, locateElem_sub, ih]

/-- Number of parameters. -/
def nParams (es : List Elem) : Nat := (es.map Elem.params).sum

theorem many0_ok (s : Span) {es} (h : ReadsElems s.frag es []) (n : Nat) (fuel : Nat) (hf : blen s.frag < fuel) :
    many0Loop singleExpression fuel s n = (.ok (s.sub (render es) [], locate s [] n es), n + nParams es) := by
  induction fuel generalizing s es n with
  | zero => omega
  | succ fuel ih =>
    unfold many0Loop
    generalize hcs : s.frag = cs at h
    generalize hre : ([] : List Char) = rest at h
    cases h with
    | nil =>
      subst hre
      rw [single_nil s hcs n]
      have : s.sub [] [] = s := by have := s.sub_nil_frag; rwa [hcs] at this
      simp [this, locate, nParams]
    | cons _ e v es _ he hr =>
      subst hre
      rw [single_ok s (by rw [hcs]; exact he) n]
      have hlt := he.blen_lt
      have hne : ¬ (s.sub e.render v).inputLen = s.inputLen := by
        rw [Span.sub_inputLen]; show ¬ blen v = blen s.frag; rw [hcs]; omega
      simp only [if_neg hne]
      rw [ih (s.sub e.render v) (by simpa using hr) _ (by rw [hcs] at hf; rw [Span.sub_frag]; omega)]
      simp [locate, locate_sub', render_cons, nParams, Nat.add_assoc]

theorem many0_fail (s : Span) {es rest e} (h : ReadsElems s.frag es rest)
    (he : SingleFail (s.sub (render es) rest) e) (n : Nat) (fuel : Nat) (hf : blen s.frag < fuel) :
    ∃ k, many0Loop singleExpression fuel s n = (.error (.failure e), k) := by
  induction fuel generalizing s es n with
  | zero => omega
  | succ fuel ih =>
    unfold many0Loop
    generalize hcs : s.frag = cs at h
    cases h with
    | nil =>
      have : s.sub (render []) rest = s := by rw [← hcs]; simp
      rw [this] at he
      rw [single_fail s he n]
      exact ⟨_, rfl⟩
    | cons _ e v es _ hel hr =>
      rw [single_ok s (by rw [hcs]; exact hel) n]
      have hlt := hel.blen_lt
      have hne : ¬ (s.sub e.render v).inputLen = s.inputLen := by
        rw [Span.sub_inputLen]; show ¬ blen v = blen s.frag; rw [hcs]; omega
      simp only [if_neg hne]
      obtain ⟨k, hk⟩ := ih (s.sub e.render v) (es := es) (by simpa using hr)
        (by simpa [render_cons] using he) (n + e.params) (by rw [hcs] at hf; rw [Span.sub_frag]; omega)
      rw [hk]
      exact ⟨_, rfl⟩

/-- Every input is read completely, or up to an element that fails. -/
theorem exists_readsElems (s : Span) : ∃ es rest, ReadsElems s.frag es rest ∧
    (rest = [] ∨ ∃ e, SingleFail (s.sub (render es) rest) e) := by
  generalize hn : blen s.frag = n
  induction n using Nat.strongRecOn generalizing s with
  | ind n ih =>
    rcases singleCase s with h | ⟨e, v, h⟩ | ⟨e, h⟩
    · exact ⟨[], s.frag, .nil _, .inl h⟩
    · have := h.blen_lt
      obtain ⟨es, rest, h1, h2⟩ := ih (blen v) (by omega) (s.sub e.render v) (by simp)
      exact ⟨e :: es, rest, .cons _ _ _ _ _ h (by simpa using h1), by simpa [render_cons] using h2⟩
    · exact ⟨[], s.frag, .nil _, .inr ⟨e, by simpa using h⟩⟩

theorem expression_ok (s : Span) {es} (h : ReadsElems s.frag es []) :
    expression s = .ok (s.sub (render es) [], locate s [] 0 es) := by
  unfold expression many0
  rw [many0_ok s h 0 _ (by simp [Span.inputLen])]

theorem expression_fail (s : Span) {es rest e} (h : ReadsElems s.frag es rest)
    (he : SingleFail (s.sub (render es) rest) e) : expression s = .error (.failure e) := by
  unfold expression many0
  obtain ⟨k, hk⟩ := many0_fail s h he 0 (s.inputLen + 1) (by simp [Span.inputLen])
  rw [hk]

/-! ## Completeness: every canonical tree is read back -/

theorem noAdj_tail {α : Type} {bad : α → α → Prop} {a : α} {l : List α} (h : NoAdj bad (a :: l)) : NoAdj bad l := by
  cases l with
  | nil => trivial
  | cons b l => exact h.2

theorem canonical_tail {e es} (h : Canonical (e :: es)) : Canonical es :=
  ⟨fun e' he' => h.1 e' (by simp [he']), noAdj_tail h.2⟩

/-- The first character of a valid element. -/
theorem piece_head {q : Piece} (h : q.Valid) : ∃ c r, q.render = c :: r ∧ c ≠ ' ' ∧ c ≠ '{' ∧ c ≠ '/' := by
  cases q with
  | text t =>
    obtain ⟨c, r, rfl, hc⟩ := escd_text_head h.1 h.2
    refine ⟨c, r, rfl, ?_⟩
    simp [textStops] at hc; grind
  | opt t => exact ⟨'(', _, rfl, by decide⟩

theorem branch_ne_nil {b : List Piece} (h : b.any Piece.isText = true) : b ≠ [] := by
  rintro rfl; simp at h

theorem alt_head {bs : List (List Piece)} (h : (Elem.alt bs).Valid) :
    ∃ c r, renderBranches bs = c :: r ∧ c ≠ ' ' ∧ c ≠ '{' ∧ c ≠ '/' := by
  obtain ⟨h1, h2⟩ := h
  cases bs with
  | nil => simp at h1
  | cons b bs =>
    obtain ⟨h3, h4⟩ := h2 b (by simp)
    cases b with
    | nil => simp at h4
    | cons q b =>
      obtain ⟨c, r, hr, hc⟩ := piece_head (h3.1 q (by simp))
      exact ⟨c, r ++ (renderPieces b ++ slashed bs), by simp [renderBranches_cons, renderPieces_cons, hr], hc⟩

/-- What can follow an alternation or a maximal sequence of pieces. -/
def afterPieces (es : List Elem) : Prop := es = [] ∨ (∃ t es', es = .ws t :: es') ∨ ∃ t es', es = .param t :: es'

/-- Nothing that continues a text, an optional or an alternation. -/
def Ends (R : List Char) : Prop := endsBranch R ∧ R.head? ≠ some '/'

/-- What may follow `es` without being merged with its last element. -/
def Bdry (es : List Elem) (R : List Char) : Prop :=
  ∀ e, es.getLast? = some e →
    match e with
    | .ws _ => R.head? ≠ some ' '
    | .param _ => True
    | _ => Ends R

theorem bdry_tail {e e' es R} (h : Bdry (e :: e' :: es) R) : Bdry (e' :: es) R := by
  intro x hx; exact h x (by rw [List.getLast?_cons_cons]; exact hx)

theorem bdry_tail' {e es R} (h : Bdry (e :: es) R) : Bdry es R := by
  cases es with
  | nil => intro x hx; simp at hx
  | cons e' es => exact bdry_tail h

theorem bdry_nil (es : List Elem) : Bdry es [] := by
  intro e _
  cases e <;> simp [Ends, endsBranch]

theorem afterPieces_ends {es} {R} (h : afterPieces es) (hv : ∀ e ∈ es, e.Valid) (hR : es = [] → Ends R) :
    Ends (render es ++ R) := by
  rcases h with rfl | ⟨t, es', rfl⟩ | ⟨t, es', rfl⟩
  · simpa using hR rfl
  · have := hv (.ws t) (by simp)
    obtain ⟨h1, h2⟩ := this
    cases t with
    | nil => exact absurd rfl h1
    | cons c t =>
      have := h2 c (by simp)
      subst this
      simp [render_cons, Elem.render, Ends, endsBranch]
  · simp [render_cons, Elem.render, Ends, endsBranch]

theorem splitPieces (R : List Char) (es : List Elem) : ∀ (q : Piece), Canonical (q.toElem :: es) →
    Bdry (q.toElem :: es) R →
    ∃ b es', render es = renderPieces b ++ render es' ∧ ValidPieces (q :: b) ∧
      afterPieces es' ∧ (∀ e ∈ es', e.Valid) ∧ (es' = [] → Ends R) := by
  induction es with
  | nil =>
    intro q h hbd
    refine ⟨[], [], by simp [renderPieces], ⟨?_, trivial⟩, .inl rfl, by simp, ?_⟩
    · intro p hp; simp at hp; subst hp
      have := h.1 p.toElem (by simp)
      cases p <;> exact this
    · intro _
      have := hbd q.toElem (by simp)
      cases q <;> exact this
  | cons e es ih =>
    intro q h hbd
    have hqv : q.Valid := by
      have := h.1 q.toElem (by simp)
      cases q <;> exact this
    have hsing : ValidPieces [q] := ⟨by simpa using hqv, trivial⟩
    have hv : ∀ e' ∈ e :: es, e'.Valid := fun e' he' => h.1 e' (by simp at he' ⊢; right; exact he')
    have step : ∀ q' : Piece, e = q'.toElem → ∃ b es', render (e :: es) = renderPieces b ++ render es' ∧
        ValidPieces (q :: b) ∧ afterPieces es' ∧ (∀ e ∈ es', e.Valid) ∧ (es' = [] → Ends R) := by
      rintro q' rfl
      obtain ⟨b, es', h1, h2, h3, h4, h5⟩ := ih q' (canonical_tail h) (bdry_tail hbd)
      refine ⟨q' :: b, es', ?_, ⟨?_, ?_, h2.2⟩, h3, h4, h5⟩
      · rw [render_cons, toElem_render, renderPieces_cons, h1, List.append_assoc]
      · intro p hp
        rcases List.mem_cons.1 hp with rfl | hp
        · exact hqv
        · exact h2.1 p hp
      · rintro ⟨h5, h6⟩
        have := h.2.1
        cases q <;> cases q' <;> simp_all [Piece.isText, Piece.toElem, Elem.Bad]
    cases e with
    | alt bs => have := h.2.1; cases q <;> simp [Elem.Bad, Piece.toElem] at this
    | ws t => exact ⟨[], .ws t :: es, by simp [renderPieces], hsing, .inr (.inl ⟨t, es, rfl⟩), hv, by simp⟩
    | param t => exact ⟨[], .param t :: es, by simp [renderPieces], hsing, .inr (.inr ⟨t, es, rfl⟩), hv, by simp⟩
    | text t => exact step (.text t) rfl
    | opt t => exact step (.opt t) rfl

theorem elemOk_piece (R : List Char) (q : Piece) (es : List Elem) (h : Canonical (q.toElem :: es))
    (hbd : Bdry (q.toElem :: es) R) :
    ElemOk (q.render ++ (render es ++ R)) q.toElem (render es ++ R) := by
  obtain ⟨b, es', h1, h2, h3, h4, h4'⟩ := splitPieces R es q h hbd
  obtain ⟨h5, h6⟩ := afterPieces_ends h3 h4 h4'
  have hR : ReadsBranches (renderBranches [q :: b] ++ (render es' ++ R)) [q :: b] (render es' ++ R) :=
    .complete (by simpa using h2) (by simp) h5
  have heq : renderBranches [q :: b] ++ (render es' ++ R) = q.render ++ (render es ++ R) := by
    simp [renderBranches, renderPieces_cons, h1]
  rw [heq] at hR
  obtain ⟨b', bs', v, hbb, hb1, -⟩ := id hR
  simp only [List.cons.injEq] at hbb
  obtain ⟨rfl, rfl⟩ := hbb
  obtain ⟨h7, -, -⟩ := hb1
  have hp : pieceOk (q.render ++ (render es ++ R)) = some (q, render es ++ R) := by
    generalize hcs : q.render ++ (render es ++ R) = cs at h7
    cases h7 with
    | cons _ _ v' _ _ hp hre =>
      have := (pieceOk_sound hp).1
      rw [← hcs] at this
      rw [List.append_cancel_left this]
      exact hp
  exact .piece q _ b _ hR h6 hp

theorem elemOk_canonical (R : List Char) (e : Elem) (es : List Elem) (h : Canonical (e :: es))
    (hbd : Bdry (e :: es) R) :
    ElemOk (e.render ++ (render es ++ R)) e (render es ++ R) := by
  cases e with
  | text t => exact elemOk_piece R (.text t) es h hbd
  | opt t => exact elemOk_piece R (.opt t) es h hbd
  | param t =>
    have hv := h.1 (.param t) (by simp)
    exact .param t _ (parOk_complete hv _)
  | alt bs =>
    have hv := h.1 (.alt bs) (by simp)
    have ha : afterPieces es := by
      cases es with
      | nil => exact .inl rfl
      | cons e' es =>
        have := h.2.1
        cases e' <;> simp_all [Elem.Bad, afterPieces]
    obtain ⟨h5, h6⟩ := afterPieces_ends (R := R) ha (canonical_tail h).1 (by rintro rfl; exact hbd _ rfl)
    refine .alt bs _ (.complete (fun b hb => ⟨(hv.2 b hb).1, branch_ne_nil (hv.2 b hb).2⟩) ?_ h5) h6 hv.1
      (onlyOpt_false.2 (fun b hb => (hv.2 b hb).2))
    rintro rfl; simp [Elem.Valid] at hv
  | ws t =>
    have hv := h.1 (.ws t) (by simp)
    refine .ws t _ rfl hv.1 hv.2 ?_
    cases es with
    | nil => simpa using hbd _ rfl
    | cons e' es =>
      have hb := h.2.1
      have hv' := h.1 e' (by simp)
      rw [render_cons]
      cases e' with
      | ws t' => simp [Elem.Bad] at hb
      | param t' => simp [Elem.render]
      | opt t' => simp [Elem.render]
      | text t' =>
        obtain ⟨c, r, hr, hc, -⟩ := piece_head (q := .text t') hv'
        simp only [Piece.render] at hr
        simpa [Elem.render, hr] using hc
      | alt bs =>
        obtain ⟨c, r, hr, hc, -⟩ := alt_head hv'
        simpa [Elem.render, hr] using hc

theorem readsElems_bdry (R : List Char) (es : List Elem) (h : Canonical es) (hbd : Bdry es R) :
    ReadsElems (render es ++ R) es R := by
  induction es with
  | nil => exact .nil _
  | cons e es ih =>
    rw [render_cons, List.append_assoc]
    exact .cons _ _ _ _ _ (elemOk_canonical R e es h hbd) (ih (canonical_tail h) (bdry_tail' hbd))

theorem readsElems_canonical (es : List Elem) (h : Canonical es) : ReadsElems (render es) es [] := by
  have := readsElems_bdry [] es h (bdry_nil es)
  simpa using this

/-! ## The core theorem -/

/-- `expression` succeeds exactly on renderings of canonical trees, consuming everything. -/
theorem expression_ok_iff (s r : Span) (x : Expression) :
    expression s = .ok (r, x) ↔
      ∃ es, Canonical es ∧ s.frag = render es ∧ r = s.sub s.frag [] ∧ x = locate s [] 0 es := by
  constructor
  · intro h
    obtain ⟨es, rest, h1, rfl | ⟨e, h2⟩⟩ := exists_readsElems s
    · rw [expression_ok s h1] at h
      simp only [Except.ok.injEq, Prod.mk.injEq] at h
      have := h1.append
      rw [List.append_nil] at this
      exact ⟨es, h1.canonical, this, by rw [this]; exact h.1.symm, h.2.symm⟩
    · rw [expression_fail s h1 h2] at h; simp at h
  · rintro ⟨es, h1, h2, rfl, rfl⟩
    rw [expression_ok s (es := es) (by rw [h2]; exact readsElems_canonical es h1), h2]

/-- `expression` otherwise fails irrecoverably, at the first element that fails. -/
theorem expression_cases (s : Span) :
    (∃ es, Canonical es ∧ s.frag = render es ∧ expression s = .ok (s.sub s.frag [], locate s [] 0 es)) ∨
    (∃ es rest e, ReadsElems s.frag es rest ∧ SingleFail (s.sub (render es) rest) e ∧
      expression s = .error (.failure e)) := by
  obtain ⟨es, rest, h1, rfl | ⟨e, h2⟩⟩ := exists_readsElems s
  · have := h1.append
    rw [List.append_nil] at this
    refine .inl ⟨es, h1.canonical, this, ?_⟩
    rw [expression_ok s h1, this]
  · exact .inr ⟨es, rest, e, h1, h2, expression_fail s h1 h2⟩

theorem parse_ok_iff (src : List Char) (x : Expression) :
    Expression.parse src = .ok x ↔ ∃ es, Canonical es ∧ render es = src ∧ x = locate (Span.new src) [] 0 es := by
  unfold Expression.parse
  rcases expression_cases (Span.new src) with ⟨es, h1, h2, h3⟩ | ⟨es, rest, e, h1, h2, h3⟩
  · rw [h3]
    simp only [Span.sub_frag, List.isEmpty_nil, if_true, Outcome.ok.injEq]
    constructor
    · rintro rfl; exact ⟨es, h1, h2.symm, rfl⟩
    · rintro ⟨es', h4, h5, rfl⟩
      have := (expression_ok_iff (Span.new src) _ _).2 ⟨es', h4, h5.symm, rfl, rfl⟩
      rw [h3] at this
      simpa using this
  · rw [h3]
    simp only [reduceCtorEq, false_iff]
    rintro ⟨es', h4, h5, rfl⟩
    have := (expression_ok_iff (Span.new src) _ _).2 ⟨es', h4, h5.symm, rfl, rfl⟩
    rw [h3] at this
    simp at this

theorem parse_err_iff (src : List Char) (e : PErr) :
    Expression.parse src = .err e ↔ expression (Span.new src) = .error (.failure e) := by
  unfold Expression.parse
  rcases expression_cases (Span.new src) with ⟨es, h1, h2, h3⟩ | ⟨es, rest, e, h1, h2, h3⟩
  · rw [h3]; simp
  · rw [h3]; simp

end CE
