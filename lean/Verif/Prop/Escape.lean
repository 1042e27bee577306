import Verif.Prop.Reject
import Verif.Prop.Accept
import Verif.Spec.Context

/-! # Escapes: C16, C17 -/

namespace CE
open Spec

/-- The span at position `p` of `src` with the given text. -/
def spanAt (p f : List Char) : Span := ⟨blen p, 1 + p.count '\n', f⟩

theorem new_sub (src p f : List Char) : (Span.new src).sub p f = spanAt p f := by
  unfold spanAt
  rw [← nlCount_eq_count]
  cases h : (Span.new src).sub p f with
  | mk o l g =>
    have h1 := Span.sub_offset (Span.new src) p f
    have h2 := Span.sub_line (Span.new src) p f
    have h3 := Span.sub_frag (Span.new src) p f
    rw [h] at h1 h2 h3
    simp only [Span.new, Nat.zero_add] at h1 h2 h3
    subst h1 h2 h3
    rfl

/-- A maximal run: what follows cannot continue it. -/
theorem run_of_stop {p : Char → Bool} {stops t rest : List Char} (h : ClassOf p stops) (ht : Escd stops t)
    (hr : (erun p rest).1 = []) : Run stops (t ++ rest) t rest :=
  (run_iff h).2 (erun_of_escd h ht rest hr)

theorem erun_bad {p : Char → Bool} {d : Char} {w : List Char} (hd : d ∉ reserved) :
    (erun p ('\\' :: d :: w)).1 = [] := by rw [erun_cons_badesc w hd]

/-- What follows the run starts with a backslash that escapes nothing. -/
def BadEscape (rest : List Char) : Prop := rest = ['\\'] ∨ ∃ d w, rest = '\\' :: d :: w ∧ d ∉ reserved

theorem badEscape_erun {p : Char → Bool} {rest : List Char} (h : BadEscape rest) : (erun p rest).1 = [] := by
  rcases h with rfl | ⟨d, w, rfl, hd⟩
  · rw [erun_bs]
  · exact erun_bad hd

/-- A failing escape anywhere is what `Expression::parse` reports. -/
theorem parse_escape {p stops t rest : List Char} {e : PErr} (hp : TextStart p stops) (ht : Escd stops t)
    (hb : BadEscape rest) (he : EscapeFailure (Span.new (p ++ t ++ rest)) p t rest e) :
    Expression.parse (p ++ t ++ rest) = .err e := by
  rw [C43_parse_err_iff]
  have hstop : ∀ q, (erun q rest).1 = [] := fun q => badEscape_erun hb
  have hhead : rest.head? = some '\\' := by
    rcases hb with rfl | ⟨d, w, rfl, hd⟩ <;> simp
  -- relocation of the failure
  have reloc : ∀ (S : Span) (a b : List Char), p = a ++ b → EscapeFailure S p t rest e →
      EscapeFailure (S.sub a (b ++ t ++ rest)) b t rest e := by
    intro S a b hab h
    cases h with
    | nonReserved d v h => have := EscapeFailure.nonReserved (s := S.sub a (b ++ t ++ rest)) (pre := b) (t := t) d v h
                           simpa [hab] using this
    | endOfLine h h' => have := EscapeFailure.endOfLine (s := S.sub a (b ++ t ++ rest)) (pre := b) h h'
                        simpa [hab] using this
    | endOfLineAfterText h h' =>
      have := EscapeFailure.endOfLineAfterText (s := S.sub a (b ++ t ++ rest)) (pre := b) h h'
      simpa [hab] using this
  generalize hS : Span.new (p ++ t ++ rest) = S at he
  cases hp with
  | text es bs b hc hfr hbs hb' hlast =>
    refine .alternation es (slashTerminated bs ++ renderPieces b ++ (t ++ rest)) e hc hfr (by simp) ?_
    refine .piece bs b (t ++ rest) e hbs hb' (by simp) ?_ ?_
    · intro q hq h; rw [hlast q hq] at h; simp at h
    · have h2 := reloc S _ [] (by simp; rfl) he
      rw [hS]
      refine .textFailure t rest e ?_ (by simpa using run_of_stop class_text ht (hstop _)) ?_
      · cases ht with
        | nil => simp [hhead]
        | char c cs hc hs _ => simp; rintro rfl; simp [textStops] at hs
        | esc => simp
      · simpa using h2
  | optional es bs b hc hfr hbs hb' =>
    refine .alternation es (slashTerminated bs ++ renderPieces b ++ ('(' :: (t ++ rest))) e hc hfr (by simp) ?_
    refine .piece bs b ('(' :: (t ++ rest)) e hbs hb' (by simp) (by simp) ?_
    have h2 := reloc S (render es ++ (slashTerminated bs ++ renderPieces b)) ['('] rfl he
    rw [hS]
    refine .optionalFailure e (.failure (t ++ rest) t rest e (by simp) (run_of_stop class_opt ht (hstop _)) (.escape e ?_))
    simpa using h2
  | parameter es hc =>
    have h2 := reloc S (render es) ['{'] rfl he
    refine .parameter es ('{' :: (t ++ rest)) (t ++ rest) t rest e hc (by simp) rfl
      (run_of_stop class_name ht (hstop _)) (.escape e ?_)
    rw [hS]
    simpa using h2

/-! ## C17 -/

/-- C17: a backslash before a non-reserved character is rejected wherever text is read, whatever follows, and the error
is on exactly these two characters. -/
theorem C17_escaped_nonreserved (p stops t w : List Char) (d : Char) (hp : TextStart p stops) (ht : Escd stops t)
    (hd : d ∉ reserved) :
    Expression.parse (p ++ t ++ '\\' :: d :: w) = .err (.escapedNonReservedCharacter (spanAt (p ++ t) ['\\', d])) := by
  refine parse_escape hp ht (.inr ⟨d, w, rfl, hd⟩) ?_
  rw [← new_sub (p ++ t ++ '\\' :: d :: w)]
  exact .nonReserved d w rfl

/-! ## Where accepted expressions end -/

theorem noAdj_prefix {α : Type} {bad : α → α → Prop} {a b : List α} (h : NoAdj bad (a ++ b)) : NoAdj bad a := by
  induction a with
  | nil => trivial
  | cons x a ih =>
    cases a with
    | nil => trivial
    | cons y a => exact ⟨h.1, ih h.2⟩

theorem noAdj_suffix {α : Type} {bad : α → α → Prop} {a b : List α} (h : NoAdj bad (a ++ b)) : NoAdj bad b := by
  induction a with
  | nil => exact h
  | cons x a ih => exact ih (noAdj_tail h)

theorem canonical_prefix {a b : List Elem} (h : Canonical (a ++ b)) : Canonical a :=
  ⟨fun e he => h.1 e (by simp [he]), noAdj_prefix h.2⟩

theorem canonical_suffix {a b : List Elem} (h : Canonical (a ++ b)) : Canonical b :=
  ⟨fun e he => h.1 e (by simp [he]), noAdj_suffix h.2⟩

theorem tail_split (es : List Elem) (h : Canonical es) :
    ∃ es0, Fresh es0 ∧ ((∃ b : List Piece, es = es0 ++ b.map Piece.toElem) ∨ ∃ bs, es = es0 ++ [.alt bs]) := by
  induction es with
  | nil => exact ⟨[], by intro e he; simp at he, .inl ⟨[], rfl⟩⟩
  | cons e es ih =>
    obtain ⟨es0, hf, ht⟩ := ih (canonical_tail h)
    cases es0 with
    | cons e0 es0 =>
      refine ⟨e :: e0 :: es0, ?_, ?_⟩
      · intro x hx; rw [List.getLast?_cons_cons] at hx; exact hf x hx
      · rcases ht with ⟨b, rfl⟩ | ⟨bs, rfl⟩
        · exact .inl ⟨b, rfl⟩
        · exact .inr ⟨bs, rfl⟩
    | nil =>
      simp only [List.nil_append] at ht
      have piece : ∀ q : Piece, e = q.toElem → ∃ es0, Fresh es0 ∧
          ((∃ b : List Piece, e :: es = es0 ++ b.map Piece.toElem) ∨ ∃ bs, e :: es = es0 ++ [.alt bs]) := by
        rintro q rfl
        rcases ht with ⟨b, rfl⟩ | ⟨bs, rfl⟩
        · exact ⟨[], hf, .inl ⟨q :: b, rfl⟩⟩
        · have := h.2.1; cases q <;> simp [Elem.Bad, Piece.toElem] at this
      have fresh : ((∃ t, e = .ws t) ∨ (∃ t, e = .param t)) → ∃ es0, Fresh es0 ∧
          ((∃ b : List Piece, e :: es = es0 ++ b.map Piece.toElem) ∨ ∃ bs, e :: es = es0 ++ [.alt bs]) := by
        intro hw
        refine ⟨[e], by intro x hx; simp at hx; subst hx; exact hw, ?_⟩
        rcases ht with ⟨b, rfl⟩ | ⟨bs, rfl⟩
        · exact .inl ⟨b, rfl⟩
        · exact .inr ⟨bs, rfl⟩
      cases e with
      | text t => exact piece (.text t) rfl
      | opt t => exact piece (.opt t) rfl
      | ws t => exact fresh (.inl ⟨t, rfl⟩)
      | param t => exact fresh (.inr ⟨t, rfl⟩)
      | alt bs =>
        rcases ht with ⟨b, rfl⟩ | ⟨bs', rfl⟩
        · cases b with
          | nil => exact ⟨[], hf, .inr ⟨bs, rfl⟩⟩
          | cons q b => have := h.2.1; cases q <;> simp [Elem.Bad, Piece.toElem] at this
        · have := h.2.1; simp [Elem.Bad] at this

theorem render_append (a b : List Elem) : render (a ++ b) = render a ++ render b := by simp [render]

theorem render_toElem (b : List Piece) : render (b.map Piece.toElem) = renderPieces b := by
  induction b with
  | nil => rfl
  | cons q b ih => rw [List.map_cons, render_cons, toElem_render, ih, renderPieces_cons]

theorem valid_toElem {q : Piece} : q.toElem.Valid ↔ q.Valid := by cases q <;> rfl

theorem validPieces_of_canonical {b : List Piece} (h : Canonical (b.map Piece.toElem)) : ValidPieces b := by
  refine ⟨fun q hq => valid_toElem.1 (h.1 _ (List.mem_map_of_mem hq)), ?_⟩
  have := h.2
  clear h
  induction b with
  | nil => trivial
  | cons q b ih =>
    cases b with
    | nil => trivial
    | cons q' b =>
      refine ⟨?_, ih this.2⟩
      rintro ⟨h1, h2⟩
      have := this.1
      cases q <;> cases q' <;> simp_all [Piece.isText, Piece.toElem, Elem.Bad]

/-- The text at the end of a list of pieces. -/
def finalPiece (b : List Piece) : List Char :=
  match b.getLast? with
  | some (.text t) => t
  | _ => []

/-- The text at the end of a plain tree. -/
def finalPlain (es : List Elem) : List Char :=
  match es.getLast? with
  | some (.text t) => t
  | some (.alt bs) => finalPiece (bs.getLast?.getD [])
  | _ => []

theorem getLast?_dropLast {α} {b : List α} {q : α} (h : b.getLast? = some q) : b = b.dropLast ++ [q] := by
  cases b with
  | nil => simp at h
  | cons x b =>
    rw [List.getLast?_eq_some_getLast (by simp)] at h
    simp only [Option.some.injEq] at h
    rw [← h, List.dropLast_concat_getLast]

theorem pieces_split (b : List Piece) (h : ValidPieces b) :
    ∃ b0, ValidPieces b0 ∧ (∀ q, b0.getLast? = some q → q.isText = false) ∧
      renderPieces b = renderPieces b0 ++ finalPiece b ∧ Escd textStops (finalPiece b) := by
  unfold finalPiece
  cases hl : b.getLast? with
  | none =>
    simp at hl
    subst hl
    exact ⟨[], h, by simp, by simp, .nil⟩
  | some q =>
    cases q with
    | opt t =>
      exact ⟨b, h, by rw [hl]; simp [Piece.isText], by simp, .nil⟩
    | text t =>
      have hb := getLast?_dropLast hl
      refine ⟨b.dropLast, ⟨fun q hq => h.1 q (List.dropLast_subset _ hq), ?_⟩, ?_, ?_, ?_⟩
      · have := h.2; rw [hb] at this; exact noAdj_prefix this
      · intro q hq
        have h2 := getLast?_dropLast hq
        have := h.2
        rw [hb, h2, List.append_assoc] at this
        have := (noAdj_suffix this).1
        cases hq' : q.isText with
        | false => rfl
        | true => exact absurd ⟨hq', rfl⟩ this
      · show renderPieces b = _ ++ t
        conv => lhs; rw [hb]
        rw [renderPieces_append]; simp [renderPieces, Piece.render]
      · have := h.1 (.text t) (by rw [hb]; simp)
        exact this.2

theorem renderBranches_dropLast {bs : List (List Piece)} {b} (h : bs.getLast? = some b) :
    renderBranches bs = slashTerminated bs.dropLast ++ renderPieces b := by
  have hb := getLast?_dropLast h
  generalize bs.dropLast = bs0 at hb
  subst hb
  clear h
  by_cases hne : bs0 = []
  · subst hne; simp [renderBranches, slashTerminated]
  · have h1 := slashTerminated_eq (bs := bs0 ++ [b]) (by simp)
    have h2 : slashTerminated (bs0 ++ [b]) = slashTerminated bs0 ++ (renderPieces b ++ ['/']) := by simp [slashTerminated]
    rw [h2, ← List.append_assoc] at h1
    exact (List.append_inj_left' h1 rfl).symm

/-- An accepted expression ends in a text position: `finalPlain` is the text read so far. -/
theorem textStart_of_canonical (es : List Elem) (h : Canonical es) :
    ∃ p, TextStart p textStops ∧ render es = p ++ finalPlain es ∧ Escd textStops (finalPlain es) := by
  obtain ⟨es0, hf, ⟨b, rfl⟩ | ⟨bs, rfl⟩⟩ := tail_split es h
  · have hv := validPieces_of_canonical (canonical_suffix h)
    obtain ⟨b0, h1, h2, h3, h4⟩ := pieces_split b hv
    have hfin : finalPlain (es0 ++ b.map Piece.toElem) = finalPiece b := by
      unfold finalPlain finalPiece
      rw [List.getLast?_append]
      cases hl : b.getLast? with
      | none =>
        have : (b.map Piece.toElem).getLast? = none := by simpa using hl
        rw [this]
        cases he : es0.getLast? with
        | none => rfl
        | some e => rcases hf e he with ⟨t, rfl⟩ | ⟨t, rfl⟩ <;> rfl
      | some q =>
        rw [List.getLast?_map, hl]
        cases q <;> rfl
    rw [hfin]
    refine ⟨render es0 ++ (slashTerminated [] ++ renderPieces b0),
      .text es0 [] b0 (canonical_prefix h) hf (by simp [Branches]) h1 h2, ?_, h4⟩
    rw [render_append, render_toElem, h3, slashTerminated_nil]
    simp
  · have hv := h.1 (.alt bs) (by simp)
    have hne : bs ≠ [] := by rintro rfl; simp [Elem.Valid] at hv
    have hl := List.getLast?_eq_some_getLast hne
    generalize bs.getLast hne = b at hl
    have hbs := getLast?_dropLast hl
    obtain ⟨b0, h1, h2, h3, h4⟩ := pieces_split b (hv.2 b (List.mem_of_getLast? hl)).1
    have hfin : finalPlain (es0 ++ [.alt bs]) = finalPiece b := by
      unfold finalPlain; simp [hl]
    rw [hfin]
    refine ⟨render es0 ++ (slashTerminated bs.dropLast ++ renderPieces b0), .text es0 bs.dropLast b0
      (canonical_prefix h) hf ?_ h1 h2, ?_, h4⟩
    · intro b' hb'
      have := hv.2 b' (List.dropLast_subset _ hb')
      exact ⟨this.1, branch_ne_nil this.2⟩
    · rw [render_append, render_cons, render_nil, Elem.render, renderBranches_dropLast hl, h3]
      simp

/-- C17: in particular after every accepted expression. -/
theorem C17_after_accepted (src w : List Char) (d : Char) (x : Expression) (h : Expression.parse src = .ok x)
    (hd : d ∉ reserved) :
    Expression.parse (src ++ '\\' :: d :: w) = .err (.escapedNonReservedCharacter (spanAt src ['\\', d])) := by
  obtain ⟨es, h1, rfl, -⟩ := (parse_ok_iff src x).1 h
  obtain ⟨p, hp, hr, he⟩ := textStart_of_canonical es h1
  rw [hr]
  exact C17_escaped_nonreserved p _ _ w d hp he hd

/-- Non-vacuity: a multi-byte character escaped inside an optional in the second branch of an alternation. -/
example : TextStart "a/(".toList optStops :=
  .optional [] [[.text ['a']]] [] ⟨by simp, trivial⟩ (by intro e he; simp at he)
    (by simp only [Branches, List.mem_singleton, forall_eq]
        exact ⟨⟨by simpa [Piece.Valid] using Escd.char 'a' [] (by decide) (by decide) .nil, trivial⟩, by simp⟩)
    ⟨by simp, trivial⟩
example : Expression.parse "a/(b\\éc".toList = .err (.escapedNonReservedCharacter ⟨4, 1, "\\é".toList⟩) := by decide

/-! ## C16 -/

/-- C16, what the code actually reports for a backslash at the end of input: `EscapedEndOfLine` on the backslash when no
text directly precedes it, and otherwise a different error at a different place. -/
theorem C16_actual (p stops t : List Char) (hp : TextStart p stops) (ht : Escd stops t) :
    Expression.parse (p ++ t ++ ['\\']) = .err
      (if t = [] then .escapedEndOfLine (spanAt p ['\\'])
       else .escapedNonReservedCharacter (spanAt p ((t ++ ['\\']).take 2))) := by
  refine parse_escape hp ht (.inl rfl) ?_
  split
  next h => rw [← new_sub (p ++ t ++ ['\\'])]; exact .endOfLine rfl h
  next h => rw [← new_sub (p ++ t ++ ['\\'])]; exact .endOfLineAfterText rfl h

/-- C16 (partial): missing are the places where text precedes the backslash, for which the claim is false
(`C16_false`). -/
theorem C16_trailing_backslash_partial (p stops : List Char) (hp : TextStart p stops) :
    Expression.parse (p ++ ['\\']) = .err (.escapedEndOfLine (spanAt p ['\\'])) := by
  have := C16_actual p stops [] hp .nil
  simpa using this

/-- C16 is false of the code: `a` is accepted, but `a\` is not reported as `EscapedEndOfLine`. -/
theorem C16_false : ¬ ∀ src x, Expression.parse src = .ok x →
    Expression.parse (src ++ ['\\']) = .err (.escapedEndOfLine (spanAt src ['\\'])) := by
  intro h
  have := h "a".toList [.text ⟨0, 1, "a".toList⟩] (by decide)
  exact absurd this (by decide)

theorem finalText_plain (x : Expression) :
    finalPlain (erase x) = match finalText x with | some sp => sp.frag | none => [] := by
  unfold finalPlain finalText erase
  rw [List.getLast?_map]
  cases x.getLast? with
  | none => rfl
  | some e =>
    cases e with
    | alternation a =>
      simp only [Option.map_some, eraseSingle, List.getLast?_map]
      cases a.getLast? with
      | none => rfl
      | some b =>
        simp only [Option.map_some, Option.getD_some, finalPiece, List.getLast?_map]
        cases b.getLast? with
        | none => rfl
        | some q => cases q <;> rfl
    | _ => rfl

/-- C16, for all accepted expressions: the error for an additional trailing backslash is `EscapedEndOfLine` exactly when
the expression does not end with text. -/
theorem C16_iff (src : List Char) (x : Expression) (h : Expression.parse src = .ok x) :
    Expression.parse (src ++ ['\\']) = .err (.escapedEndOfLine (spanAt src ['\\'])) ↔ finalText x = none := by
  have h0 := finalText_plain x
  have hwf := (C06_parse_then_print src x h).1
  obtain ⟨-, hr, -⟩ := C06_parse_then_print src x h
  obtain ⟨p, hp, hr2, he⟩ := textStart_of_canonical _ hwf
  rw [hr] at hr2
  subst hr2
  rw [C16_actual p _ _ hp he]
  constructor
  · intro hh
    split at hh
    next hn =>
      cases hf : finalText x with
      | none => rfl
      | some sp =>
        exfalso
        rw [hf, hn] at h0
        have hne : sp.frag ≠ [] := by
          have hwf := C09_wellFormed _ x h
          unfold finalText at hf
          split at hf
          next s hl => simp at hf; subst hf; exact (hwf _ (List.mem_of_getLast? hl)).1
          next a hl =>
            split at hf
            next b hb =>
              split at hf
              next s hs =>
                simp at hf; subst hf
                exact (hwf _ (List.mem_of_getLast? hl) b (List.mem_of_getLast? hb) _ (List.mem_of_getLast? hs)).1
              · simp at hf
            · simp at hf
          · simp at hf
        exact hne h0.symm
    next => simp at hh
  · intro hf
    rw [hf] at h0
    simp [h0]

example : Expression.parse "ab\\".toList = .err (.escapedNonReservedCharacter ⟨0, 1, "ab".toList⟩) := by decide
example : Expression.parse "a b(c)\\".toList = .err (.escapedEndOfLine ⟨6, 1, "\\".toList⟩) := by decide

end CE
