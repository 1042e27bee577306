import Verif.Prop.Escape
import Verif.Prop.Expand
import Verif.Prop.Custom
import Verif.Model.Display
import Verif.Spec.Message

/-! # Error messages: C48, C49 -/

namespace CE
open Spec

/-! ## C48: messages -/

theorem describes_unique {e k k' s s'} (h : Describes e k s) (h' : Describes e k' s') : k = k' ∧ s = s' := by
  cases h <;> cases h' <;> exact ⟨rfl, rfl⟩

theorem errSpan_describes {e : PErr} {sp : Span} (h : errSpan e = some sp) (ho : ∀ s k, e ≠ .other s k) : ∃ k, Describes e k sp := by
  cases e <;> simp only [errSpan, Option.some.injEq, reduceCtorEq] at h <;> try subst h
  all_goals first | exact ⟨_, by constructor⟩ | exact absurd rfl (ho _ _)

/-- What the message says about an error of this kind. -/
def explanation (k : Kind) : List Char :=
  let e : PErr := match k with
    | .nestedParameter => .nestedParameter ⟨0, 1, []⟩
    | .optionalInParameter => .optionalInParameter ⟨0, 1, []⟩
    | .unfinishedParameter => .unfinishedParameter ⟨0, 1, []⟩
    | .nestedOptional => .nestedOptional ⟨0, 1, []⟩
    | .parameterInOptional => .parameterInOptional ⟨0, 1, []⟩
    | .emptyOptional => .emptyOptional ⟨0, 1, []⟩
    | .alternationInOptional => .alternationInOptional ⟨0, 1, []⟩
    | .unfinishedOptional => .unfinishedOptional ⟨0, 1, []⟩
    | .emptyAlternation => .emptyAlternation ⟨0, 1, []⟩
    | .onlyOptionalInAlternation => .onlyOptionalInAlternation ⟨0, 1, []⟩
    | .unescapedReservedCharacter => .unescapedReservedCharacter ⟨0, 1, []⟩
    | .escapedNonReservedCharacter => .escapedNonReservedCharacter ⟨0, 1, []⟩
    | .escapedEndOfLine => .escapedEndOfLine ⟨0, 1, []⟩
  e.text

theorem display_eq {e k s} (h : Describes e k s) : e.display = s.frag ++ explanation k := by
  cases h <;> rfl

def allKinds : List Kind := [.nestedParameter, .optionalInParameter, .unfinishedParameter, .nestedOptional, .parameterInOptional,
  .emptyOptional, .alternationInOptional, .unfinishedOptional, .emptyAlternation, .onlyOptionalInAlternation,
  .unescapedReservedCharacter, .escapedNonReservedCharacter, .escapedEndOfLine]

theorem mem_allKinds (k : Kind) : k ∈ allKinds := by cases k <;> decide

set_option maxRecDepth 100000 in
theorem explanations_distinct : ∀ k ∈ allKinds, ∀ k' ∈ allKinds, (explanation k).isSuffixOf (explanation k') = true → k = k' := by
  decide +kernel

set_option maxRecDepth 100000 in
theorem explanations_newline : ∀ k ∈ allKinds, (explanation k).head? = some '\n' ∧ 1 < (explanation k).length := by
  decide +kernel


theorem err_describes {src : List Char} {e : PErr} (h : Expression.parse src = .err e) :
    ∃ k sp, Describes e k sp ∧ sp.frag ≠ [] ∧ LocatedIn src sp := by
  obtain ⟨sp, h1, h2, h3⟩ := C12_error_spans src e h
  obtain ⟨k, hk⟩ := errSpan_describes h1 (by
    intro s k hk
    have := discipline_expression (Span.new src)
    rw [(parse_err_iff src e).1 h, hk] at this
    exact this.1)
  exact ⟨k, sp, hk, h2, h3⟩

/-- C48: the message of every error of `Expression::parse` quotes a non-empty, correctly located slice of the source, and
explains the error on the lines after it, depending on its kind only. -/
theorem C48_message : ∃ explain : Kind → List Char,
    (∀ k, ∃ w, explain k = '\n' :: w ∧ w ≠ []) ∧
    ∀ src e, Expression.parse src = .err e →
      ∃ k sp, Describes e k sp ∧ sp.frag ≠ [] ∧ LocatedIn src sp ∧ e.display = sp.frag ++ explain k := by
  refine ⟨explanation, ?_, ?_⟩
  · intro k
    obtain ⟨h1, h2⟩ := explanations_newline k (mem_allKinds k)
    obtain ⟨w, hw⟩ := eq_cons_of_head? h1
    refine ⟨w, hw, ?_⟩
    rintro rfl
    rw [hw] at h2; simp at h2
  · intro src e h
    obtain ⟨k, sp, h1, h2, h3⟩ := err_describes h
    exact ⟨k, sp, h1, h2, h3, display_eq h1⟩

/-- C48: errors with the same message have the same kind and are about the same text. -/
theorem C48_unambiguous (src src' : List Char) (e e' : PErr) (h : Expression.parse src = .err e)
    (h' : Expression.parse src' = .err e') (hd : e.display = e'.display) :
    ∃ k sp sp', Describes e k sp ∧ Describes e' k sp' ∧ sp.frag = sp'.frag := by
  obtain ⟨k, sp, h1, -, -⟩ := err_describes h
  obtain ⟨k', sp', h1', -, -⟩ := err_describes h'
  rw [display_eq h1, display_eq h1'] at hd
  have hk : k = k' := by
    have hs : ∀ {a b x y : List Char}, a ++ x = b ++ y → x.isSuffixOf y = true ∨ y.isSuffixOf x = true := by
      intro a b x y hab
      rcases List.append_eq_append_iff.1 hab with ⟨c, -, hc⟩ | ⟨c, -, hc⟩
      · exact .inr (by rw [List.isSuffixOf_iff_suffix]; exact ⟨c, hc.symm⟩)
      · exact .inl (by rw [List.isSuffixOf_iff_suffix]; exact ⟨c, hc.symm⟩)
    rcases hs hd with h | h
    · exact explanations_distinct _ (mem_allKinds _) _ (mem_allKinds _) h
    · exact (explanations_distinct _ (mem_allKinds _) _ (mem_allKinds _) h).symm
  subst hk
  exact ⟨k, sp, sp', h1, h1', List.append_cancel_right hd⟩


private def occurs (x : List Char) : List Char → Bool
  | [] => x.isEmpty
  | c :: y => x.isPrefixOf (c :: y) || occurs x y

private theorem of_occurs {x y : List Char} (h : occurs x y = true) : ∃ a b, y = a ++ x ++ b := by
  induction y with
  | nil => simp [occurs] at h; exact ⟨[], [], by simp [h]⟩
  | cons c y ih =>
    rw [occurs, Bool.or_eq_true] at h
    rcases h with h | h
    · rw [List.isPrefixOf_iff_prefix] at h
      obtain ⟨b, hb⟩ := h
      exact ⟨[], b, by simp [hb]⟩
    · obtain ⟨a, b, rfl⟩ := ih h
      exact ⟨c :: a, b, by simp⟩

private def advised : Kind → Char
  | .nestedParameter | .unfinishedParameter | .parameterInOptional => '{'
  | .alternationInOptional | .emptyAlternation => '/'
  | .escapedNonReservedCharacter => '\\'
  | _ => '('

set_option maxRecDepth 100000 in
private theorem explanations_advice : ∀ k ∈ allKinds, k ≠ .unescapedReservedCharacter → k ≠ .escapedEndOfLine →
    occurs ['\'', '\\', advised k, '\''] (explanation k) = true := by
  decide +kernel

/-- C48: the explanation spells out the escape sequence it proposes, in quotes (for the two kinds missing here, see
`C48_advice_generic`). -/
theorem C48_advice (e : PErr) (k : Kind) (sp : Span) (c : Char) (h : Describes e k sp) (ha : Advises k sp.frag c)
    (h1 : k ≠ .unescapedReservedCharacter) (h2 : k ≠ .escapedEndOfLine) :
    ∃ a b, e.display = sp.frag ++ a ++ ['\'', '\\', c, '\''] ++ b := by
  have hc : c = advised k := by
    cases k <;> first | exact ha | exact absurd rfl h1 | exact absurd rfl h2
  subst hc
  obtain ⟨a, b, hab⟩ := of_occurs (explanations_advice k (mem_allKinds k) h1 h2)
  exact ⟨a, b, by rw [display_eq h, hab]; simp⟩

/-- C48: the two remaining explanations. That of `EscapedEndOfLine` names the backslash to be escaped as `''`. -/
theorem C48_advice_generic (s : Span) :
    (PErr.unescapedReservedCharacter s).display =
      s.frag ++ chars! "\nUnescaped reserved character.\nYou can use an '\\' to escape it." ∧
    (PErr.escapedEndOfLine s).display =
      s.frag ++ chars! "\nThe end of line can not be escaped.\nYou can use '\\' to escape the the ''." := ⟨rfl, rfl⟩

/-- Which stage an error of `Expression::regex` comes from. -/
def stage : ExpandError → Nat
  | .parsing _ => 0
  | .expansion (.notFound _) => 1
  | .expansion (.renameRegexGroup _ _) => 2
  | .regex _ => 3

/-- C48: the message of an error of `Expression::regex` tells the stage it comes from, whatever the messages of other
crates are; and, for an unknown parameter, its name. -/
theorem C48_stage (err err' : List Char) (e e' : ExpandError) (h : e.display err = e'.display err') :
    stage e = stage e' ∧ ∀ s, e = .expansion (.notFound s) → ∃ s', e' = .expansion (.notFound s') ∧ s.frag = s'.frag := by
  rcases e with e | (⟨s⟩ | ⟨p, re⟩) | e <;> rcases e' with e' | (⟨s'⟩ | ⟨p', re'⟩) | e' <;>
    first
      | (refine ⟨rfl, ?_⟩; intro s h; simp at h; done)
      | (exfalso; simp [ExpandError.display, ParameterError.display] at h; done)
      | skip
  refine ⟨rfl, fun s0 h0 => ⟨s', rfl, ?_⟩⟩
  simp only [ExpandError.expansion.injEq, ParameterError.notFound.injEq] at h0
  subst h0
  simp only [ExpandError.display, ParameterError.display, List.append_assoc] at h
  have := List.append_cancel_left (List.append_cancel_left h)
  exact List.append_cancel_right this

theorem params_split : ∀ {e : Expression} {ps qs : List Parameter} {p : Parameter}, params e = ps ++ p :: qs →
    ∃ l r, e = l ++ .parameter p :: r ∧ params l = ps
  | [], ps, _, _, h => by cases ps <;> cases h
  | x :: e, ps, qs, p, h => by
    have skip : params (x :: e) = params e → params [x] = [] → ∃ l r, x :: e = l ++ .parameter p :: r ∧ params l = ps := fun h1 h2 => by
      obtain ⟨l, r, h3, h4⟩ := params_split (h1 ▸ h)
      refine ⟨x :: l, r, by rw [h3]; rfl, ?_⟩
      have : params (x :: l) = params [x] ++ params l := List.filterMap_append (l := [x]) (l' := l)
      rw [this, h2, h4]; rfl
    cases x with
    | parameter q =>
      cases ps with
      | nil => cases h; exact ⟨[], e, rfl, rfl⟩
      | cons q' ps =>
        cases (List.cons.inj h).1
        obtain ⟨l, r, h3, h4⟩ := params_split (List.cons.inj h).2
        exact ⟨.parameter q :: l, r, by rw [h3]; rfl, by rw [← h4]; rfl⟩
    | _ => exact skip rfl rfl

/-- A text in backquotes. -/
def backquoted (t : List Char) : List Char := ['`'] ++ t ++ ['`']

/-- C48: the message of an expansion that fails quotes, in backquotes, the name of the leftmost parameter that cannot be expanded as it
stands in the source; and if this is due to its custom regex, first that regex, and last the message of `regex_syntax`. -/
theorem C48_parameter (parseHir : List Char → Option Hir) (pars : Provider) (src err : List Char) (x : ParameterError)
    (h : Expression.regexWithParameters parseHir pars src = .err (.expansion x)) :
    ∃ e l p r a, Expression.parse src = .ok e ∧ e = l ++ .parameter p :: r ∧ (∀ q ∈ params l, Known parseHir pars q) ∧
      src = print l ++ '{' :: p.input.frag ++ '}' :: print r ∧
      ((pars p.input = none ∧ ¬ IsBuiltin p ∧ (ExpandError.expansion x).display err = a ++ backquoted p.input.frag ++ chars! " not found") ∨
       ∃ v b, pars p.input = some v ∧ '(' ∈ v ∧ parseHir v = none ∧
         (ExpandError.expansion x).display err = a ++ backquoted v ++ b ++ backquoted p.input.frag ++ [':', ' '] ++ err) := by
  obtain ⟨e, ps, p, qs, he, hp, hk, hx⟩ := (C25_with_parameters parseHir pars src x).1 h
  obtain ⟨l, r, hl, hps⟩ := params_split hp
  rw [← hps] at hk
  refine ⟨e, l, p, r, ?_⟩
  rcases hx with ⟨h1, h2, rfl⟩ | ⟨v, h1, h2, h3, rfl⟩
  · exact ⟨chars! "Failed to expand regex: Parameter ", he, hl, hk, C35_raw src e he l r p hl, .inl ⟨h1, h2, by
      simp [ExpandError.display, ParameterError.display, backquoted]⟩⟩
  · exact ⟨chars! "Failed to expand regex: Failed to rename capturing groups in regex ", he, hl, hk, C35_raw src e he l r p hl,
      .inr ⟨v, chars! " of parameter ", h1, h2, h3, by simp [ExpandError.display, ParameterError.display, backquoted]⟩⟩

/-! Non-vacuity. -/

example : ∃ x, Expression.regexWithParameters (fun _ => none) (hashMapProvider [(['b'], ['(', 'x'])]) (chars! "{int} {b}") = .err (.expansion x) ∧
    (ExpandError.expansion x).display (chars! "unclosed group") =
      chars! "Failed to expand regex: Failed to rename capturing groups in regex `(x` of parameter `b`: unclosed group" :=
  ⟨_, rfl, by decide +kernel⟩

example : ∃ e, Expression.parse (chars! "a {b{c}d}") = .err e ∧ e.display = chars! "{c}\nA parameter may not contain an other parameter.\nIf you did not mean to use an optional type you can use '\\{' to escape the '{'. For more complicated expressions consider using a regular expression instead." :=
  ⟨_, rfl, by decide +kernel⟩

example : ∃ e e', Expression.parse (chars! "a(") = .err e ∧ Expression.parse (chars! "{é} (x") = .err e' ∧ e ≠ e' ∧ e.display = e'.display :=
  ⟨_, _, rfl, rfl, by decide, by decide +kernel⟩


/-! ## C49: following the advice -/

theorem escd_mono {stops t : List Char} (h : Escd stops t) : Escd [] t := by
  induction h with
  | nil => exact .nil
  | char c cs h1 _ _ ih => exact .char c cs h1 (by simp) ih
  | esc d cs h1 _ ih => exact .esc d cs h1 ih

theorem escd_cons {c : Char} {t : List Char} (hc : c ≠ '\\') (h : Escd [] t) : Escd [] (c :: t) := .char c t hc (by simp) h

theorem escd_delim {a b : Char} {t stops : List Char} (ha : a ≠ '\\') (hb : b ≠ '\\') (h : Escd stops t) :
    Escd [] (a :: (t ++ [b])) := escd_cons ha (escd_append (escd_mono h) (escd_cons hb .nil))

theorem escd_flatten {l : List (List Char)} (h : ∀ x ∈ l, Escd [] x) : Escd [] l.flatten := by
  induction l with
  | nil => exact .nil
  | cons x l ih =>
    exact escd_append (h x (by simp)) (ih (fun y hy => h y (by simp [hy])))

theorem escd_piece {q : Piece} (h : q.Valid) : Escd [] q.render := by
  cases q with
  | text t => exact escd_mono h.2
  | opt t => exact escd_delim (by decide) (by decide) h.2

theorem escd_pieces {b : List Piece} (h : ValidPieces b) : Escd [] (renderPieces b) := by
  refine escd_flatten ?_
  intro x hx
  obtain ⟨q, hq, rfl⟩ := List.mem_map.1 hx
  exact escd_piece (h.1 q hq)

theorem escd_branches {bs : List (List Piece)} (h : ∀ b ∈ bs, ValidPieces b) : Escd [] (renderBranches bs) := by
  induction bs with
  | nil => exact .nil
  | cons b bs ih =>
    cases bs with
    | nil => exact escd_pieces (h b (by simp))
    | cons b' bs =>
      exact escd_append (escd_pieces (h b (by simp))) (escd_cons (by decide) (ih (fun c hc => h c (by simp [hc]))))

theorem escd_slashTerminated {bs : List (List Piece)} (h : ∀ b ∈ bs, ValidPieces b) : Escd [] (slashTerminated bs) := by
  refine escd_flatten ?_
  intro x hx
  obtain ⟨b, hb, rfl⟩ := List.mem_map.1 hx
  exact escd_append (escd_pieces (h b hb)) (escd_cons (by decide) .nil)

theorem escd_elem {e : Elem} (h : e.Valid) : Escd [] e.render := by
  cases e with
  | alt bs => exact escd_branches (fun b hb => (h.2 b hb).1)
  | opt t => exact escd_delim (by decide) (by decide) h.2
  | param n => exact escd_delim (by decide) (by decide) h
  | text t => exact escd_mono h.2
  | ws t =>
    obtain ⟨-, h⟩ := h
    simp only [Elem.render]
    induction t with
    | nil => exact .nil
    | cons c t ih =>
      exact escd_cons (by rw [h c (by simp)]; decide) (ih (fun d hd => h d (by simp [hd])))

theorem escd_render {es : List Elem} (h : Canonical es) : Escd [] (render es) := by
  refine escd_flatten ?_
  intro x hx
  obtain ⟨e, he, rfl⟩ := List.mem_map.1 hx
  exact escd_elem (h.1 e he)

/-- In what is at `s` there is a character which the error `e` advises to escape and which can be escaped. -/
def SpotAt (s : Span) (e : PErr) : Prop :=
  ∃ k pre f c f' post, s.frag = pre ++ f ++ c :: f' ++ post ∧ Describes e k (s.sub pre (f ++ c :: f')) ∧
    Advises k (f ++ c :: f') c ∧ Escd [] (pre ++ f) ∧ (c = '\\' → ∀ d r, f' ++ post = d :: r → d ∉ reserved)

/-- What is at `s` does not end with a backslash that escapes nothing. -/
def NoDangling (s : Span) : Prop := ∀ u, Escd [] u → s.frag ≠ u ++ ['\\']

theorem spotAt_sub {s : Span} {pre f : List Char} {e : PErr} (hs : s.frag = pre ++ f) (hp : Escd [] pre)
    (h : SpotAt (s.sub pre f) e) : SpotAt s e := by
  obtain ⟨k, p, g, c, g', q, h1, h2, h3, h4, h5⟩ := h
  rw [Span.sub_frag] at h1
  refine ⟨k, pre ++ p, g, c, g', q, by rw [hs, h1]; simp, by simpa using h2, h3, ?_, h5⟩
  rw [List.append_assoc]
  exact escd_append hp h4

theorem noDangling_sub {s : Span} {pre f : List Char} (hs : s.frag = pre ++ f) (hp : Escd [] pre) (h : NoDangling s) :
    NoDangling (s.sub pre f) := by
  intro u hu he
  rw [Span.sub_frag] at he
  exact h (pre ++ u) (escd_append hp hu) (by rw [hs, he]; simp)

theorem run_escape {stops cs t v : List Char} {d : Char} (h : Run stops cs t ('\\' :: d :: v)) : d ∉ reserved := by
  intro hd
  have := h.2.2 (t ++ ['\\', d]) v (by rw [h.1]; simp) (escd_append h.2.1 (.esc d [] hd .nil))
  simp at this
  omega

theorem escapeFailure_spot {s cs pre t rest e stops} (hs : s.frag = pre ++ t ++ rest) (hp : Escd [] pre)
    (hr : Run stops cs t rest) (hn : NoDangling s) (h : EscapeFailure s pre t rest e) : SpotAt s e := by
  have ht : Escd [] (pre ++ t) := escd_append hp (escd_mono hr.2.1)
  cases h with
  | nonReserved d v h =>
    subst h
    refine ⟨_, pre ++ t, [], '\\', [d], v, by simp [hs], .escapedNonReservedCharacter _, rfl, by simpa using ht, ?_⟩
    intro _ d' r hd
    simp at hd
    rw [← hd.1]
    exact run_escape hr
  | endOfLine h h0 => exact absurd (by simp [hs, h]) (hn _ ht)
  | endOfLineAfterText h h0 => exact absurd (by simp [hs, h]) (hn _ ht)

theorem optionalFailure_spot {s r t rest e} (hs : s.frag = '(' :: r) (hr : Run optStops r t rest) (hn : NoDangling s)
    (h : OptionalFailure s t rest e) : SpotAt s e := by
  have hsr : s.frag = '(' :: (t ++ rest) := by rw [hs, hr.1]
  have ht : Escd [] ('(' :: t) := escd_cons (by decide) (escd_mono hr.2.1)
  cases h with
  | empty v h ht => exact ⟨_, [], [], '(', [')'], v, by simp [hsr, h, ht], .emptyOptional _, rfl, .nil, by simp⟩
  | alternation v h =>
    exact ⟨_, '(' :: t, [], '/', [], v, by simp [hsr, h], .alternationInOptional _, rfl, by simpa using ht, by simp⟩
  | nested t' v h =>
    exact ⟨_, '(' :: t, [], '(', t' ++ [')'], v, by simp [hsr, h.1], .nestedOptional _, rfl, by simpa using ht, by simp⟩
  | unescapedParen v h =>
    exact ⟨_, '(' :: t, [], '(', [], v, by simp [hsr, h], .unescapedReservedCharacter _, ⟨rfl, by decide⟩,
      by simpa using ht, by simp⟩
  | parameter t' v h =>
    exact ⟨_, '(' :: t, [], '{', t' ++ ['}'], v, by simp [hsr, h.1], .parameterInOptional _, rfl, by simpa using ht, by simp⟩
  | unescapedBrace v h =>
    exact ⟨_, '(' :: t, [], '{', [], v, by simp [hsr, h], .unescapedReservedCharacter _, ⟨rfl, by decide⟩,
      by simpa using ht, by simp⟩
  | unfinished h =>
    exact ⟨_, [], [], '(', [], t ++ rest, by simp [hsr], .unfinishedOptional _, rfl, .nil, by simp⟩
  | escape e h => exact escapeFailure_spot (by simp [hsr]) (escd_cons (by decide) .nil) hr hn h

theorem parameterFailure_spot {s r t rest e} (hs : s.frag = '{' :: r) (hr : Run nameStops r t rest) (hn : NoDangling s)
    (h : ParameterFailure s t rest e) : SpotAt s e := by
  have hsr : s.frag = '{' :: (t ++ rest) := by rw [hs, hr.1]
  have ht : Escd [] ('{' :: t) := escd_cons (by decide) (escd_mono hr.2.1)
  cases h with
  | nested t' v h =>
    exact ⟨_, '{' :: t, [], '{', t' ++ ['}'], v, by simp [hsr, h.1], .nestedParameter _, rfl, by simpa using ht, by simp⟩
  | unescapedBrace v h =>
    exact ⟨_, '{' :: t, [], '{', [], v, by simp [hsr, h], .unescapedReservedCharacter _, ⟨rfl, by decide⟩,
      by simpa using ht, by simp⟩
  | optional t' v h =>
    exact ⟨_, '{' :: t, [], '(', t' ++ [')'], v, by simp [hsr, h.1], .optionalInParameter _, rfl, by simpa using ht, by simp⟩
  | unescapedParen v h =>
    exact ⟨_, '{' :: t, [], '(', [], v, by simp [hsr, h], .unescapedReservedCharacter _, ⟨rfl, by decide⟩,
      by simpa using ht, by simp⟩
  | unescapedSlash v h =>
    exact ⟨_, '{' :: t, [], '/', [], v, by simp [hsr, h], .unescapedReservedCharacter _, ⟨rfl, by decide⟩,
      by simpa using ht, by simp⟩
  | unfinished h =>
    exact ⟨_, [], [], '{', [], t ++ rest, by simp [hsr], .unfinishedParameter _, rfl, .nil, by simp⟩
  | escape e h => exact escapeFailure_spot (by simp [hsr]) (escd_cons (by decide) .nil) hr hn h

theorem alternativeFailure_spot {s e} (hn : NoDangling s) (h : AlternativeOutcome s (.error (.failure e))) : SpotAt s e := by
  cases h with
  | optionalFailure e h =>
    cases h with
    | failure r t rest e h1 h2 h3 => exact optionalFailure_spot h1 h2 hn h3
  | textFailure t rest e _ hr h => exact escapeFailure_spot (by simpa using hr.1) .nil hr hn h

theorem renderBranches_split {bs : List (List Piece)} {b : List Piece} (hb : b ∈ bs) (h : ∀ c ∈ bs, ValidPieces c) :
    ∃ u v, renderBranches bs = u ++ renderPieces b ++ v ∧ Escd [] u := by
  induction bs with
  | nil => simp at hb
  | cons c bs ih =>
    rcases List.mem_cons.1 hb with rfl | hb
    · cases bs with
      | nil => exact ⟨[], [], by simp [renderBranches], .nil⟩
      | cons c' bs => exact ⟨[], '/' :: renderBranches (c' :: bs), by simp [renderBranches], .nil⟩
    · obtain ⟨u, v, h1, h2⟩ := ih hb (fun d hd => h d (by simp [hd]))
      cases bs with
      | nil => simp at hb
      | cons c' bs =>
        refine ⟨renderPieces c ++ '/' :: u, v, by rw [renderBranches, h1]; simp; simp, ?_⟩
        exact escd_append (escd_pieces (h c (by simp))) (escd_cons (by decide) h2)

theorem alternationFailure_spot {s e} (hn : NoDangling s) (h : AlternationFailure s e) : SpotAt s e := by
  cases h with
  | emptyFirst r h => exact ⟨_, [], [], '/', [], r, by simp [h], .emptyAlternation _, rfl, .nil, by simp⟩
  | emptyLater bs r hne hb hs hr =>
    exact ⟨_, renderBranches bs, [], '/', [], r, by simp [hs], .emptyAlternation _, rfl,
      by simpa using escd_branches (fun b h => (hb b h).1), by simp⟩
  | onlyOptional bs rest hl hb hs hr ho =>
    obtain ⟨b, hbm, ho⟩ := ho
    obtain ⟨u, v, h1, h2⟩ := renderBranches_split hbm (fun c hc => (hb c hc).1)
    cases b with
    | nil => exact absurd rfl (hb _ hbm).2
    | cons q b =>
      cases q with
      | text t => exact absurd (ho _ List.mem_cons_self) (by simp [Piece.isText])
      | opt t =>
        rw [h1] at hs ⊢
        refine ⟨.onlyOptionalInAlternation, [], u, '(', t ++ ')' :: renderPieces b ++ v, rest, ?_, ?_, rfl, by simpa using h2, by simp⟩
        · rw [hs]; simp [renderPieces, Piece.render]
        · have : u ++ renderPieces (Piece.opt t :: b) ++ v = u ++ '(' :: (t ++ ')' :: renderPieces b ++ v) := by
            simp [renderPieces, Piece.render]
          rw [this]
          exact .onlyOptionalInAlternation _
  | piece bs b v e hb hv hs hlast he =>
    have hp : Escd [] (slashTerminated bs ++ renderPieces b) :=
      escd_append (escd_slashTerminated (fun b h => (hb b h).1)) (escd_pieces hv)
    exact spotAt_sub hs hp (alternativeFailure_spot (noDangling_sub hs hp hn) he)

theorem dangles_append {u : List Char} (h : Escd [] u) (x : List Char) : dangles (u ++ x) = dangles x := by
  induction h with
  | nil => rfl
  | char c cs h1 _ _ ih =>
    rw [List.cons_append, dangles]
    · exact ih
    · intro h; exact absurd h h1
    · intro d r h; exact absurd h h1
  | esc d cs h1 _ ih =>
    rw [List.cons_append, List.cons_append, dangles, if_pos h1]
    exact ih

theorem loose_append {u : List Char} (h : Escd [] u) (x : List Char) : loose (u ++ x) = loose u + loose x := by
  induction h with
  | nil => simp [loose]
  | char c cs h1 _ _ ih =>
    rw [List.cons_append, loose, loose]
    · split <;> omega
    all_goals (intro d r h; exact absurd h h1)
  | esc d cs h1 _ ih =>
    rw [List.cons_append, List.cons_append, loose, loose, if_pos h1, if_pos h1]
    exact ih

/-- C49: unless the source ends with a backslash that escapes nothing, the advice of the message can be followed. -/
theorem C49_step (src : List Char) (e : PErr) (h : Expression.parse src = .err e) (hd : dangles src = false) :
    ∃ src', Repairs src e src' := by
  have hn : NoDangling (Span.new src) := by
    intro u hu he
    have : src = u ++ ['\\'] := he
    rw [this, dangles_append hu] at hd
    simp [dangles] at hd
  have key : SpotAt (Span.new src) e := by
    cases (C43_parse_err_iff src e).1 h with
    | parameter es rest r t w e hc happ hr hrun hf =>
      have hp := escd_render hc
      exact spotAt_sub happ hp (parameterFailure_spot (by simpa using hr) hrun (noDangling_sub happ hp hn) hf)
    | alternation es rest e hc hfr happ hf =>
      have hp := escd_render hc
      exact spotAt_sub happ hp (alternationFailure_spot (noDangling_sub happ hp hn) hf)
  obtain ⟨k, p, f, c, f', q, h1, h2, h3, h4, h5⟩ := key
  exact ⟨_, k, _, p, f, c, f', q, h2, h3, h1, by simp [Span.sub, Span.new], rfl, h4, h5, rfl⟩

theorem advises_reserved {k f c} (h : Advises k f c) : c ∈ reserved := by
  cases k <;> simp only [Advises] at h <;> first | exact h.2 | (subst h; decide)

/-- C49: every repair leaves fewer characters to be repaired. -/
theorem C49_progress (src src' : List Char) (e : PErr) (h : Repairs src e src') :
    loose src' + 1 = loose src ∧ (dangles src = false → dangles src' = false) := by
  obtain ⟨k, sp, p, f, c, f', q, h1, h2, rfl, -, -, h4, h5, rfl⟩ := h
  have hc := advises_reserved h2
  simp only [List.append_assoc, List.cons_append] at *
  rw [← List.append_assoc p f, ← List.append_assoc p f, loose_append h4, loose_append h4, dangles_append h4,
    dangles_append h4, loose, if_pos hc, dangles, if_pos hc]
  generalize f' ++ q = y at *
  by_cases hb : c = '\\'
  · subst hb
    cases y with
    | nil => simp [loose, dangles, reserved]
    | cons d r =>
      rw [loose, if_neg (h5 rfl d r rfl), dangles, if_neg (h5 rfl d r rfl)]
      exact ⟨by omega, id⟩
  · rw [loose, if_pos hc, dangles]
    · exact ⟨by omega, id⟩
    · intro h; exact absurd h hb
    · intro d r h; exact absurd h hb
    · intro d r h; exact absurd h hb


/-- `e` is the error of `Expression::parse` on `src`. -/
def Fails (src : List Char) (e : PErr) : Prop := Expression.parse src = .err e

/-- C49: however the advice is followed, one is done after at most as many repairs as there are reserved characters that
are neither escaped nor escape anything; and as long as the expression is not accepted, the advice can be followed. -/
theorem C49_any_order (src src' : List Char) (n : Nat) (hd : dangles src = false) (h : Repaired Fails src n src') :
    loose src' + n = loose src ∧ dangles src' = false ∧
    ((∃ x, Expression.parse src' = .ok x) ∨ ∃ src'', Repaired Fails src (n + 1) src'') := by
  induction h with
  | done src =>
    refine ⟨rfl, hd, ?_⟩
    cases hp : Expression.parse src with
    | ok x => exact .inl ⟨x, rfl⟩
    | err e =>
      obtain ⟨src', h⟩ := C49_step src e hp hd
      exact .inr ⟨src', .step hp h (.done _)⟩
    | panic => exact absurd hp (C08_parse_no_panic src).1
    | diverge => exact absurd hp (C08_parse_no_panic src).2
  | step h1 h2 h3 ih =>
    have hp := C49_progress _ _ _ h2
    obtain ⟨i1, i2, i3⟩ := ih (hp.2 hd)
    refine ⟨by omega, i2, ?_⟩
    rcases i3 with i3 | ⟨src'', i3⟩
    · exact .inl i3
    · exact .inr ⟨src'', .step h1 h2 i3⟩

/-- C49: following the messages leads to an accepted expression, unless the source ends with a backslash that escapes
nothing. -/
theorem C49_repairable (src : List Char) (hd : dangles src = false) :
    ∃ n src' x, Repaired Fails src n src' ∧ Expression.parse src' = .ok x := by
  generalize hm : loose src = m
  induction m using Nat.strongRecOn generalizing src with
  | _ m ih =>
    rcases (C49_any_order src src 0 hd (.done src)).2.2 with ⟨x, hx⟩ | ⟨src'', h⟩
    · exact ⟨0, src, x, .done src, hx⟩
    · cases h with
      | step h1 h2 h3 =>
        have hp := C49_progress _ _ _ h2
        obtain ⟨n, src3, x, h4, h5⟩ := ih _ (by omega) _ (hp.2 hd) rfl
        exact ⟨n + 1, src3, x, .step h1 h2 h4, h5⟩

theorem escd_textStart {p stops : List Char} (h : TextStart p stops) : Escd [] p := by
  cases h with
  | text es bs b h1 _ h3 h4 =>
    exact escd_append (escd_render h1) (escd_append (escd_slashTerminated (fun b h => (h3 b h).1)) (escd_pieces h4))
  | optional es bs b h1 _ h3 h4 =>
    exact escd_append (escd_append (escd_render h1) (escd_append (escd_slashTerminated (fun b h => (h3 b h).1)) (escd_pieces h4)))
      (escd_cons (by decide) .nil)
  | parameter es h1 => exact escd_append (escd_render h1) (escd_cons (by decide) .nil)

theorem prefix_of_blen {a b x y : List Char} (h : a ++ x = b ++ y) (hl : blen a = blen b) : a = b := by
  have h1 := splitBytes_append a x
  rw [h, hl, splitBytes_append] at h1
  simp at h1
  exact h1.1.symm

theorem escd_not_bs {u : List Char} (h : Escd [] u) : ¬ Escd [] (u ++ ['\\']) := by
  intro h'
  have h1 := dangles_append h ['\\']
  have h2 := dangles_append h' []
  rw [List.append_nil, h1] at h2
  simp [dangles] at h2

/-- C49, the exception: after a text of two or more characters, a backslash at the end of input cannot be repaired by
following the message, which is about the first two characters of the text (see C16). -/
theorem C49_stuck (p stops t : List Char) (e : PErr) (hp : TextStart p stops) (ht : Escd stops t) (hl : 2 ≤ t.length)
    (h : Expression.parse (p ++ t ++ ['\\']) = .err e) : ¬ ∃ src', Repairs (p ++ t ++ ['\\']) e src' := by
  rintro ⟨src', k, sp, p', f, c, f', q, h1, h2, h3, h4, h5, h6, h7, -⟩
  rw [C16_actual p stops t hp ht, if_neg (by rintro rfl; simp at hl)] at h
  simp only [Outcome.err.injEq] at h
  subst h
  cases h1
  simp only [Advises] at h2
  subst h2
  have hpp : p = p' := by
    simp only [List.append_assoc] at h3
    exact prefix_of_blen h3 h4
  subst hpp
  simp only [spanAt] at h5
  have hpe := escd_textStart hp
  simp only [List.append_assoc, List.append_cancel_left_eq] at h3
  cases ht with
  | nil => simp at hl
  | char c cs hc _ ht =>
    cases ht with
    | nil => simp at hl
    | char d cs hd _ ht =>
      simp only [List.cons_append, List.take_succ_cons, List.take_zero] at h5
      match f, h5 with
      | [], h5 => simp at h5; exact hc h5.1
      | [_], h5 => simp at h5; exact hd h5.2.1
      | _ :: _ :: _, h5 => simp at h5
    | esc d cs hd ht =>
      simp only [List.cons_append, List.take_succ_cons, List.take_zero] at h5
      match f, h5 with
      | [], h5 => simp at h5; exact hc h5.1
      | [_], h5 =>
        simp at h5
        obtain ⟨rfl, rfl⟩ := h5
        simp at h3
        exact h7 rfl d _ (by rw [List.nil_append]; exact h3.symm) hd
      | _ :: _ :: _, h5 => simp at h5
  | esc d cs hd ht =>
    simp only [List.cons_append, List.take_succ_cons, List.take_zero] at h5
    match f, h5 with
    | [], h5 =>
      simp at h5
      subst h5
      exact h7 rfl d _ rfl hd
    | [_], h5 =>
      simp at h5
      obtain ⟨rfl, rfl, rfl⟩ := h5
      exact escd_not_bs hpe h6
    | _ :: _ :: _, h5 => simp at h5

/-- Non-vacuity of `C49_stuck`: the stuck expression `ab\`. -/
example : TextStart [] textStops ∧ Escd textStops (chars! "ab") ∧
    Expression.parse (chars! "ab\\") = .err (.escapedNonReservedCharacter ⟨0, 1, chars! "ab"⟩) :=
  ⟨.text [] [] [] ⟨by simp, trivial⟩ (by intro e he; simp at he) (by intro b hb; simp at hb) ⟨by simp, trivial⟩ (by simp),
    .char 'a' _ (by decide) (by decide) (.char 'b' _ (by decide) (by decide) .nil), rfl⟩

/-- Non-vacuity: an expression that is repaired in two steps, with different errors. -/
example : dangles (chars! "a/ (b\\c)") = false ∧
    Repaired Fails (chars! "a/ (b\\c)") 2 (chars! "a\\/ (b\\\\c)") ∧
    ∃ x, Expression.parse (chars! "a\\/ (b\\\\c)") = .ok x := by
  refine ⟨by decide, ?_, ⟨_, rfl⟩⟩
  refine .step (e := .emptyAlternation ⟨1, 1, ['/']⟩) (src' := chars! "a\\/ (b\\c)") rfl ?_
    (.step (e := .escapedNonReservedCharacter ⟨6, 1, ['\\', 'c']⟩) rfl ?_ (.done _))
  · exact ⟨_, _, ['a'], [], '/', [], chars! " (b\\c)", .emptyAlternation _, rfl, rfl, rfl, rfl,
      .char 'a' _ (by decide) (by simp) .nil, by simp, rfl⟩
  · exact ⟨_, _, chars! "a\\/ (b", [], '\\', ['c'], [')'], .escapedNonReservedCharacter _, rfl, rfl, rfl, rfl,
      .char 'a' _ (by decide) (by simp) (.esc '/' _ (by decide) (.char ' ' _ (by decide) (by simp)
        (.char '(' _ (by decide) (by simp) (.char 'b' _ (by decide) (by simp) .nil)))),
      by intro _ d r h; simp at h; rw [← h.1]; decide, rfl⟩

end CE
