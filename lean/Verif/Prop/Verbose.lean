import Verif.Proof.Verbose
import Verif.Prop.Separable
import Verif.Prop.Single
import Verif.Prop.Segments
import Verif.Prop.Message

/-!
# White space and comments in custom regexes: C78
-/

namespace CE
open Spec Regex

variable (T : Tables) (pars : Provider)

/-- What is accepted without the flag `x` is accepted with it, as the same. -/
theorem C78_extends (src : List Char) (c : Compiled) (h : Expression.regexWithParameters (hirOf T) pars src = .ok c) :
    Verbose.regexWithParameters T pars src = .ok c := by
  cases hp : Expression.parse src with
  | err x => simp [Expression.regexWithParameters, hp] at h
  | panic => simp [Expression.regexWithParameters, hp] at h
  | diverge => simp [Expression.regexWithParameters, hp] at h
  | ok e =>
    rw [regexWith_eq (hirOf T) pars hp] at h
    rw [Verbose.regexWith_eq hp]
    cases hs : seqPat (customRes (hirOf T) pars) e with
    | error x => rw [hs] at h; cases h
    | ok cs =>
      rw [hs] at h
      have h1 : ∀ p ∈ params e, customRes (Verbose.hirOf T) pars p = customRes (hirOf T) pars p := fun p hp => by
        obtain ⟨q, hq⟩ := seqPat_isOk hs p hp
        rw [hq, Verbose.customRes_off hq]
      rw [seqPat_congr h1, hs]
      simp only [compileRes, Verbose.compileRes] at h ⊢
      cases hr : Regex.parse (['^'] ++ cs ++ ['$']) with
      | error x => rw [hr] at h; cases h
      | ok r => rw [hr] at h; rw [Verbose.parse_off hr]; exact h

/-- What is invalid without the flag `x` is invalid with it: white space in a regex makes no difference where the flag is not set. -/
theorem C78_invalid (v : List Char) : (Regex.parse v = .error .invalid → Verbose.parse v = .error .invalid) ∧
    (Ast.parse v = .error .invalid → Verbose.ast v = .error .invalid) := ⟨Verbose.parse_invalid, Verbose.ast_invalid⟩

/-- Non-vacuity of `C78_invalid`: white space before a group that is not closed, a parenthesis that closes nothing, and a class that is not closed. -/
example : (Regex.parse (chars! "a b(")) = .error .invalid ∧ Regex.parse (chars! "a #)") = .error .invalid ∧ Regex.parse (chars! " [b #") = .error .invalid :=
  ⟨rfl, rfl, rfl⟩

/-- The tokens of what such a regex says. -/
def saysToks (t : List Char) : List Tok := .group :: .close :: t.map .lit

theorem lex_spaced {t : List Char} (ht : Unmarked t) (s : List Char) :
    lexRaw (spaced t ++ s) = putRaw (.tok '(' .group :: .tok ')' .close :: t.map fun c => .tok c (.lit c)) (lexRaw s) := by
  rw [show spaced t ++ s = '(' :: '?' :: ':' :: ')' :: (t ++ s) from rfl, lexRaw_cons (r' := ')' :: (t ++ s)) (t := .tok '(' .group) rfl,
    lexRaw_cons (r' := t ++ s) (t := .tok ')' .close) rfl, lexRaw_plain _ ht, putRaw_putRaw, putRaw_putRaw]
  rfl

theorem resolve_says (t : List Char) :
    resolve {} [] (.tok '(' .group :: .tok ')' .close :: t.map fun c => .tok c (.lit c)) = .ok (saysToks t) := by
  have h := resolve_lits {} [] [] t
  rw [List.append_nil] at h
  rw [resolve_plain, resolve_plain, h]
  simp [resolve, prep, saysToks, Tok.under]

theorem lex_verbose {b t : List Char} {k : Bool} (h : Says b t k) : Verbose.lex (verbose b) = .ok (saysToks t) := by
  have h1 : Verbose.run true [] b = .ok (t.map fun c => .tok c (.lit c)) := by
    have := Verbose.run_says h [] []
    rw [List.append_nil] at this
    cases k with
    | false => exact this.2 rfl (by simp)
    | true => rw [this.1 rfl, Verbose.run_nil (cs := []) rfl]; simp [putRaw]
  rw [Verbose.lex_eq, Verbose.run_flag false [] b rfl, h1]
  simp only [putRaw, List.cons_append, List.nil_append]
  rw [Verbose.resolve_flag (by have := repeats_lits [] rfl t; rwa [List.append_nil] at this), resolve_says]

theorem lex_spaced_ok {t : List Char} (ht : Unmarked t) : lex (spaced t) = .ok (saysToks t) := by
  have h := lex_spaced ht []
  rw [List.append_nil] at h
  have h1 : lexF (spaced t).length (spaced t) = .ok (.tok '(' .group :: .tok ')' .close :: t.map fun c => .tok c (.lit c)) := by
    have h2 : lexRaw (spaced t) = _ := h
    rw [show lexRaw [] = .ok [] from rfl] at h2
    simpa [putRaw, lexRaw] using h2
  rw [lex, h1]
  exact resolve_says t

/-- The tree of what such a regex says. -/
def saysAst (t : List Char) : Ast := catA (.group .empty :: t.map .lit)

theorem groups_says (t : List Char) : (saysAst t).toRe.groups = [] := by
  rw [saysAst, toRe_catA, groups_catL, List.flatten_eq_nil_iff]
  simp only [List.map_map, List.mem_map, Function.comp_apply]
  rintro l ⟨a, ha, rfl⟩
  rcases List.mem_cons.1 ha with rfl | ha
  · rfl
  · obtain ⟨c, -, rfl⟩ := List.mem_map.1 ha; rfl

theorem build_says (t : List Char) : buildA [] .start (saysToks t) = .ok (saysAst t) := by
  obtain ⟨fr, h⟩ := AReadsAs.lits t false
  have := h [] [] [.group .empty] []
  rw [List.append_nil] at this
  refine Eq.trans this ?_
  simp [buildA, AFrame.finish, saysAst, altA]

theorem ast_spaced {t : List Char} (ht : Unmarked t) : Ast.parse (spaced t) = .ok (saysAst t) := by
  simp only [Ast.parse, lex_spaced_ok ht, build_says, Re.names, groups_says]
  rfl

theorem ast_verbose {b t : List Char} {k : Bool} (h : Says b t k) : Verbose.ast (verbose b) = .ok (saysAst t) := by
  simp only [Verbose.ast, lex_verbose h, build_says, Re.names, groups_says]
  rfl

theorem match_says {U : Classes} (t : List Char) (g : Nat) (pre x post : List Char) (l : List Cap) :
    (saysAst t).toRe.Match U g pre x post l ↔ x = t ∧ l = [] := by
  rw [saysAst, toRe_catA, List.map_cons, List.map_map, show (Ast.toRe ∘ Ast.lit) = Re.lit from rfl, match_catL_cons]
  constructor
  · rintro ⟨y, z, k, m, rfl, rfl, ⟨rfl, rfl⟩, h⟩
    obtain ⟨rfl, rfl⟩ := (match_lits ..).1 h
    exact ⟨rfl, rfl⟩
  · rintro ⟨rfl, rfl⟩
    exact ⟨[], x, [], [], rfl, rfl, ⟨rfl, rfl⟩, (match_lits ..).2 ⟨rfl, rfl⟩⟩

/-- By itself, a regex with the flag `x` matches what it says without white space and comments, even if its last comment has not
ended. -/
theorem C78_valid (b t : List Char) (k : Bool) (h : Says b t k) : ∃ r, Verbose.parse (verbose b) = .ok r ∧
    ∀ (U : Classes) (g : Nat) (pre x post : List Char) (l : List Cap), r.Match U g pre x post l ↔ x = t ∧ l = [] := by
  refine ⟨(saysAst t).toRe, ?_, fun U => match_says t⟩
  have h1 := parse_re (ast_spaced (Verbose.says_unmarked h))
  unfold Regex.parse at h1
  rw [lex_spaced_ok (Verbose.says_unmarked h)] at h1
  unfold Verbose.parse
  rw [lex_verbose h]
  exact h1

/-- How such a parameter is inserted. -/
theorem customRes_verbose {b t : List Char} {k : Bool} (h : Says b t k) {p : Parameter} (hv : pars p.input = some (verbose b)) :
    customRes (Verbose.hirOf T) pars p = .ok ('(' :: verbose b ++ [')']) := by
  have hp : '(' ∈ verbose b := by simp [verbose]
  simp only [customRes, hv, valueRes, if_pos hp, Verbose.hirOf, ast_verbose h, translate_groupless T (groups_says t)]
  rfl

theorem customRes_spaced {t : List Char} (ht : Unmarked t) {p : Parameter} (hv : pars p.input = some (spaced t)) :
    customRes (hirOf T) pars p = .ok ('(' :: spaced t ++ [')']) := by
  have hp : '(' ∈ spaced t := by simp [spaced]
  simp only [customRes, hv, valueRes, if_pos hp, hirOf_ok T (ast_spaced ht), translate_groupless T (groups_says t)]
  rfl

theorem lexRaw_of_lex {cs : List Char} {ts : List Tok} (h : lex cs = .ok ts) : ∃ us, lexRaw cs = .ok us ∧ resolve {} [] us = .ok ts := by
  unfold lex at h
  cases hr : lexF cs.length cs with
  | error e => rw [hr] at h; cases h
  | ok us => rw [hr] at h; exact ⟨us, hr, h⟩

/-- The tokens of elements whose parameters are sound: no group is left open. -/
theorem part_raw {pp : Parameter → List Char} {l : Expression} (hne : NonemptyAlts l) (hs : ∀ q ∈ params l, Sound (hirOf T) T.classes pars q)
    (hpp : ∀ q ∈ params l, customRes (hirOf T) pars q = .ok (pp q)) : ∃ ts, Lexes (exprPat pp l) ts ∧ ∀ us rs, ReadsAs us rs →
      ∃ r, build [] .start (us ++ ts) = .ok r := by
  obtain ⟨f, hf⟩ := sound_choice (hirOf T) T.classes pars hs
  have hf : ∀ p ∈ params l, Lexes (pp p) (f p).2.1 ∧ ReadsAs (f p).2.1 [(f p).2.2] := fun p hp => by
    have h1 := (hf p hp).1
    rw [hpp p hp] at h1
    rw [Except.ok.inj h1]
    exact ⟨(hf p hp).2.1, (hf p hp).2.2.1⟩
  have h1 : Lexes (exprPat pp l) (l.map (elemToks fun p => (f p).2.1)).flatten :=
    Lexes.flatten l fun x hx => lexes_elem x fun p hp => (hf p (mem_params.2 (hp ▸ hx))).1
  have h2 : ReadsAs (l.map (elemToks fun p => (f p).2.1)).flatten (l.map (elemItems fun p => (f p).2.2)).flatten :=
    ReadsAs.flatten l fun x hx => reads_elem x (fun hx' => hne (hx' ▸ hx)) fun p hp => (hf p (mem_params.2 (hp ▸ hx))).2
  refine ⟨_, h1, fun us rs hu => ?_⟩
  obtain ⟨fr, h3⟩ := (hu.append h2) false
  have := h3 [] [] [] []
  rw [List.append_nil] at this
  exact ⟨_, this⟩

theorem left_raw {pp : Parameter → List Char} {l : Expression} (hne : NonemptyAlts l) (hs : ∀ q ∈ params l, Sound (hirOf T) T.classes pars q)
    (hpp : ∀ q ∈ params l, customRes (hirOf T) pars q = .ok (pp q)) :
    ∃ us, lexRaw ('^' :: exprPat pp l) = .ok us ∧ Verbose.weights us = 0 := by
  obtain ⟨ts, h1, h2⟩ := part_raw T pars hne hs hpp
  obtain ⟨us, h3, h4⟩ := lexRaw_of_lex (lexes_bol.append h1).lex
  obtain ⟨r, h5⟩ := h2 [.bol] [.bol] fun _ => ⟨false, fun _ _ _ _ => rfl⟩
  refine ⟨us, h3, ?_⟩
  rw [← Verbose.net_resolve us _ _ _ h4, Verbose.net_build h5]

/-! ## Newlines -/

theorem newline_quote {u : List Char} (h : '\n' ∉ u) : '\n' ∉ quoteAll u := by
  induction u with
  | nil => simp
  | cons c u ih =>
    simp only [List.mem_cons, not_or] at h
    rw [quoteAll_cons, List.mem_append, not_or]
    refine ⟨?_, ih h.2⟩
    unfold quote
    split <;> simp [h.1]

theorem newline_unescape {u : List Char} (h : '\n' ∉ u) : '\n' ∉ quoteAll (unescape u) := newline_quote fun hu => h (mem_unescape hu)

theorem newline_alt {a : Alternative} (h : '\n' ∉ printAlternative a) : '\n' ∉ altPat a := by
  cases a with
  | text t => exact newline_unescape h
  | optional o =>
    have : '\n' ∉ o.input.frag := fun hm => h (by simp [printAlternative, hm])
    simp [altPat, newline_unescape this]

theorem newline_bars {bs : List (List Char)} (h : ∀ b ∈ bs, '\n' ∉ b) : '\n' ∉ joinBars bs := by
  induction bs with
  | nil => simp [joinBars]
  | cons b bs ih =>
    cases bs with
    | nil => exact h b (by simp)
    | cons c bs =>
      rw [joinBars]
      · simp only [List.mem_append, List.mem_cons, not_or]
        exact ⟨h b (by simp), by decide, ih fun d hd => h d (by simp [hd])⟩
      · simp

theorem mem_intercalate {c : Char} {s : List Char} {l : List (List Char)} {x : List Char} (hx : x ∈ l) (hc : c ∈ x) : c ∈ s.intercalate l := by
  induction l with
  | nil => cases hx
  | cons a l ih =>
    cases l with
    | nil => cases List.mem_singleton.1 hx; simpa [List.intercalate] using hc
    | cons d l =>
      have e : s.intercalate (a :: d :: l) = a ++ s ++ s.intercalate (d :: l) := by simp [List.intercalate]
      rw [e]
      rcases List.mem_cons.1 hx with rfl | hx
      · simp [hc]
      · simp [ih hx]

theorem newline_elem {pp : Parameter → List Char} {s : SingleExpression} (h : '\n' ∉ printSingle s)
    (hp : ∀ p, s = .parameter p → '\n' ∉ pp p) : '\n' ∉ elemPat pp s := by
  cases s with
  | text t => exact newline_unescape h
  | whitespaces t => exact newline_unescape h
  | optional o => exact newline_alt (a := .optional o) h
  | parameter p => exact hp p rfl
  | alternation a =>
    have : '\n' ∉ joinBars (a.map branchPat) := newline_bars fun b hb => by
      obtain ⟨b', hb', rfl⟩ := List.mem_map.1 hb
      intro hm
      obtain ⟨x, hx, hm⟩ := List.mem_flatten.1 hm
      obtain ⟨y, hy, rfl⟩ := List.mem_map.1 hx
      refine newline_alt (a := y) (fun hn => h ?_) hm
      exact mem_intercalate (List.mem_map.2 ⟨b', hb', rfl⟩) (List.mem_flatMap.2 ⟨y, hy, hn⟩)
    simp [elemPat, this]

theorem newline_expr {pp : Parameter → List Char} {r : Expression} (h : '\n' ∉ print r) (hp : ∀ p ∈ params r, '\n' ∉ pp p) :
    '\n' ∉ exprPat pp r := by
  intro hm
  obtain ⟨x, hx, hm⟩ := List.mem_flatten.1 hm
  obtain ⟨s, hs, rfl⟩ := List.mem_map.1 hx
  refine newline_elem (fun hn => h (List.mem_flatMap.2 ⟨s, hs, hn⟩)) ?_ hm
  rintro p rfl
  exact hp p (mem_params.2 hs)

theorem newline_builtin (b : Builtin) (id : Nat) : '\n' ∉ builtinPat b id := by
  cases b with
  | int => show '\n' ∉ intPattern; decide
  | float => show '\n' ∉ floatPattern; decide
  | word => show '\n' ∉ wordPattern; decide
  | anonymous => show '\n' ∉ anonPattern; decide
  | string =>
    have hd : '\n' ∉ decimal id := fun hm => by
      have := Nat.isDigit_of_mem_toDigits (by decide) (by decide) hm
      revert this; decide
    show '\n' ∉ chars! "(?:\"(?P<__" ++ decimal id ++ chars! "_0>[^\"\\\\]*(?:\\\\.[^\"\\\\]*)*)\"|'(?P<__" ++ decimal id ++
      chars! "_1>[^'\\\\]*(?:\\\\.[^'\\\\]*)*)')"
    simp only [List.mem_append, hd]
    decide

/-! ## Expressions -/

theorem mem_params_split {e l r : Expression} {p q : Parameter} (he : e = l ++ .parameter p :: r) (hq : q ∈ params e) :
    q ∈ params l ∨ q = p ∨ q ∈ params r := by
  have := mem_params.1 hq
  rw [he] at this
  simp only [List.mem_append, List.mem_cons, SingleExpression.parameter.injEq] at this
  rcases this with h | h | h
  · exact .inl (mem_params.2 h)
  · exact .inr (.inl h)
  · exact .inr (.inr (mem_params.2 h))

theorem exprPat_congr {pp qp : Parameter → List Char} {l : Expression} (h : ∀ q ∈ params l, pp q = qp q) : exprPat pp l = exprPat qp l := by
  unfold exprPat
  congr 1
  refine List.map_congr_left fun s hs => ?_
  cases s with
  | parameter q => exact h q (mem_params.2 hs)
  | _ => rfl

/-- The tokens of an expression with such a parameter, up to its regex. -/
theorem run_verbose {left : List Char} {us : List RTok} (hl : lexRaw left = .ok us) (b s : List Char) :
    ∃ st, Verbose.Off st ∧ Verbose.run false [] (left ++ ('(' :: verbose b ++ s)) =
      putRaw (us ++ [.tok '(' (.capture none), .flags [(.x, true)]]) (Verbose.run true (false :: st) (b ++ s)) := by
  obtain ⟨st, ho, h1⟩ := Verbose.run_off ('(' :: verbose b ++ s) (by simp) left.length left us (Nat.le_refl _) hl [] (by simp [Verbose.Off])
  refine ⟨st, ho, ?_⟩
  rw [h1, show '(' :: verbose b ++ s = '(' :: verbose (b ++ s) from rfl,
    Verbose.run_cons (x := false) (st := st) (c := '(') (r := verbose (b ++ s)) (t := .tok '(' (.capture none)) (q := verbose (b ++ s)) rfl rfl]
  simp only [Verbose.after]
  rw [Verbose.run_flag _ _ _ rfl, putRaw_putRaw, putRaw_putRaw]
  simp

/-- An expression with a parameter whose regex ends with a comment is refused, although the regex is valid (`C78_valid`): the comment
goes on to the end of the line, so to the end of the pattern. -/
theorem C78_refused (src : List Char) (e : Expression) (h : Expression.parse src = .ok e) (l r : Expression) (p : Parameter)
    (he : e = l ++ .parameter p :: r) (b t : List Char) (hb : Says b t false) (hv : pars p.input = some (verbose b))
    (hs : ∀ q ∈ params l, Sound (hirOf T) T.classes pars q)
    (hr : ∀ q ∈ params r, match pars q.input with
      | none => ∃ b : Builtin, q.input.frag = b.name
      | some w => '(' ∉ w ∧ '\n' ∉ w)
    (hn : '\n' ∉ print r) : ∃ x, Verbose.regexWithParameters T pars src = .err (.regex x) := by
  let pp : Parameter → List Char := fun p => match customRes (Verbose.hirOf T) pars p with
    | .ok c => c
    | .error _ => []
  have hl : ∀ q ∈ params l, customRes (hirOf T) pars q = .ok (pp q) := fun q hq => by
    obtain ⟨f, hf⟩ := sound_choice (hirOf T) T.classes pars hs
    have h1 := (hf q hq).1
    simp only [pp, Verbose.customRes_off h1, h1]
  have hp : customRes (Verbose.hirOf T) pars p = .ok (pp p) := by simp only [pp, customRes_verbose T pars hb hv]
  have hr' : ∀ q ∈ params r, customRes (Verbose.hirOf T) pars q = .ok (pp q) ∧ '\n' ∉ pp q := fun q hq => by
    have h1 := hr q hq
    cases hw : pars q.input with
    | none =>
      rw [hw] at h1
      obtain ⟨c, hc⟩ := h1
      have : customRes (Verbose.hirOf T) pars q = .ok (builtinPat c q.id) := by
        simp [customRes, hw, builtinRes, builtinNamed_some.2 hc]
      simp only [pp, this]
      exact ⟨trivial, newline_builtin c _⟩
    | some w =>
      rw [hw] at h1
      have : customRes (Verbose.hirOf T) pars q = .ok ('(' :: w ++ [')']) := by simp [customRes, hw, valueRes, h1.1]
      simp only [pp, this]
      exact ⟨trivial, by simp [h1.2]⟩
  have hne : NonemptyAlts l := fun hm => parse_nonemptyAlts h (by rw [he]; simp [hm])
  obtain ⟨us, h1, h2⟩ := left_raw T pars hne hs hl
  have h3 : seqPat (customRes (Verbose.hirOf T) pars) e = .ok (exprPat pp e) := seqPat_ok fun q hq => by
    rcases mem_params_split he hq with hq | rfl | hq
    · exact Verbose.customRes_off (hl q hq)
    · exact hp
    · exact (hr' q hq).1
  have h4 : ['^'] ++ exprPat pp e ++ ['$'] = ('^' :: exprPat pp l) ++ ('(' :: verbose b ++ (')' :: (exprPat pp r ++ ['$']))) := by
    have : pp p = '(' :: verbose b ++ [')'] := by simp only [pp, customRes_verbose T pars hb hv]
    simp [he, exprPat, elemPat, this]
  have h5 : '\n' ∉ ')' :: (exprPat pp r ++ ['$']) := by
    have := newline_expr (pp := pp) hn fun q hq => (hr' q hq).2
    simp [this]
  obtain ⟨st, -, h6⟩ := run_verbose h1 b (')' :: (exprPat pp r ++ ['$']))
  rw [(Verbose.run_says hb (false :: st) _).2 rfl h5] at h6
  have h7 : ∃ x, Verbose.parse (['^'] ++ exprPat pp e ++ ['$']) = .error x := by
    rw [h4]
    unfold Verbose.parse
    rw [Verbose.lex_eq, h6]
    simp only [putRaw]
    cases h8 : resolve {} [] (us ++ [.tok '(' (.capture none), .flags [(.x, true)]] ++ t.map fun c => .tok c (.lit c)) with
    | error x => exact ⟨x, rfl⟩
    | ok vs =>
      simp only []
      cases h9 : build [] .start vs with
      | error x => exact ⟨x, rfl⟩
      | ok re =>
        exfalso
        have h10 := Verbose.net_resolve _ _ _ _ h8
        have h11 : ∀ t : List Char, Verbose.weights (t.map fun c => .tok c (.lit c)) = 0 := fun t => by
          induction t with
          | nil => rfl
          | cons c t ih => simpa [Verbose.weights, Verbose.weight] using ih
        rw [Verbose.net_build h9, Verbose.weights_append, Verbose.weights_append, h2, h11] at h10
        revert h10; decide
  obtain ⟨x, hx⟩ := h7
  exact ⟨x, by rw [Verbose.regexWith_eq h, h3]; simp only [Verbose.compileRes, hx]⟩

/-- Inside an expression, too, the regex means what it says. -/
theorem parse_closed {left right : List Char} {us ws : List RTok} (hl : lexRaw left = .ok us) (hr : lexRaw right = .ok ws)
    {b t : List Char} (hb : Says b t true) :
    Verbose.parse (left ++ ('(' :: verbose b ++ ')' :: right)) = Regex.parse (left ++ ('(' :: spaced t ++ ')' :: right)) := by
  have h1 : lexRaw (left ++ ('(' :: spaced t ++ ')' :: right)) = .ok (us ++ (.tok '(' (.capture none) :: .tok '(' .group ::
      .tok ')' .close :: ((t.map fun c => .tok c (.lit c)) ++ .tok ')' .close :: ws))) := by
    have h2 := lexF_append ('(' :: spaced t ++ ')' :: right) (by simp) left.length left us (Nat.le_refl _) hl
    have h3 : lexRaw ('(' :: spaced t ++ ')' :: right) = .ok (.tok '(' (.capture none) :: .tok '(' .group ::
        .tok ')' .close :: ((t.map fun c => .tok c (.lit c)) ++ .tok ')' .close :: ws)) := by
      rw [List.cons_append, lexRaw_cons (r' := spaced t ++ ')' :: right) (t := .tok '(' (.capture none)) rfl,
        lex_spaced (Verbose.says_unmarked hb), lexRaw_cons (r' := right) (t := .tok ')' .close) rfl, hr]
      simp [putRaw]
    unfold lexRaw at h3 ⊢
    rw [h2, h3]
  have h4 : Verbose.run false [] (left ++ ('(' :: verbose b ++ ')' :: right)) = .ok (us ++ (.tok '(' (.capture none) ::
      .flags [(.x, true)] :: ((t.map fun c => .tok c (.lit c)) ++ .tok ')' .close :: ws))) := by
    obtain ⟨st, ho, h5⟩ := run_verbose hl b (')' :: right)
    obtain ⟨st', -, h6⟩ := Verbose.run_off [] (by simp) right.length right ws (Nat.le_refl _) hr st ho
    rw [List.append_nil, Verbose.run_nil (cs := []) rfl] at h6
    rw [h5, (Verbose.run_says hb (false :: st) _).1 rfl, Verbose.run_cons (x := true) (st := false :: st) (c := ')') (r := right)
      (t := .tok ')' .close) (q := right) rfl (by simp [Verbose.one, atFlags, lexOne, Verbose.astray])]
    simp only [Verbose.after, List.headD_cons, List.tail_cons, h6]
    simp [putRaw]
  have h7 : ∀ f fs, resolve f fs (.tok '(' (.capture none) :: .flags [(.x, true)] :: ((t.map fun c => .tok c (.lit c)) ++ .tok ')' .close :: ws)) =
      resolve f fs (.tok '(' (.capture none) :: .tok '(' .group :: .tok ')' .close :: ((t.map fun c => .tok c (.lit c)) ++ .tok ')' .close :: ws)) :=
    fun f fs => congrArg (prep [.capture none]) (Verbose.resolve_flag (repeats_lits _ rfl t) f (f :: fs))
  have h8 : Verbose.lex (left ++ ('(' :: verbose b ++ ')' :: right)) = lex (left ++ ('(' :: spaced t ++ ')' :: right)) := by
    unfold lex
    unfold lexRaw at h1
    rw [Verbose.lex_eq, h4, h1]
    exact Verbose.resolve_congr h7 rfl us {} []
  unfold Verbose.parse Regex.parse
  rw [h8]
  rfl

/-- An expression with a parameter whose regex has white space and comments, the last of which has ended, means the same as with what
the regex says instead. -/
theorem C78_closed (src : List Char) (e : Expression) (h : Expression.parse src = .ok e) (l r : Expression) (p : Parameter)
    (he : e = l ++ .parameter p :: r) (b t : List Char) (hb : Says b t true) (hv : pars p.input = some (verbose b)) (pars' : Provider)
    (hv' : pars' p.input = some (spaced t)) (hpars : ∀ q ∈ params l ++ params r, pars' q.input = pars q.input)
    (hs : ∀ q ∈ params l ++ params r, Sound (hirOf T) T.classes pars q) (re : Re) :
    (∃ c, Verbose.regexWithParameters T pars src = .ok c ∧ c.re = re) ↔
      ∃ c, Expression.regexWithParameters (hirOf T) pars' src = .ok c ∧ c.re = re := by
  let pp : Parameter → List Char := fun p => match customRes (hirOf T) pars p with
    | .ok c => c
    | .error _ => []
  let pq : (Provider → Parameter → Except ParameterError (List Char)) → Provider → Parameter → List Char := fun cr ps p => match cr ps p with
    | .ok c => c
    | .error _ => []
  have hq : ∀ q ∈ params l ++ params r, customRes (hirOf T) pars q = .ok (pp q) := fun q hq => by
    obtain ⟨f, hf⟩ := sound_choice (hirOf T) T.classes pars hs
    simp only [pp, (hf q hq).1]
  have hq' : ∀ q ∈ params l ++ params r, customRes (hirOf T) pars' q = .ok (pp q) := fun q hm => by
    rw [← hq q hm, customRes, customRes, hpars q hm]
  have hal : NonemptyAlts l := fun hm => parse_nonemptyAlts h (by rw [he]; simp [hm])
  have har : NonemptyAlts r := fun hm => parse_nonemptyAlts h (by rw [he]; simp [hm])
  obtain ⟨us, h1, -⟩ := left_raw T pars hal (fun q hm => hs q (by simp [hm])) fun q hm => hq q (by simp [hm])
  obtain ⟨ts, h2, -⟩ := part_raw T pars har (fun q hm => hs q (by simp [hm])) fun q hm => hq q (by simp [hm])
  obtain ⟨ws, h3, -⟩ := lexRaw_of_lex (h2.append lexes_eol).lex
  have shape : ∀ (cr : Provider → Parameter → Except ParameterError (List Char)) (ps : Provider) (v : List Char),
      (∀ q ∈ params l ++ params r, cr ps q = .ok (pp q)) → cr ps p = .ok ('(' :: v ++ [')']) →
      ∃ cs, seqPat (cr ps) e = .ok cs ∧ ['^'] ++ cs ++ ['$'] = ('^' :: exprPat pp l) ++ ('(' :: v ++ ')' :: (exprPat pp r ++ ['$'])) := by
    intro cr ps v h4 h5
    refine ⟨_, seqPat_ok (pp := pq cr ps) fun q hm => ?_, ?_⟩
    · rcases mem_params_split he hm with hm | rfl | hm
      · simp only [pq, h4 q (by simp [hm])]
      · simp only [pq, h5]
      · simp only [pq, h4 q (by simp [hm])]
    · have h6 : exprPat (pq cr ps) l = exprPat pp l := exprPat_congr fun q hm => by simp only [pq, h4 q (by simp [hm])]
      have h7 : exprPat (pq cr ps) r = exprPat pp r := exprPat_congr fun q hm => by simp only [pq, h4 q (by simp [hm])]
      have h8 : exprPat (pq cr ps) e = exprPat (pq cr ps) l ++ (pq cr ps p ++ exprPat (pq cr ps) r) := by simp [he, exprPat, elemPat]
      have h9 : pq cr ps p = '(' :: v ++ [')'] := by simp only [pq, h5]
      rw [h8, h6, h7, h9]
      simp
  obtain ⟨cs, h4, h5⟩ := shape (customRes (Verbose.hirOf T)) pars (verbose b) (fun q hm => Verbose.customRes_off (hq q hm))
    (customRes_verbose T pars hb hv)
  obtain ⟨cs', h6, h7⟩ := shape (customRes (hirOf T)) pars' (spaced t) hq' (customRes_spaced T pars' (Verbose.says_unmarked hb) hv')
  rw [regexWith_eq (hirOf T) pars' h, h6, Verbose.regexWith_eq h, h4]
  simp only [compileRes, h7, Verbose.compileRes, h5]
  rw [parse_closed h1 h3 hb]
  cases Regex.parse ('^' :: exprPat pp l ++ ('(' :: spaced t ++ ')' :: (exprPat pp r ++ ['$']))) with
  | error x => exact ⟨fun ⟨_, h, _⟩ => (by cases h), fun ⟨_, h, _⟩ => by cases h⟩
  | ok q => exact ⟨fun ⟨_, h, e⟩ => ⟨_, rfl, by cases h; exact e⟩, fun ⟨_, h, e⟩ => ⟨_, rfl, by cases h; exact e⟩⟩

/-- Every text whose characters have no meaning in regexes, except in comments, says something. -/
theorem says_total : ∀ (n : Nat) (b : List Char), b.length ≤ n → Unmarked b → ∃ t k, Says b t k
  | n, [], _, _ => ⟨[], true, .nil⟩
  | 0, _ :: _, h, _ => by simp at h
  | n + 1, c :: b, h, hm => by
    simp only [List.length_cons] at h
    by_cases hw : White c
    · obtain ⟨t, k, h1⟩ := says_total n b (by omega) fun d hd => hm d (by simp [hd])
      exact ⟨t, k, .white hw h1⟩
    · by_cases hc : c = '#'
      · subst hc
        by_cases hn : '\n' ∈ b
        · obtain ⟨w, q, h1, rfl⟩ : ∃ w q, '\n' ∉ w ∧ b = w ++ '\n' :: q := by
            clear h hm
            induction b with
            | nil => cases hn
            | cons d b ih =>
              by_cases hd : d = '\n'
              · exact ⟨[], b, by simp, by simp [hd]⟩
              · obtain ⟨w, q, h1, rfl⟩ := ih ((List.mem_cons.1 hn).resolve_left (Ne.symm hd))
                exact ⟨d :: w, q, by simp [h1, Ne.symm hd], rfl⟩
          simp only [List.length_append, List.length_cons] at h
          obtain ⟨t, k, h2⟩ := says_total n q (by omega) fun d hd => hm d (by simp [hd])
          exact ⟨t, k, .comment h1 h2⟩
        · exact ⟨[], false, .last hn⟩
      · obtain ⟨t, k, h1⟩ := says_total n b (by omega) fun d hd => hm d (by simp [hd])
        exact ⟨c :: t, k, .char hw hc (hm c (by simp)) h1⟩

/-- The definitions are met: a regex whose comment goes on, one whose comment ends. -/
example : Says (chars! "a # b") (chars! "a") false ∧ Says (chars! "a # (\n c") (chars! "ac") true :=
  ⟨.char (by decide) (by decide) (by decide) (.white (by decide) (.last (w := chars! " b") (by decide))),
    .char (by decide) (by decide) (by decide) (.white (by decide) (.comment (w := chars! " (") (by decide) (.white (by decide)
      (.char (by decide) (by decide) (by decide) .nil))))⟩

/-- `(?x)a # b` is valid, but every expression with it is refused; with a newline at its end it is accepted. -/
example : (∃ r, Verbose.parse (verbose (chars! "a # b")) = .ok r) ∧
    (∃ x, Verbose.regexWithParameters T (hashMapProvider [(chars! "p", verbose (chars! "a # b"))]) (chars! "{int} {p} c") = .err (.regex x)) ∧
    ∃ c, Verbose.regexWithParameters T (hashMapProvider [(chars! "p", verbose (chars! "a # b\n"))]) (chars! "{int} {p} c") = .ok c ∧
      Expression.regexWithParameters (hirOf T) (hashMapProvider [(chars! "p", spaced (chars! "a"))]) (chars! "{int} {p} c") =
        .ok ⟨chars! "^((?:-?\\d+)|(?:\\d+)) ((?:)a) c$", c.re⟩ :=
  ⟨⟨_, rfl⟩, ⟨_, rfl⟩, ⟨_, rfl, rfl⟩⟩

/-- What `C78_refused` assumes holds of it. -/
example : ∃ e l r p, Expression.parse (chars! "{int} {p} c") = .ok e ∧ e = l ++ .parameter p :: r ∧
    (∀ q ∈ params l, Sound (hirOf T) T.classes (hashMapProvider [(chars! "p", verbose (chars! "a # b"))]) q) ∧ params r = [] ∧
    hashMapProvider [(chars! "p", verbose (chars! "a # b"))] p.input = some (verbose (chars! "a # b")) ∧ '\n' ∉ print r := by
  refine ⟨_, [_, _], [_, _], _, rfl, rfl, ?_, rfl, rfl, by decide⟩
  intro q hq
  cases List.mem_singleton.1 hq
  exact ⟨.int, rfl⟩

end CE
