import Verif.Model.Parameters
import Verif.Spec.Custom
import Verif.Proof.Iter
import Verif.Proof.BuiltinSem

/-!
# Expansion: closed form of the pattern, its tokens, its syntax tree and its matches

Everything is parametrised by the expansion of parameters, to cover expressions with and without custom ones.
-/

namespace CE
open Spec Regex

/-! ## The pattern -/

def altPat : Alternative → List Char
  | .text t => quoteAll (unescape t.frag)
  | .optional o => ['(', '?', ':'] ++ quoteAll (unescape o.input.frag) ++ [')', '?']

def branchPat (b : SingleAlternation) : List Char := (b.map altPat).flatten

/-- Joined with `|`. -/
def joinBars : List (List Char) → List Char
  | [] => []
  | [b] => b
  | b :: bs => b ++ '|' :: joinBars bs

def elemPat (pp : Parameter → List Char) : SingleExpression → List Char
  | .text t => quoteAll (unescape t.frag)
  | .whitespaces t => quoteAll (unescape t.frag)
  | .optional o => altPat (.optional o)
  | .alternation a => ['(', '?', ':'] ++ joinBars (a.map branchPat) ++ [')']
  | .parameter p => pp p

def exprPat (pp : Parameter → List Char) (e : Expression) : List Char := (e.map (elemPat pp)).flatten

/-- Expansion of an element, given that of parameters. -/
def charsWith (pc : Parameter → Option (List Item)) : SingleExpression → Option (List Item)
  | .parameter p => pc p
  | e => e.chars

theorem chars_eq_charsWith (e : SingleExpression) : e.chars = charsWith Parameter.chars e := by cases e <;> rfl

theorem singleChars_eq_charsWith (ph : List Char → Option Hir) (pars : Provider) (e : SingleExpression) :
    WithCustom.singleChars ph pars e = charsWith (WithCustom.parameterChars ph pars) e := by cases e <;> rfl

theorem okChars_append (a b : List Char) : okChars (a ++ b) = okChars a ++ okChars b := by simp [okChars]

theorem altChars_eq (a : Alternative) : a.chars = some (okChars (altPat a)) := by
  cases a with
  | text t => simp [Alternative.chars, altPat, escapeForRegex_eq]
  | optional o => simp [Alternative.chars, Optional.chars, altPat, escapeForRegex_eq]

theorem flatItems_ok {α : Type} {f : α → Option (List Item)} {p : α → List Char} (h : ∀ a, f a = some (okChars (p a)))
    (as : List α) : flatItems f as = some (okChars (as.map p).flatten) := by
  induction as with
  | nil => rfl
  | cons a as ih => simp [flatItems, h, ih, okChars]

theorem singleAlt_eq (b : SingleAlternation) : singleAltChars b = some (okChars (branchPat b ++ ['|'])) := by
  simp [singleAltChars, flatItems_ok altChars_eq, branchPat, okChars]

theorem dropLast_bars (bs : List (List Char)) : ((bs.map (· ++ ['|'])).flatten).dropLast = joinBars bs := by
  induction bs with
  | nil => rfl
  | cons b bs ih =>
    cases bs with
    | nil => simp [joinBars]
    | cons c bs =>
      rw [List.map_cons, List.flatten_cons, List.dropLast_append_of_ne_nil (by simp), ih]
      simp [joinBars]

theorem alternation_eq (a : Alternation) :
    a.chars = some (okChars (['(', '?', ':'] ++ joinBars (a.map branchPat) ++ [')'])) := by
  have h : (okChars (a.map (fun b => branchPat b ++ ['|'])).flatten).dropLast = okChars (joinBars (a.map branchPat)) := by
    rw [← dropLast_bars]
    simp [okChars, List.map_dropLast, List.map_map, Function.comp_def]
  simp only [Alternation.chars, flatItems_ok singleAlt_eq, skipLast_eq, h, Option.map_some]
  simp [okChars]

theorem charsWith_ok {pc : Parameter → Option (List Item)} (pp : Parameter → List Char) (e : SingleExpression)
    (h : ∀ p, e = .parameter p → pc p = some (okChars (pp p))) : charsWith pc e = some (okChars (elemPat pp e)) := by
  cases e with
  | text t => simp [charsWith, SingleExpression.chars, escapeForRegex_eq, elemPat]
  | whitespaces t => simp [charsWith, SingleExpression.chars, escapeForRegex_eq, elemPat]
  | optional o => exact altChars_eq (.optional o)
  | alternation a => exact alternation_eq a
  | parameter p => exact h p rfl

theorem collectResult_append (l m : List Item) : collectResult (l ++ m) =
    match collectResult l with
    | .error e => .error e
    | .ok a => match collectResult m with
      | .error e => .error e
      | .ok b => .ok (a ++ b) := by
  induction l with
  | nil => cases h : collectResult m <;> simp [collectResult, h]
  | cons i l ih =>
    cases i with
    | error e => simp [collectResult]
    | ok c =>
      rw [List.cons_append, collectResult, ih]
      cases hl : collectResult l <;> cases hm : collectResult m <;> simp [collectResult, hl]

theorem collectResult_ok (cs : List Char) : collectResult (okChars cs) = .ok cs := by
  induction cs with
  | nil => rfl
  | cons c cs ih => simp only [okChars, List.map_cons, collectResult] at ih ⊢; rw [ih]

/-- The pattern of the elements, or the first error, given the result of expanding each parameter. -/
def seqPat (pr : Parameter → Except ParameterError (List Char)) : Expression → Except ParameterError (List Char)
  | [] => .ok []
  | .parameter p :: es =>
    match pr p with
    | .error e => .error e
    | .ok a => match seqPat pr es with
      | .error e => .error e
      | .ok b => .ok (a ++ b)
  | e :: es =>
    match seqPat pr es with
    | .error x => .error x
    | .ok b => .ok (elemPat (fun _ => []) e ++ b)

theorem collect_chars {pc : Parameter → Option (List Item)} {pr : Parameter → Except ParameterError (List Char)}
    (h : ∀ p, ∃ l, pc p = some l ∧ collectResult l = pr p) (e : Expression) :
    ∃ l, flatItems (charsWith pc) e = some l ∧ collectResult l = seqPat pr e := by
  induction e with
  | nil => exact ⟨[], rfl, rfl⟩
  | cons x es ih =>
    obtain ⟨l, h1, h2⟩ := ih
    by_cases hx : ∃ p, x = .parameter p
    · obtain ⟨p, rfl⟩ := hx
      obtain ⟨k, h3, h4⟩ := h p
      exact ⟨k ++ l, by simp [flatItems, charsWith, h3, h1], by rw [collectResult_append, h4, h2, seqPat]⟩
    · have hc := charsWith_ok (pc := pc) (fun _ => []) x (fun p hp => absurd ⟨p, hp⟩ hx)
      refine ⟨okChars (elemPat (fun _ => []) x) ++ l, by simp [flatItems, hc, h1], ?_⟩
      rw [collectResult_append, collectResult_ok, h2]
      cases x <;> first | (exact absurd ⟨_, rfl⟩ hx) | rfl

/-- Anchoring and compiling the pattern. -/
def compileRes : Except ParameterError (List Char) → Outcome ExpandError Compiled
  | .error x => .err (.expansion x)
  | .ok cs => match Regex.parse (['^'] ++ cs ++ ['$']) with
    | .error x => .err (.regex x)
    | .ok r => .ok ⟨['^'] ++ cs ++ ['$'], r⟩

theorem compile_chars {pc : Parameter → Option (List Item)} {pr : Parameter → Except ParameterError (List Char)}
    (h : ∀ p, ∃ l, pc p = some l ∧ collectResult l = pr p) (e : Expression) :
    compile ((flatItems (charsWith pc) e).map fun l => [.ok '^'] ++ l ++ [.ok '$']) = compileRes (seqPat pr e) := by
  obtain ⟨l, h1, h2⟩ := collect_chars h e
  rw [h1]
  simp only [Option.map_some, compile]
  have h3 : collectResult ([.ok '^'] ++ l ++ [.ok '$']) = match seqPat pr e with
      | .error x => .error x
      | .ok cs => .ok (['^'] ++ cs ++ ['$']) := by
    rw [collectResult_append, collectResult_append, h2]
    cases seqPat pr e <;> rfl
  rw [h3]
  cases seqPat pr e <;> rfl

theorem seqPat_ok {pr : Parameter → Except ParameterError (List Char)} {pp : Parameter → List Char} {e : Expression}
    (h : ∀ p ∈ params e, pr p = .ok (pp p)) : seqPat pr e = .ok (exprPat pp e) := by
  induction e with
  | nil => rfl
  | cons x es ih =>
    have h2 := ih (fun p hp => h p (by cases x <;> simp_all [params]))
    cases x with
    | parameter p =>
      rw [seqPat, h p (by simp [params]), h2]; rfl
    | _ => rw [seqPat, h2]; rfl; intro p hp; exact absurd hp (by simp)

theorem params_cons_parameter (p : Parameter) (es : Expression) : params (.parameter p :: es) = p :: params es := rfl

theorem params_cons_other {x : SingleExpression} (h : ∀ p, x ≠ .parameter p) (es : Expression) :
    params (x :: es) = params es := by
  cases x <;> first | (exact absurd rfl (h _)) | rfl

theorem mem_params {e : Expression} {p : Parameter} : p ∈ params e ↔ .parameter p ∈ e := by
  unfold params
  rw [List.mem_filterMap]
  constructor
  · rintro ⟨x, hx, h⟩
    cases x <;> simp at h
    subst h; exact hx
  · intro h; exact ⟨_, h, rfl⟩

/-- The pattern of the elements fails with the error of the first parameter that fails. -/
theorem seqPat_error {pr : Parameter → Except ParameterError (List Char)} {e : Expression} {x : ParameterError} :
    seqPat pr e = .error x ↔ ∃ ps p qs, params e = ps ++ p :: qs ∧ (∀ q ∈ ps, ∃ cs, pr q = .ok cs) ∧ pr p = .error x := by
  induction e with
  | nil => simp [seqPat, params]
  | cons y es ih =>
    by_cases hy : ∃ p, y = .parameter p
    · obtain ⟨p, rfl⟩ := hy
      rw [seqPat, params_cons_parameter]
      cases hp : pr p with
      | error z =>
        simp only [Except.error.injEq]
        constructor
        · rintro rfl; exact ⟨[], p, params es, rfl, by simp, hp⟩
        · rintro ⟨ps, q, qs, h1, h2, h3⟩
          cases ps with
          | nil =>
            simp only [List.nil_append, List.cons.injEq] at h1
            rw [← h1.1, hp] at h3; simpa using h3
          | cons q' ps =>
            simp only [List.cons_append, List.cons.injEq] at h1
            obtain ⟨cs, hc⟩ := h2 q' (by simp)
            rw [← h1.1, hp] at hc; cases hc
      | ok a =>
        have : (match seqPat pr es with | .error e => .error e | .ok b => .ok (a ++ b) :
            Except ParameterError (List Char)) = .error x ↔ seqPat pr es = .error x := by
          cases seqPat pr es <;> simp
        simp only []
        rw [this, ih]
        constructor
        · rintro ⟨ps, q, qs, h1, h2, h3⟩
          exact ⟨p :: ps, q, qs, by simp [h1], by simpa using ⟨⟨a, hp⟩, h2⟩, h3⟩
        · rintro ⟨ps, q, qs, h1, h2, h3⟩
          cases ps with
          | nil =>
            simp only [List.nil_append, List.cons.injEq] at h1
            rw [← h1.1, hp] at h3; cases h3
          | cons q' ps =>
            simp only [List.cons_append, List.cons.injEq] at h1
            exact ⟨ps, q, qs, h1.2, fun r hr => h2 r (by simp [hr]), h3⟩
    · have hy' : ∀ p, y ≠ .parameter p := fun p hp => hy ⟨p, hp⟩
      rw [params_cons_other hy', ← ih]
      cases y <;> first | (exact absurd rfl (hy' _)) | (rw [seqPat]; cases seqPat pr es <;> simp; simp)

/-! ## Tokens and syntax tree -/

def altToks : Alternative → List Tok
  | .text t => (unescape t.frag).map .lit
  | .optional o => .group :: (unescape o.input.frag).map .lit ++ [.close, .quest]

def altItems : Alternative → List Re
  | .text t => (unescape t.frag).map .lit
  | .optional o => [.rep (catL ((unescape o.input.frag).map .lit)) 0 (some 1) true]

def branchToks (b : SingleAlternation) : List Tok := (b.map altToks).flatten
def branchItems (b : SingleAlternation) : List Re := (b.map altItems).flatten

def elemToks (tp : Parameter → List Tok) : SingleExpression → List Tok
  | .text t => (unescape t.frag).map .lit
  | .whitespaces t => (unescape t.frag).map .lit
  | .optional o => altToks (.optional o)
  | .alternation a => .group :: barred (a.map branchToks) ++ [.close]
  | .parameter p => tp p

def elemItems (rp : Parameter → Re) : SingleExpression → List Re
  | .text t => (unescape t.frag).map .lit
  | .whitespaces t => (unescape t.frag).map .lit
  | .optional o => altItems (.optional o)
  | .alternation a => [altL (a.map fun b => catL (branchItems b))]
  | .parameter p => [rp p]

theorem lexes_open : Lexes ['(', '?', ':'] [.group] := fun rest => by
  rw [List.cons_append, lex_cons (t := .group) (r' := rest) rfl]

theorem lexes_close : Lexes [')'] [.close] := fun rest => by
  rw [List.cons_append, lex_cons (t := .close) (r' := rest) rfl]

theorem lexes_quest : Lexes ['?'] [.quest] := fun rest => by
  rw [List.cons_append, lex_cons (t := .quest) (r' := rest) rfl]

theorem lexes_bar : Lexes ['|'] [.bar] := fun rest => by
  rw [List.cons_append, lex_cons (t := .bar) (r' := rest) rfl]

theorem lexes_bol : Lexes ['^'] [.bol] := fun rest => by
  rw [List.cons_append, lex_cons (t := .bol) (r' := rest) rfl]

theorem lexes_eol : Lexes ['$'] [.eol] := fun rest => by
  rw [List.cons_append, lex_cons (t := .eol) (r' := rest) rfl]

theorem lexes_alt (a : Alternative) : Lexes (altPat a) (altToks a) := by
  cases a with
  | text t => exact Lexes.quoteAll _
  | optional o => exact (lexes_open.append (Lexes.quoteAll _)).append (lexes_close.append lexes_quest)

theorem Lexes.flatten {α : Type} {p : α → List Char} {t : α → List Tok} (as : List α) (h : ∀ a ∈ as, Lexes (p a) (t a)) :
    Lexes (as.map p).flatten (as.map t).flatten := by
  induction as with
  | nil => exact .nil
  | cons a as ih => exact (h a (by simp)).append (ih fun b hb => h b (by simp [hb]))

theorem lexes_branches (bs : Alternation) : Lexes (joinBars (bs.map branchPat)) (barred (bs.map branchToks)) := by
  induction bs with
  | nil => exact .nil
  | cons b bs ih =>
    have hb : Lexes (branchPat b) (branchToks b) := Lexes.flatten b (fun a _ => lexes_alt a)
    cases bs with
    | nil => exact hb
    | cons c bs => exact hb.append (lexes_bar.append ih)

theorem lexes_elem {pp : Parameter → List Char} {tp : Parameter → List Tok} (e : SingleExpression)
    (h : ∀ p, e = .parameter p → Lexes (pp p) (tp p)) : Lexes (elemPat pp e) (elemToks tp e) := by
  cases e with
  | text t => exact Lexes.quoteAll _
  | whitespaces t => exact Lexes.quoteAll _
  | optional o => exact lexes_alt (.optional o)
  | alternation a => exact (lexes_open.append (lexes_branches a)).append lexes_close
  | parameter p => exact h p rfl

theorem reads_alt (a : Alternative) : ReadsAs (altToks a) (altItems a) := by
  cases a with
  | text t => exact ReadsAs.lits _
  | optional o => exact ReadsAs.optionalGroup (ReadsAs.lits _)

theorem ReadsAs.flatten {α : Type} {t : α → List Tok} {r : α → List Re} (as : List α) (h : ∀ a ∈ as, ReadsAs (t a) (r a)) :
    ReadsAs (as.map t).flatten (as.map r).flatten := by
  induction as with
  | nil => exact .nil
  | cons a as ih => exact (h a (by simp)).append (ih fun b hb => h b (by simp [hb]))

/-- Every alternation of the expression has a branch. -/
def NonemptyAlts (e : Expression) : Prop := .alternation [] ∉ e

theorem reads_elem {tp : Parameter → List Tok} {rp : Parameter → Re} (e : SingleExpression) (hne : e ≠ .alternation [])
    (h : ∀ p, e = .parameter p → ReadsAs (tp p) [rp p]) : ReadsAs (elemToks tp e) (elemItems rp e) := by
  cases e with
  | text t => exact ReadsAs.lits _
  | whitespaces t => exact ReadsAs.lits _
  | optional o => exact reads_alt (.optional o)
  | alternation a =>
    have := ReadsAs.group (bs := a.map fun b => (branchToks b, branchItems b)) (by simpa using hne) (by
      intro b hb
      obtain ⟨c, -, rfl⟩ := List.mem_map.1 hb
      exact ReadsAs.flatten c (fun a _ => reads_alt a))
    simpa [elemToks, elemItems, List.map_map, Function.comp_def] using this
  | parameter p => exact h p rfl

/-- The syntax tree of the whole pattern. -/
def exprRe (rp : Parameter → Re) (e : Expression) : Re := catL (.bol :: (e.map (elemItems rp)).flatten ++ [.eol])

theorem parse_pattern {pp : Parameter → List Char} {tp : Parameter → List Tok} {rp : Parameter → Re} {e : Expression}
    (hne : NonemptyAlts e) (h : ∀ p ∈ params e, Lexes (pp p) (tp p) ∧ ReadsAs (tp p) [rp p]) :
    Regex.parse (['^'] ++ exprPat pp e ++ ['$']) =
      if (exprRe rp e).names.Nodup then .ok (exprRe rp e) else .error .invalid := by
  have h1 : Lexes (exprPat pp e) (e.map (elemToks tp)).flatten := Lexes.flatten e fun x hx => lexes_elem x fun p hp =>
    (h p (mem_params.2 (hp ▸ hx))).1
  have h2 : ReadsAs (e.map (elemToks tp)).flatten (e.map (elemItems rp)).flatten := ReadsAs.flatten e fun x hx =>
    reads_elem x (fun hx' => hne (hx' ▸ hx)) fun p hp => (h p (mem_params.2 (hp ▸ hx))).2
  have h3 := ((lexes_bol.append h1).append lexes_eol).lex
  obtain ⟨f, h4⟩ := h2 false
  have h5 : build [] .start ([.bol] ++ (e.map (elemToks tp)).flatten ++ [.eol]) = .ok (exprRe rp e) := by
    simp only [List.cons_append, List.nil_append, build, Frame.start, Frame.push]
    rw [h4]
    simp [build, Frame.push, Frame.finish, altL, exprRe]
  simp only [Regex.parse, h3, h5]

/-! ## Groups -/

theorem groups_lits (u : List Char) : ((u.map Re.lit).map Re.groups).flatten = [] := by
  induction u with
  | nil => rfl
  | cons c u ih => simp [Re.groups]

theorem groups_alt (a : Alternative) : ((altItems a).map Re.groups).flatten = [] := by
  cases a with
  | text t => exact groups_lits _
  | optional o => simp only [altItems, List.map_cons, List.map_nil, Re.groups, groups_catL, groups_lits]; rfl

theorem groups_branch (b : SingleAlternation) : (catL (branchItems b)).groups = [] := by
  rw [groups_catL, branchItems]
  induction b with
  | nil => rfl
  | cons a b ih => simp only [List.map_cons, List.flatten_cons, List.map_append, List.flatten_append, groups_alt, ih]; rfl

/-- The groups of an element, given those of parameters. -/
def elemGroups (gp : Parameter → List (Option (List Char))) : SingleExpression → List (Option (List Char))
  | .parameter p => gp p
  | _ => []

theorem groups_elem (rp : Parameter → Re) (e : SingleExpression) :
    ((elemItems rp e).map Re.groups).flatten = elemGroups (fun p => (rp p).groups) e := by
  cases e with
  | text t => exact groups_lits _
  | whitespaces t => exact groups_lits _
  | optional o => exact groups_alt (.optional o)
  | alternation a =>
    simp only [elemItems, List.map_cons, List.map_nil, groups_altL, elemGroups, List.map_map, Function.comp_def, groups_branch]
    simp
  | parameter p => simp [elemItems, elemGroups]

theorem groups_expr (rp : Parameter → Re) (e : Expression) :
    (exprRe rp e).groups = ((params e).map fun p => (rp p).groups).flatten := by
  have h : ∀ e : Expression, ((e.map (elemItems rp)).flatten.map Re.groups).flatten =
      ((params e).map fun p => (rp p).groups).flatten := by
    intro e
    induction e with
    | nil => rfl
    | cons x es ih =>
      simp only [List.map_cons, List.flatten_cons, List.map_append, List.flatten_append, groups_elem, ih]
      cases x <;> simp [elemGroups, params]
  rw [exprRe, groups_catL, ← h e]
  simp [Re.groups]

/-! ## Matches -/

variable {U : Classes}

theorem match_alt (a : Alternative) (g : Nat) (pre x post : List Char) (l : List Cap) :
    (catL (altItems a)).Match U g pre x post l ↔ a.Lang x ∧ l = [] := by
  cases a with
  | text t => exact match_lits ..
  | optional o =>
    simp only [altItems, catL, Re.Match, repeats_quest, match_lits, Alternative.Lang]
    constructor
    · rintro (⟨rfl, rfl⟩ | ⟨rfl, rfl⟩) <;> simp
    · rintro ⟨h | h, rfl⟩ <;> simp [h]

theorem match_branch (b : SingleAlternation) (g : Nat) (pre x post : List Char) (l : List Cap) :
    (catL (branchItems b)).Match U g pre x post l ↔ BranchLang b x ∧ l = [] := by
  induction b generalizing g pre x l with
  | nil => rfl
  | cons a b ih =>
    rw [show branchItems (a :: b) = altItems a ++ branchItems b from rfl, match_catL_append]
    constructor
    · rintro ⟨y, z, k, m, rfl, rfl, h1, h2⟩
      obtain ⟨p1, rfl⟩ := (match_alt ..).1 h1
      obtain ⟨p2, rfl⟩ := (ih ..).1 h2
      exact ⟨⟨y, z, rfl, p1, p2⟩, rfl⟩
    · rintro ⟨⟨y, z, rfl, h1, h2⟩, rfl⟩
      exact ⟨y, z, [], [], rfl, rfl, (match_alt ..).2 ⟨h1, rfl⟩, (ih ..).2 ⟨h2, rfl⟩⟩

/-- Whitespace elements are free of backslashes. -/
def PlainWs (e : Expression) : Prop := ∀ t, .whitespaces t ∈ e → unescape t.frag = t.frag

theorem match_elem {rp : Parameter → Re} {R : Parameter → Nat → Matches} (e : SingleExpression)
    (hne : e ≠ .alternation []) (hws : ∀ t, e = .whitespaces t → unescape t.frag = t.frag)
    (h : ∀ p, e = .parameter p → ∀ g pre x post l, (rp p).Match U g pre x post l ↔ R p g pre x post l)
    (g : Nat) (pre x post : List Char) (l : List Cap) :
    (catL (elemItems rp e)).Match U g pre x post l ↔ e.PieceWith R g pre x post l := by
  cases e with
  | text t => exact match_lits ..
  | whitespaces t => simp only [elemItems, match_lits, SingleExpression.PieceWith, hws t rfl]
  | optional o => exact match_alt (.optional o) ..
  | alternation a =>
    simp only [elemItems, catL]
    rw [match_altL _ (by simpa using hne) (by simpa using fun b _ => groups_branch b)]
    constructor
    · rintro ⟨r, hr, h1⟩
      obtain ⟨b, hb, rfl⟩ := List.mem_map.1 hr
      obtain ⟨p1, rfl⟩ := (match_branch ..).1 h1
      exact ⟨⟨b, hb, p1⟩, rfl⟩
    · rintro ⟨⟨b, hb, h1⟩, rfl⟩
      exact ⟨_, List.mem_map.2 ⟨b, hb, rfl⟩, (match_branch ..).2 ⟨h1, rfl⟩⟩
  | parameter p => exact h p rfl ..

theorem match_elems {rp : Parameter → Re} {R : Parameter → Nat → Matches} {n : Parameter → Nat} (e : Expression)
    (hne : NonemptyAlts e) (hws : PlainWs e)
    (h : ∀ p ∈ params e, (rp p).groups.length = n p ∧ ∀ g pre x post l, (rp p).Match U g pre x post l ↔ R p g pre x post l)
    (g : Nat) (pre x post : List Char) (l : List Cap) :
    (catL (e.map (elemItems rp)).flatten).Match U g pre x post l ↔ SplitsWith R n e g pre x post l := by
  induction e generalizing g pre x l with
  | nil =>
    constructor
    · rintro ⟨rfl, rfl⟩; exact .nil ..
    · intro h; cases h; exact ⟨rfl, rfl⟩
  | cons e es ih =>
    have ih := ih (fun h => hne (by simp [h])) (fun t ht => hws t (by simp [ht]))
      (fun p hp => h p (mem_params.2 (List.mem_cons_of_mem _ (mem_params.1 hp))))
    have he := match_elem (U := U) (rp := rp) (R := R) e (fun hx => hne (by simp [hx])) (fun t ht => hws t (by simp [ht]))
      (fun p hp => (h p (mem_params.2 (by simp [hp]))).2)
    have hg : (catL (elemItems rp e)).groups.length = e.groupCountWith n := by
      rw [groups_catL, groups_elem]
      cases e with
      | parameter p => exact (h p (by simp [params])).1
      | _ => rfl
    rw [List.map_cons, List.flatten_cons, match_catL_append]
    constructor
    · rintro ⟨y, z, k, m, rfl, rfl, h1, h2⟩
      exact .cons _ _ _ _ _ _ _ _ _ ((he ..).1 h1) ((ih ..).1 (hg ▸ h2))
    · intro hs
      cases hs with
      | cons _ _ _ _ x y _ k l h1 h2 =>
        exact ⟨x, y, k, l, rfl, rfl, (he ..).2 h1, hg ▸ (ih ..).2 h2⟩

theorem finds_expr {rp : Parameter → Re} {R : Parameter → Nat → Matches} {n : Parameter → Nat} (e : Expression)
    (hne : NonemptyAlts e) (hws : PlainWs e)
    (h : ∀ p ∈ params e, (rp p).groups.length = n p ∧ ∀ g pre x post l, (rp p).Match U g pre x post l ↔ R p g pre x post l)
    (w pre x post : List Char) (l : List Cap) :
    (exprRe rp e).Finds U w pre x post l ↔ pre = [] ∧ post = [] ∧ x = w ∧ SplitsWith R n e 1 [] w [] l := by
  unfold Re.Finds exprRe
  rw [List.cons_append, match_catL_cons]
  simp only [match_catL_append, match_elems e hne hws h, Re.Match, catL]
  constructor
  · rintro ⟨rfl, y, z, k, m, rfl, rfl, ⟨rfl, rfl, rfl⟩, y', z', k', m', rfl, rfl, h1, rfl, rfl, rfl⟩
    exact ⟨rfl, rfl, by simp, by simpa [Re.groups] using h1⟩
  · rintro ⟨rfl, rfl, rfl, h1⟩
    exact ⟨by simp, [], x, [], l, by simp, by simp, ⟨rfl, rfl, rfl⟩, x, [], l, [], by simp, by simp,
      by simpa [Re.groups] using h1, rfl, rfl, rfl⟩

end CE
