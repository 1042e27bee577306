import Verif.Model.Nest
import Verif.Proof.ExprAst
import Verif.Prop.HirSearch
import Verif.Prop.Translate

/-!
# The nesting limit: C54
-/

namespace CE.Regex

theorem nests_le {as : List Ast} {k : Nat} : Ast.nests as ≤ k ↔ ∀ a ∈ as, a.nest ≤ k := by
  induction as with
  | nil => simp [Ast.nests]
  | cons a as ih => simp only [Ast.nests, Nat.max_le, ih, List.mem_cons, forall_eq_or_imp]

theorem nest_catA {as : List Ast} {k : Nat} (h : ∀ a ∈ as, a.nest ≤ k) : (catA as).nest ≤ k + 1 := by
  match as with
  | [] => simp [catA, Ast.nest]
  | [a] => have := h a (by simp); simp only [catA]; omega
  | a :: b :: as => have := nests_le.2 h; simp only [catA, Ast.nest]; omega

theorem nest_altA {as : List Ast} {k : Nat} (h : ∀ a ∈ as, a.nest ≤ k) : (altA as).nest ≤ k + 1 := by
  match as with
  | [] => simp [altA, Ast.nest]
  | [a] => have := h a (by simp); simp only [altA]; omega
  | a :: b :: as => have := nests_le.2 h; simp only [altA, Ast.nest]; omega

/-! ## The stack machine inside a group -/

theorem buildA_inside {ts : List Tok} {st : List (Kind × AFrame)} {f : AFrame} {r : Ast} (h : buildA st f ts = .ok r)
    (k : Kind) (g : AFrame) (base : List (Kind × AFrame)) (rest : List Tok) :
    buildA (st ++ (k, g) :: base) f (ts ++ .close :: rest) = buildA base (g.push (k.wrapA r)) rest := by
  induction ts generalizing st f with
  | nil =>
    cases st with
    | nil => cases h; rfl
    | cons x st => cases h
  | cons t ts ih =>
    cases t with
    | lit c => exact ih h
    | dot => exact ih h
    | cls k => exact ih h
    | bol => exact ih h
    | eol => exact ih h
    | mark n => exact ih h
    | capture n => exact ih (st := (.capture n, f) :: st) h
    | group => exact ih (st := (.group, f) :: st) h
    | close =>
      cases st with
      | nil => cases h
      | cons x st => exact ih h
    | bar => exact ih h
    | quest =>
      simp only [buildA, List.cons_append] at h ⊢
      cases hq : f.quest with
      | error e => rw [hq] at h; cases h
      | ok f' => rw [hq] at h; exact ih h
    | star =>
      simp only [buildA, List.cons_append] at h ⊢
      cases hq : f.repeated 0 none with
      | error e => rw [hq] at h; cases h
      | ok f' => rw [hq] at h; exact ih h
    | plus =>
      simp only [buildA, List.cons_append] at h ⊢
      cases hq : f.repeated 1 none with
      | error e => rw [hq] at h; cases h
      | ok f' => rw [hq] at h; exact ih h
    | count m n =>
      simp only [buildA, List.cons_append] at h ⊢
      cases hq : f.repeated m n with
      | error e => rw [hq] at h; cases h
      | ok f' => rw [hq] at h; exact ih h

theorem AReadsAs.captured {ts : List Tok} {r : Ast} (h : buildA [] .start ts = .ok r) :
    AReadsAs (.capture none :: ts ++ [.close]) [.cap none r] := by
  intro fr
  refine ⟨false, fun st br it rest => ?_⟩
  have := buildA_inside h (.capture none) ⟨br, it, fr⟩ st rest
  simp only [List.nil_append] at this
  simp only [List.cons_append, List.append_assoc, buildA, List.nil_append, this]
  rfl

theorem astParse_ok {v : List Char} {a : Ast} (h : Ast.parse v = .ok a) :
    ∃ ts, lex v = .ok ts ∧ buildA [] .start ts = .ok a := by
  unfold Ast.parse at h
  split at h
  · cases h
  · rename_i ts hl
    split at h
    · cases h
    · rename_i r hb
      split at h
      · cases h; exact ⟨ts, hl, hb⟩
      · cases h

theorem parse_build {v : List Char} {r : Re} (h : Regex.parse v = .ok r) : ∃ ts, lex v = .ok ts ∧ build [] .start ts = .ok r := by
  unfold Regex.parse at h
  split at h
  · cases h
  · rename_i ts hl
    split at h
    · cases h
    · rename_i r hb
      split at h
      · cases h; exact ⟨ts, hl, hb⟩
      · cases h

end CE.Regex

namespace CE
open Spec Regex

/-! ## Trees of expressions -/

theorem nest_builtin (b : Builtin) (id : Nat) : (builtinAst b id).nest ≤ 11 := by
  cases b <;>
    simp [builtinAst, intAst, floatAst, wordAst, stringAst, anonAst, quotedAst, notQuoteAst, mantissaAst, exponentAst, astDigits,
      astDigits0, astSign, digitCls, Ast.nest, Ast.nests, Cls.nest, CItem.nest, CItem.all]

theorem nest_alt (a : Alternative) : ∀ t ∈ altAsts a, t.nest ≤ 3 := by
  cases a with
  | text t => simp [altAsts, Ast.nest]
  | optional o =>
    have := nest_catA (as := (unescape o.input.frag).map .lit) (k := 0) (by simp [Ast.nest])
    simp only [altAsts, List.mem_singleton, forall_eq, Ast.nest]
    omega

theorem nest_elem {ap : Parameter → Ast} {k : Nat} (e : SingleExpression) (hk : 6 ≤ k) (h : ∀ p, e = .parameter p → (ap p).nest ≤ k) :
    ∀ t ∈ elemAsts ap e, t.nest ≤ k := by
  cases e with
  | text t => simp [elemAsts, Ast.nest]
  | whitespaces t => simp [elemAsts, Ast.nest]
  | optional o => intro t ht; have := nest_alt (.optional o) t ht; omega
  | parameter p => simpa [elemAsts] using h p rfl
  | alternation a =>
    have := nest_altA (as := a.map fun b => catA (branchAsts b)) (k := 4) (by
      intro t ht
      obtain ⟨b, -, rfl⟩ := List.mem_map.1 ht
      refine nest_catA fun t ht => ?_
      obtain ⟨l, hl, ht⟩ := List.mem_flatten.1 ht
      obtain ⟨q, -, rfl⟩ := List.mem_map.1 hl
      exact nest_alt q t ht)
    simp only [elemAsts, List.mem_singleton, forall_eq, Ast.nest]
    omega

theorem nest_expr {ap : Parameter → Ast} {k : Nat} (e : Expression) (hk : 6 ≤ k) (h : ∀ p ∈ params e, (ap p).nest ≤ k) :
    (exprAst ap e).nest ≤ k + 1 := by
  simp only [exprAst, Ast.nest, Nat.add_le_add_iff_right, nests_le, List.mem_cons, List.mem_append, List.not_mem_nil,
    or_false]
  rintro a (rfl | ha | rfl)
  · simp [Ast.nest]
  · obtain ⟨l, hl, ha⟩ := List.mem_flatten.1 ha
    obtain ⟨x, hx, rfl⟩ := List.mem_map.1 hl
    exact nest_elem x hk (fun p hp => h p (mem_params.2 (hp ▸ hx))) a ha
  · simp [Ast.nest]

/-! ## C54 -/

/-- C54: the pattern of an expression with built-in parameters is at most 12 deep, however long the expression is. -/
theorem C54_builtin (src : List Char) (e : Expression) (h : Expression.parse src = .ok e) (hb : AllBuiltin e) :
    ∃ c t, Expression.regex src = .ok c ∧ Ast.parse c.pattern = .ok t ∧ t.nest ≤ 12 := by
  have hb' := (allBuiltin_iff e).1 hb
  refine ⟨_, _, regex_builtin h hb, ast_pattern (tp := bToks) (ap := bAst) (parse_nonemptyAlts h) (fun p hp => ?_)
    (parse_builtin (parse_nonemptyAlts h) (ids_nodup h) hb'), nest_expr e (by omega) fun p hp => ?_⟩
  · obtain ⟨b, h⟩ := hb' p hp
    rw [bAst_named h]
    simp only [bPat, bToks, builtinNamed_some.2 h]
    exact ⟨lexes_builtin b p.id, areads_builtin b p.id⟩
  · obtain ⟨b, h⟩ := hb' p hp
    rw [bAst_named h]
    exact nest_builtin b p.id

/-- C54: the nesting limit is never reached. -/
theorem C54_within_limit (src : List Char) (e : Expression) (h : Expression.parse src = .ok e) (hb : AllBuiltin e) :
    ∃ c, Expression.regex src = .ok c ∧ withinNestLimit c.pattern = true := by
  obtain ⟨c, t, hc, ht, hn⟩ := C54_builtin src e h hb
  refine ⟨c, hc, ?_⟩
  simp only [withinNestLimit, ht]
  exact decide_eq_true (by unfold nestLimit; omega)

/-- Non-vacuity: depth 12 is reached. -/
example : ∃ e c t, Expression.parse (chars! "{float}") = .ok e ∧ AllBuiltin e ∧ Expression.regex (chars! "{float}") = .ok c ∧
    Ast.parse c.pattern = .ok t ∧ t.nest = 12 := by
  refine ⟨_, _, _, rfl, ?_, rfl, rfl, rfl⟩
  intro p hp
  simp at hp
  exact ⟨.float, by rw [hp]; rfl⟩

variable (parseHir : List Char → Option Hir) (pars : Provider)

/-- The parameter is built in or has a valid regex, at most `k` deep, without capture groups outside repetitions. -/
def ShallowParam (k : Nat) (p : Parameter) : Prop :=
  match pars p.input with
  | none => ∃ b : Builtin, p.input.frag = b.name
  | some v => ∃ a, Ast.parse v = .ok a ∧ a.nest ≤ k ∧ ('(' ∉ v ∨ ∃ hir, parseHir v = some hir ∧ hir.outerGroup = false)

variable {parseHir pars} in
theorem ShallowParam.mono {k m : Nat} {p : Parameter} (h : ShallowParam parseHir pars k p) (hk : k ≤ m) :
    ShallowParam parseHir pars m p := by
  revert h
  unfold ShallowParam
  cases pars p.input with
  | none => exact id
  | some v => exact fun ⟨a, ha, hn, hg⟩ => ⟨a, ha, Nat.le_trans hn hk, hg⟩

theorem shallow_expansion {k : Nat} (p : Parameter) (h : ShallowParam parseHir pars k p) :
    ∃ cs ts ra, customRes parseHir pars p = .ok cs ∧ Lexes cs ts ∧ AReadsAs ts [ra] ∧ ra.nest ≤ max 11 (k + 1) ∧
      ∀ v a, pars p.input = some v → Ast.parse v = .ok a → ra.nest = a.nest + 1 := by
  unfold ShallowParam at h
  unfold customRes
  cases hv : pars p.input with
  | none =>
    rw [hv] at h
    obtain ⟨b, hb⟩ := h
    exact ⟨builtinPat b p.id, builtinToks b p.id, builtinAst b p.id, by simp [builtinRes, builtinNamed_some.2 hb],
      lexes_builtin b p.id, areads_builtin b p.id, Nat.le_trans (nest_builtin b p.id) (Nat.le_max_left ..), fun v a h => by cases h⟩
  | some v =>
    rw [hv] at h
    obtain ⟨a, ha, hn, hg⟩ := h
    obtain ⟨ts, hl, hb⟩ := astParse_ok ha
    obtain ⟨ts', hl', hb'⟩ := parse_build (parse_re ha)
    rw [hl] at hl'
    cases hl'
    refine ⟨'(' :: v ++ [')'], .capture none :: ts ++ [.close], .cap none a, ?_, lexes_captured hl hb', AReadsAs.captured hb, ?_, ?_⟩
    · simp only [valueRes]
      by_cases hp : '(' ∈ v
      · obtain ⟨hir, h1, h2⟩ := hg.resolve_left (fun h => h hp)
        rw [if_pos hp, h1]; simp [h2]
      · rw [if_neg hp]
    · simp only [Ast.nest]; omega
    · intro v' a' hv' ha'
      cases hv'
      rw [ha] at ha'
      cases ha'
      rfl

theorem nest_expr_ge {ap : Parameter → Ast} (e : Expression) (p : Parameter) (h : p ∈ params e) :
    (ap p).nest + 1 ≤ (exprAst ap e).nest := by
  simp only [exprAst, Ast.nest, Nat.add_le_add_iff_right]
  refine nests_le.1 (Nat.le_refl _) _ ?_
  simp only [List.mem_cons, List.mem_append, List.not_mem_nil, or_false]
  exact .inr (.inl (List.mem_flatten.2 ⟨_, List.mem_map.2 ⟨_, mem_params.1 h, rfl⟩, by simp [elemAsts]⟩))

/-- C54: custom regexes without capture groups become nested by two more, neither less nor more. -/
theorem C54_custom (k : Nat) (src : List Char) (e : Expression) (h : Expression.parse src = .ok e) (c : Compiled)
    (hc : Expression.regexWithParameters parseHir pars src = .ok c) (hs : ∀ p ∈ params e, ShallowParam parseHir pars k p) :
    ∃ t, Ast.parse c.pattern = .ok t ∧ t.nest ≤ max 12 (k + 2) ∧
      ∀ p ∈ params e, ∀ v a, pars p.input = some v → Ast.parse v = .ok a → a.nest + 2 ≤ t.nest := by
  have hch : ∀ p, ∃ t : List Char × List Tok × Ast, p ∈ params e → customRes parseHir pars p = .ok t.1 ∧ Lexes t.1 t.2.1 ∧
      AReadsAs t.2.1 [t.2.2] ∧ t.2.2.nest ≤ max 11 (k + 1) ∧
      ∀ v a, pars p.input = some v → Ast.parse v = .ok a → t.2.2.nest = a.nest + 1 := by
    intro p
    by_cases hp : p ∈ params e
    · obtain ⟨cs, ts, ra, h1, h2, h3, h4⟩ := shallow_expansion parseHir pars p (hs p hp)
      exact ⟨(cs, ts, ra), fun _ => ⟨h1, h2, h3, h4⟩⟩
    · exact ⟨([], [], .empty), fun h => absurd h hp⟩
  obtain ⟨f, hf⟩ := Classical.axiomOfChoice hch
  have hseq := seqPat_ok (pr := customRes parseHir pars) (pp := fun p => (f p).1) (e := e) (fun p hp => (hf p hp).1)
  rw [regexWith_eq parseHir pars h, hseq] at hc
  simp only [compileRes] at hc
  split at hc
  · cases hc
  · rename_i r hr
    cases hc
    refine ⟨_, ast_pattern (tp := fun p => (f p).2.1) (ap := fun p => (f p).2.2) (parse_nonemptyAlts h)
      (fun p hp => ⟨(hf p hp).2.1, (hf p hp).2.2.1⟩) hr, ?_, ?_⟩
    · have := nest_expr (ap := fun p => (f p).2.2) (k := max 11 (k + 1)) e (by omega) (fun p hp => (hf p hp).2.2.2.1)
      omega
    · intro p hp v a hv ha
      have h1 := (hf p hp).2.2.2.2 v a hv ha
      have h2 := nest_expr_ge (ap := fun p => (f p).2.2) e p hp
      omega

/-- C54: a custom regex at most 248 deep never makes an expression hit the limit. -/
theorem C54_custom_within_limit (src : List Char) (e : Expression) (h : Expression.parse src = .ok e) (c : Compiled)
    (hc : Expression.regexWithParameters parseHir pars src = .ok c) (hs : ∀ p ∈ params e, ShallowParam parseHir pars 248 p) :
    withinNestLimit c.pattern = true := by
  obtain ⟨t, ht, hn, -⟩ := C54_custom parseHir pars 248 src e h c hc hs
  simp only [withinNestLimit, ht]
  exact decide_eq_true (by unfold nestLimit; omega)

/-- C54: 248 is sharp. With custom regexes without capture groups, an expression is within the limit exactly if none of them is
deeper than 248. -/
theorem C54_custom_iff (src : List Char) (e : Expression) (h : Expression.parse src = .ok e) (c : Compiled)
    (hc : Expression.regexWithParameters parseHir pars src = .ok c) (hs : ∀ p ∈ params e, ∃ k, ShallowParam parseHir pars k p) :
    withinNestLimit c.pattern = true ↔
      ∀ p ∈ params e, ∀ v a, pars p.input = some v → Ast.parse v = .ok a → a.nest ≤ 248 := by
  constructor
  · intro hw p hp v a hv ha
    have hk : ∃ k, ∀ p ∈ params e, ShallowParam parseHir pars k p := by
      clear hp
      generalize params e = l at hs
      induction l with
      | nil => exact ⟨0, by simp⟩
      | cons q l ih =>
        obtain ⟨k, hk⟩ := hs q (by simp)
        obtain ⟨m, hm⟩ := ih fun p hp => hs p (by simp [hp])
        refine ⟨max k m, fun p hp => ?_⟩
        rcases List.mem_cons.1 hp with rfl | hp
        · exact hk.mono (Nat.le_max_left ..)
        · exact (hm p hp).mono (Nat.le_max_right ..)
    obtain ⟨k, hk⟩ := hk
    obtain ⟨t, ht, -, hl⟩ := C54_custom parseHir pars k src e h c hc hk
    have := hl p hp v a hv ha
    simp only [withinNestLimit, ht] at hw
    have hw : t.nest ≤ nestLimit := of_decide_eq_true hw
    have : nestLimit = 250 := rfl
    omega
  · intro hw
    refine C54_custom_within_limit parseHir pars src e h c hc fun p hp => ?_
    obtain ⟨k, hk⟩ := hs p hp
    revert hk
    unfold ShallowParam
    have := hw p hp
    revert this
    cases pars p.input with
    | none => exact fun _ h => h
    | some v => exact fun hw ⟨a, ha, _, hg⟩ => ⟨a, ha, hw v a rfl ha, hg⟩

theorem lexes_grouped {v : List Char} {ts : List Tok} {r : Re} (hl : lex v = .ok ts) (hb : build [] .start ts = .ok r) :
    Lexes (chars! "(?:" ++ v ++ [')']) (.group :: ts ++ [.close]) :=
  lexes_enclosed (o := ['?', ':']) hl hb fun _ => rfl

theorem buildA_grouped {ts : List Tok} {r : Ast} (h : buildA [] .start ts = .ok r) (st : List (Kind × AFrame)) (f : AFrame)
    (rest : List Tok) : buildA st f ((.group :: ts ++ [.close]) ++ rest) = buildA st (f.push (.group r)) rest := by
  have := buildA_inside h .group f st rest
  simp only [List.nil_append] at this
  simp only [List.cons_append, List.append_assoc, buildA, List.nil_append, this]
  rfl

theorem tree_unique {v : List Char} {ts : List Tok} {a b : Ast} (h : Ast.parse v = .ok b) (hl : Lexes v ts)
    (hb : buildA [] .start ts = .ok a) : b = a := by
  obtain ⟨us, h1, h2⟩ := astParse_ok h
  rw [hl.lex] at h1
  cases h1
  rw [hb] at h2
  cases h2
  rfl

/-- C54: how deep a regex is. Groups, repetitions, concatenations and alternations count for one level each. -/
theorem C54_levels (v w : List Char) (a b : Ast) (ha : Ast.parse v = .ok a) (hb : Ast.parse w = .ok b) :
    (∀ t, Ast.parse (['('] ++ v ++ [')']) = .ok t → t.nest = a.nest + 1) ∧
    (∀ t, Ast.parse (chars! "(?:" ++ v ++ [')']) = .ok t → t.nest = a.nest + 1) ∧
    (∀ c ∈ chars! "*+?", ∀ t, Ast.parse (chars! "(?:" ++ v ++ [')'] ++ [c]) = .ok t → t.nest = a.nest + 2) ∧
    (∀ t, Ast.parse (chars! "(?:" ++ v ++ [')'] ++ (chars! "(?:" ++ w ++ [')'])) = .ok t → t.nest = max a.nest b.nest + 2) ∧
    (∀ t, Ast.parse (chars! "(?:" ++ v ++ [')'] ++ ['|'] ++ (chars! "(?:" ++ w ++ [')'])) = .ok t →
      t.nest = max a.nest b.nest + 2) := by
  obtain ⟨ts, hl, hbt⟩ := astParse_ok ha
  obtain ⟨ts', hl', hbt'⟩ := parse_build (parse_re ha)
  rw [hl] at hl'
  cases hl'
  obtain ⟨us, hm, hbu⟩ := astParse_ok hb
  obtain ⟨us', hm', hbu'⟩ := parse_build (parse_re hb)
  rw [hm] at hm'
  cases hm'
  have l1 := lexes_grouped hl hbt'
  have l2 := lexes_grouped hm hbu'
  refine ⟨fun t ht => ?_, fun t ht => ?_, fun c hc t ht => ?_, fun t ht => ?_, fun t ht => ?_⟩
  · obtain ⟨f, r⟩ := AReadsAs.captured hbt false
    have r := r [] [] [] []
    rw [List.append_nil] at r
    rw [tree_unique ht (lexes_captured hl hbt') r]
    simp [AFrame.finish, altA, catA, Ast.nest]
  · have r := buildA_grouped hbt [] .start []
    rw [List.append_nil] at r
    rw [tree_unique ht l1 r]
    simp [AFrame.finish, AFrame.push, AFrame.start, altA, catA, Ast.nest]
  · have key : ∀ (x : Tok), Lexes [c] [x] → (∀ f : AFrame, ∃ n m, buildA [] (f.push (.group a)) [x] =
        .ok (⟨f.branches, .rep (.group a) n m true :: f.items, true⟩ : AFrame).finish) → t.nest = a.nest + 2 := by
      intro x hx hr
      obtain ⟨n, m, hr⟩ := hr .start
      rw [tree_unique ht (l1.append hx) (by rw [buildA_grouped hbt, hr])]
      simp [AFrame.finish, AFrame.start, altA, catA, Ast.nest]
    simp only [List.mem_cons, List.not_mem_nil, or_false] at hc
    rcases hc with rfl | rfl | rfl
    · exact key .star lexes_star fun f => ⟨0, none, rfl⟩
    · exact key .plus lexes_plus fun f => ⟨1, none, rfl⟩
    · exact key .quest lexes_quest fun f => ⟨0, some 1, rfl⟩
  · have r := buildA_grouped hbu [] (AFrame.start.push (.group a)) []
    rw [List.append_nil] at r
    rw [tree_unique ht (l1.append l2) (by rw [buildA_grouped hbt, r]; rfl)]
    simp [AFrame.finish, AFrame.push, AFrame.start, altA, catA, Ast.nest, Ast.nests]
  · have r := buildA_grouped hbu [] ⟨[.group a], [], false⟩ []
    rw [List.append_nil] at r
    rw [tree_unique ht ((l1.append lexes_bar).append l2) (by
      rw [List.append_assoc, buildA_grouped hbt, List.singleton_append]; exact r)]
    simp [AFrame.finish, AFrame.push, altA, catA, Ast.nest, Ast.nests]

/-- Non-vacuity: `(?:a|b)` and `c+`, which are 2 and 1 deep. -/
example : ∃ a b t, Ast.parse (chars! "(?:a|b)") = .ok a ∧ a.nest = 2 ∧ Ast.parse (chars! "c+") = .ok b ∧ b.nest = 1 ∧
    Ast.parse (chars! "(?:(?:a|b))(?:c+)") = .ok t ∧ t.nest = 4 := ⟨_, _, _, rfl, rfl, rfl, rfl, rfl, rfl⟩

/-- `n` brackets around a class. -/
def inBrackets (n : Nat) (body : List Char) : List Char := List.replicate n '[' ++ body ++ List.replicate n ']'

set_option maxRecDepth 1000000 in
/-- Examples at the limit; `Prop/Levels` has the general statement. -/
example :
    (withinNestLimit (inBrackets 250 (chars! "a")) = true ∧ withinNestLimit (inBrackets 251 (chars! "a")) = false) ∧
    (withinNestLimit (inBrackets 249 (chars! "abc")) = true ∧ withinNestLimit (inBrackets 250 (chars! "abc")) = false) ∧
    (withinNestLimit (inBrackets 249 (chars! "a&&b")) = true ∧ withinNestLimit (inBrackets 250 (chars! "a&&b")) = false) ∧
    (withinNestLimit (inBrackets 248 (chars! "a--bc")) = true ∧ withinNestLimit (inBrackets 249 (chars! "a--bc")) = false) ∧
    (withinNestLimit (inBrackets 248 (chars! "ac~~b")) = true ∧ withinNestLimit (inBrackets 249 (chars! "ac~~b")) = false) ∧
    (withinNestLimit (chars! "(?i)" ++ inBrackets 249 (chars! "a")) = true ∧
      withinNestLimit (chars! "(?i)" ++ inBrackets 251 (chars! "a")) = false) := by
  decide +kernel

set_option maxRecDepth 1000000 in
/-- Non-vacuity: a regex that is itself within the limit, in an expression that is not. -/
example : withinNestLimit (inBrackets 249 ['a']) = true ∧
    ∃ c, Expression.regexWithParameters (fun _ => none) (hashMapProvider [(chars! "x", inBrackets 249 ['a'])]) (chars! "{x}") = .ok c ∧
      withinNestLimit c.pattern = false := by
  refine ⟨by decide +kernel, ?_⟩
  have hc : ∃ c, Expression.regexWithParameters (fun _ => none) (hashMapProvider [(['x'], inBrackets 249 ['a'])]) ['{', 'x', '}'] =
      .ok c := by
    rw [regexWith_eq (e := [.parameter ⟨⟨1, 1, ['x']⟩, 0⟩]) _ _ rfl]
    have : (match compileRes (seqPat (customRes (fun _ => none) (hashMapProvider [(['x'], inBrackets 249 ['a'])]))
        [.parameter ⟨⟨1, 1, ['x']⟩, 0⟩]) with
      | .ok _ => true
      | _ => false) = true := by decide +kernel
    revert this
    cases compileRes (seqPat (customRes (fun _ => none) (hashMapProvider [(['x'], inBrackets 249 ['a'])]))
        [.parameter ⟨⟨1, 1, ['x']⟩, 0⟩]) with
    | ok c => exact fun _ => ⟨c, rfl⟩
    | _ => intro h; cases h
  obtain ⟨c, hc⟩ := hc
  refine ⟨c, hc, ?_⟩
  have key : ∃ a, Ast.parse (inBrackets 249 ['a']) = .ok a ∧ a.nest = 249 := by
    have : (match Ast.parse (inBrackets 249 ['a']) with
      | .ok a => a.nest
      | .error _ => 0) = 249 := by decide +kernel
    revert this
    cases Ast.parse (inBrackets 249 ['a']) with
    | ok a => exact fun h => ⟨a, rfl, h⟩
    | error e => intro h; cases h
  obtain ⟨a, ha, hn⟩ := key
  have hg : '(' ∉ inBrackets 249 ['a'] := by
    simp [inBrackets]
  have := (C54_custom_iff (fun _ => none) (hashMapProvider [(chars! "x", inBrackets 249 ['a'])]) (chars! "{x}")
    [.parameter ⟨⟨1, 1, ['x']⟩, 0⟩] rfl c hc (by
      intro p hp
      simp [params] at hp
      subst hp
      exact ⟨249, a, ha, by omega, .inl hg⟩)).1
  cases hw : withinNestLimit c.pattern with
  | false => rfl
  | true => exact absurd (this hw ⟨⟨1, 1, ['x']⟩, 0⟩ (by simp [params]) _ a rfl ha) (by omega)

/-- Non-vacuity: a custom and a built-in parameter. -/
example : ∃ e c, Expression.parse (chars! "{x} {int}") = .ok e ∧
    Expression.regexWithParameters (fun _ => none) (hashMapProvider [(chars! "x", chars! "[a-c]+|d")]) (chars! "{x} {int}") = .ok c ∧
    ∀ p ∈ params e, ShallowParam (fun _ => none) (hashMapProvider [(chars! "x", chars! "[a-c]+|d")]) 248 p := by
  refine ⟨_, _, rfl, rfl, ?_⟩
  intro p hp
  simp [params] at hp
  rcases hp with rfl | rfl
  · exact ⟨_, rfl, by decide, .inl (by decide)⟩
  · exact ⟨.int, by decide⟩

end CE
