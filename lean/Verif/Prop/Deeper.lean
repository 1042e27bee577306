import Verif.Spec.Enclosed
import Verif.Prop.Nest
import Verif.Prop.CustomSearch

/-!
# The nesting limit, for custom regexes with capture groups: C54
-/

namespace CE
open Spec Regex Hir

variable (parseHir : List Char → Option Hir) (pars : Provider)

variable {parseHir pars} in
theorem _root_.CE.Spec.LevelParam.mono {k m : Nat} {p : Parameter} (h : LevelParam parseHir pars k p) (hk : k ≤ m) :
    LevelParam parseHir pars m p := by
  revert h
  unfold LevelParam
  cases pars p.input with
  | none => exact id
  | some v => exact fun ⟨w, a, hw, ha, hn⟩ => ⟨w, a, hw, ha, Nat.le_trans hn hk⟩

theorem level_expansion {k : Nat} (p : Parameter) (h : LevelParam parseHir pars k p) :
    ∃ cs ts ra, customRes parseHir pars p = .ok cs ∧ Lexes cs ts ∧ AReadsAs ts [ra] ∧ ra.nest ≤ max 11 (k + 1) ∧
      ∀ v w a, pars p.input = some v → enclosedText parseHir p.id v = some w → Ast.parse w = .ok a → ra.nest = a.nest + 1 := by
  unfold LevelParam at h
  unfold customRes
  cases hv : pars p.input with
  | none =>
    rw [hv] at h
    obtain ⟨b, hb⟩ := h
    exact ⟨builtinPat b p.id, builtinToks b p.id, builtinAst b p.id, by simp [builtinRes, builtinNamed_some.2 hb],
      lexes_builtin b p.id, areads_builtin b p.id, Nat.le_trans (nest_builtin b p.id) (Nat.le_max_left ..), fun v w a h => by cases h⟩
  | some v =>
    rw [hv] at h
    obtain ⟨w, a, hw, ha, hn⟩ := h
    obtain ⟨ts, hl, hb⟩ := astParse_ok ha
    obtain ⟨ts', hl', hb'⟩ := parse_build (parse_re ha)
    rw [hl] at hl'
    cases hl'
    have plain : w = v → valueRes parseHir p v = .ok ('(' :: v ++ [')']) →
        ∃ cs ts ra, valueRes parseHir p v = .ok cs ∧ Lexes cs ts ∧ AReadsAs ts [ra] ∧ ra.nest ≤ max 11 (k + 1) ∧
          ∀ v' w' a', some v = some v' → enclosedText parseHir p.id v' = some w' → Ast.parse w' = .ok a' → ra.nest = a'.nest + 1 := by
      rintro rfl hval
      refine ⟨_, .capture none :: ts ++ [.close], .cap none a, hval, lexes_captured hl hb', AReadsAs.captured hb, ?_, ?_⟩
      · simp only [Ast.nest]; omega
      · intro v' w' a' hv' hw' ha'
        cases hv'
        rw [hw] at hw'
        cases hw'
        rw [ha] at ha'
        cases ha'
        rfl
    have hw0 := hw
    simp only [enclosedText] at hw
    split at hw
    · rename_i hp
      cases hh : parseHir v with
      | none => rw [hh] at hw; cases hw
      | some hir =>
        rw [hh] at hw
        cases ho : hir.hasCaptureGroups with
        | false =>
          simp only [ho] at hw
          cases hw
          refine plain rfl ?_
          rw [hasCaptureGroups_eq] at ho
          simp [valueRes, hp, hh, ho]
        | true =>
          simp only [ho, if_true] at hw
          cases hw
          rw [hasCaptureGroups_eq] at ho
          refine ⟨_, .group :: ts ++ [.close], .group a, by simp only [valueRes, if_pos hp, hh, ho, if_true], lexes_grouped hl hb', ?_, ?_, ?_⟩
          · intro fr
            exact ⟨false, fun st br it rest => buildA_grouped hb st ⟨br, it, fr⟩ rest⟩
          · simp only [Ast.nest]; omega
          · intro v' w' a' hv' hw' ha'
            cases hv'
            rw [hw0] at hw'
            cases hw'
            rw [ha] at ha'
            cases ha'
            rfl
    · rename_i hp
      cases hw
      exact plain rfl (by simp only [valueRes, if_neg hp])

/-- C54: what is put in parentheses for custom regexes, with or without capture groups, becomes nested by two more, neither less nor
more. -/
theorem C54_printed (k : Nat) (src : List Char) (e : Expression) (h : Expression.parse src = .ok e) (c : Compiled)
    (hc : Expression.regexWithParameters parseHir pars src = .ok c) (hs : ∀ p ∈ params e, LevelParam parseHir pars k p) :
    ∃ t, Ast.parse c.pattern = .ok t ∧ t.nest ≤ max 12 (k + 2) ∧
      ∀ p ∈ params e, ∀ v w a, pars p.input = some v → enclosedText parseHir p.id v = some w → Ast.parse w = .ok a → a.nest + 2 ≤ t.nest := by
  have hch : ∀ p, ∃ t : List Char × List Tok × Ast, p ∈ params e → customRes parseHir pars p = .ok t.1 ∧ Lexes t.1 t.2.1 ∧
      AReadsAs t.2.1 [t.2.2] ∧ t.2.2.nest ≤ max 11 (k + 1) ∧
      ∀ v w a, pars p.input = some v → enclosedText parseHir p.id v = some w → Ast.parse w = .ok a → t.2.2.nest = a.nest + 1 := by
    intro p
    by_cases hp : p ∈ params e
    · obtain ⟨cs, ts, ra, h1, h2, h3, h4⟩ := level_expansion parseHir pars p (hs p hp)
      exact ⟨(cs, ts, ra), fun _ => ⟨h1, h2, h3, h4⟩⟩
    · exact ⟨([], [], .empty), fun h => absurd h hp⟩
  obtain ⟨f, hf⟩ := Classical.axiomOfChoice hch
  have hseq := seqPat_ok (pr := customRes parseHir pars) (pp := fun p => (f p).1) (e := e) (fun p hp => (hf p hp).1)
  rw [regexWith_eq parseHir pars h, hseq] at hc
  simp only [compileRes] at hc
  split at hc
  · cases hc
  · rename_i r hr
    cases hc
    refine ⟨_, ast_pattern (tp := fun p => (f p).2.1) (ap := fun p => (f p).2.2) (parse_nonemptyAlts h)
      (fun p hp => ⟨(hf p hp).2.1, (hf p hp).2.2.1⟩) hr, ?_, ?_⟩
    · have := nest_expr (ap := fun p => (f p).2.2) (k := max 11 (k + 1)) e (by omega) (fun p hp => (hf p hp).2.2.2.1)
      omega
    · intro p hp v w a hv hw ha
      have h1 := (hf p hp).2.2.2.2 v w a hv hw ha
      have h2 := nest_expr_ge (ap := fun p => (f p).2.2) e p hp
      omega

/-- C54: an expression is within the limit exactly if nothing that is put in parentheses for a custom regex is deeper than 248. -/
theorem C54_printed_iff (src : List Char) (e : Expression) (h : Expression.parse src = .ok e) (c : Compiled)
    (hc : Expression.regexWithParameters parseHir pars src = .ok c) (hs : ∀ p ∈ params e, ∃ k, LevelParam parseHir pars k p) :
    withinNestLimit c.pattern = true ↔
      ∀ p ∈ params e, ∀ v w a, pars p.input = some v → enclosedText parseHir p.id v = some w → Ast.parse w = .ok a → a.nest ≤ 248 := by
  constructor
  · intro hw p hp v w a hv he ha
    have hk : ∃ k, ∀ p ∈ params e, LevelParam parseHir pars k p := by
      clear hp
      generalize params e = l at hs
      induction l with
      | nil => exact ⟨0, by simp⟩
      | cons q l ih =>
        obtain ⟨k, hk⟩ := hs q (by simp)
        obtain ⟨m, hm⟩ := ih fun p hp => hs p (by simp [hp])
        refine ⟨max k m, fun p hp => ?_⟩
        rcases List.mem_cons.1 hp with rfl | hp
        · exact hk.mono (Nat.le_max_left ..)
        · exact (hm p hp).mono (Nat.le_max_right ..)
    obtain ⟨k, hk⟩ := hk
    obtain ⟨t, ht, -, hl⟩ := C54_printed parseHir pars k src e h c hc hk
    have := hl p hp v w a hv he ha
    simp only [withinNestLimit, ht] at hw
    have hw : t.nest ≤ nestLimit := of_decide_eq_true hw
    have : nestLimit = 250 := rfl
    omega
  · intro hw
    obtain ⟨t, ht, hn, -⟩ := C54_printed parseHir pars 248 src e h c hc fun p hp => by
      obtain ⟨k, hk⟩ := hs p hp
      revert hk
      unfold LevelParam
      have := hw p hp
      revert this
      cases pars p.input with
      | none => exact fun _ h => h
      | some v => exact fun hw ⟨w, a, he, ha, _⟩ => ⟨w, a, he, ha, hw v w a rfl he ha⟩
    simp only [withinNestLimit, ht]
    exact decide_eq_true (by unfold nestLimit; omega)

/-! ## Regexes of the fragment -/

variable (T : Tables)

/-- The syntax tree of a printed HIR. -/
theorem astParse_print {h : Hir} (hw : h.Wf) (hn : h.toRe.names.Nodup) : Ast.parse h.print = .ok (astOf h) := by
  obtain ⟨b, hb, -⟩ := ast_of_parse (parse_print hw hn)
  obtain ⟨ts, hl, hbu⟩ := astParse_ok hb
  have q1 := (good _ hw).1.lex
  rw [hl] at q1
  cases q1
  obtain ⟨f, q2⟩ := (agood _ hw).1 false
  have q2 := q2 [] [] [] []
  simp only [List.append_nil] at q2
  have hbu' : buildA [] ⟨[], [], false⟩ (hirToks h) = .ok b := hbu
  rw [q2] at hbu'
  have : b = astOf h := by
    cases hbu'
    simp [AFrame.finish, altA, catA]
  rw [hb, this]

/-- What is put in parentheses for a regular custom regex. -/
theorem enclosed_regular {v : List Char} {a : Ast} (ha : Ast.parse v = .ok a) (hr : a.toRe.groups ≠ [] → a.Regular) (id : Nat)
    (hn : a.outerGroup = true → ((relabel id 0 a.marked).filterMap _root_.id).Nodup) :
    ∃ w b, enclosedText (hirOf T) id v = some w ∧ Ast.parse w = .ok b ∧
      b = if a.outerGroup then astOf ((translate T a 1).1.renameCaptureGroups id) else a := by
  cases ho : a.outerGroup with
  | true =>
    have hg : a.toRe.groups ≠ [] := fun h => by rw [outer_groupless h] at ho; cases ho
    obtain ⟨k, hk, h1, -, h2, -⟩ := C32_regular_partial T v a ha (hr hg) id
    rw [hirOf_ok T ha] at hk
    cases hk
    have ok := translate_ok T a 1 (parse_valid ha) (hr hg)
    obtain ⟨k1, -⟩ := Hir.rename_ok id _ 0 ok.wf (by rw [ok.indices]; exact List.nodup_range' ..)
    refine ⟨((translate T a 1).1.renameCaptureGroups id).print, _, ?_, astParse_print k1 ?_, rfl⟩
    · simp only [enclosedText, if_pos (outer_paren ha ho), hirOf_ok T ha, h1, ho, if_true]
    · have := hn ho
      rw [← h2] at this
      exact this
  | false =>
    refine ⟨v, a, ?_, ha, by simp⟩
    simp only [enclosedText]
    split
    · rw [hirOf_ok T ha]
      have hg := grouped_hirOf T ha hr
      rename_i hp
      have : (translate T a 1).1.hasCaptureGroups = false := by
        rw [hasCaptureGroups_eq]
        cases hc : (translate T a 1).1.outerGroup with
        | false => rfl
        | true =>
          rw [(grouped_some (hirOf T)).2 ⟨hp, hirOf_ok T ha, hc⟩, ho] at hg
          cases hg
      simp [this]
    · rfl

/-- C54: for custom regexes of the fragment the limit is met exactly if what is put in parentheses for them is at most 248 deep, and it
is always known how deep that is. -/
theorem C54_regular (src : List Char) (e : Expression) (h : Expression.parse src = .ok e)
    (hr : ∀ p ∈ params e, RegularParam pars p) (hn : ((params e).map (customNames pars)).flatten.Nodup) :
    ∃ c, Expression.regexWithParameters (hirOf T) pars src = .ok c ∧
      (∀ p ∈ params e, ∃ k, LevelParam (hirOf T) pars k p) ∧
      (withinNestLimit c.pattern = true ↔ ∀ p ∈ params e, LevelParam (hirOf T) pars 248 p) := by
  obtain ⟨c, hc, -⟩ := (C45_regular_partial T pars src e h hr).1 hn
  have hs : ∀ p ∈ params e, ∃ k, LevelParam (hirOf T) pars k p := by
    intro p hp
    have h1 := hr p hp
    have h2 : (customNames pars p).Nodup :=
      hn.sublist (List.sublist_flatten_of_mem (List.mem_map_of_mem hp))
    revert h1 h2
    unfold RegularParam LevelParam customNames
    cases pars p.input with
    | none => exact fun h _ => ⟨0, h⟩
    | some v =>
      rintro ⟨a, ha, hr⟩ h2
      simp only [ha] at h2
      obtain ⟨w, b, h3, h4, -⟩ := enclosed_regular T ha hr p.id (fun ho => by rw [ho, if_pos rfl] at h2; exact h2)
      exact ⟨b.nest, w, b, h3, h4, Nat.le_refl _⟩
  refine ⟨c, hc, hs, (C54_printed_iff (hirOf T) pars src e h c hc hs).trans ?_⟩
  constructor
  · intro h1 p hp
    obtain ⟨k, hk⟩ := hs p hp
    have := h1 p hp
    revert hk this
    unfold LevelParam
    cases pars p.input with
    | none => exact fun h _ => h
    | some v => exact fun ⟨w, a, he, ha, _⟩ hw => ⟨w, a, he, ha, hw v w a rfl he ha⟩
  · intro h1 p hp v w a hv he ha
    have := h1 p hp
    simp only [LevelParam, hv] at this
    obtain ⟨w', a', he', ha', hk⟩ := this
    rw [he] at he'
    cases he'
    rw [ha] at ha'
    cases ha'
    exact hk

/-! ## Deeper by any number of levels -/

def deepAst : Nat → Ast
  | 0 => .cap none (.lit 'a')
  | n + 1 => .cap none (.concat [.lit 'a', deepAst n])

def deepToks : Nat → List Tok
  | 0 => [.capture none, .lit 'a', .close]
  | n + 1 => [.capture none, .lit 'a'] ++ deepToks n ++ [.close]

theorem deepRegex_succ (n : Nat) : deepRegex (n + 1) = ['(', 'a'] ++ deepRegex n ++ [')'] := by
  simp [deepRegex, List.replicate_succ, ← List.replicate_succ']

theorem lexes_deep (n : Nat) : Lexes (deepRegex (n + 1)) (deepToks n) := by
  have h1 : Lexes ['(', 'a'] [.capture none, .lit 'a'] := fun rest => by
    rw [List.cons_append, lex_cons (t := .capture none) (r' := 'a' :: rest) rfl, lex_cons (t := .lit 'a') (r' := rest) rfl, prep_prep]
    rfl
  induction n with
  | zero => exact h1.append lexes_close
  | succ n ih =>
    rw [deepRegex_succ]
    exact (h1.append ih).append lexes_close

theorem reads_deep (n : Nat) : AReadsAs (deepToks n) [deepAst n] := by
  induction n with
  | zero => exact (AAtom.captured (ts := [.lit 'a']) (a := .lit 'a') (AReadsAs.lits ['a'])).reads
  | succ n ih =>
    have h := (AReadsAs.lits ['a']).append ih
    intro fr
    refine ⟨false, fun st br it rest => ?_⟩
    obtain ⟨f, h⟩ := h false
    simp only [deepToks, List.cons_append, List.append_assoc, List.nil_append, buildA, AFrame.start]
    have := h ((.capture none, ⟨br, it, fr⟩) :: st) [] [] (.close :: rest)
    simp only [List.map_cons, List.map_nil, List.cons_append, List.nil_append] at this
    simp only [buildA] at this
    rw [this]
    simp [AFrame.push, Kind.wrapA, AFrame.finish, altA, catA, deepAst]

theorem deep_groups (n : Nat) : (deepAst n).toRe.groups = List.replicate (n + 1) none ∧ (deepAst n).marked = List.replicate (n + 1) (none, false) ∧
    (deepAst n).Regular ∧ (deepAst n).nest = 2 * n + 1 := by
  induction n with
  | zero => exact ⟨rfl, rfl, trivial, rfl⟩
  | succ n ih =>
    obtain ⟨h1, h2, h3, h4⟩ := ih
    refine ⟨?_, ?_, ⟨trivial, h3, trivial⟩, ?_⟩
    · simp [deepAst, Ast.toRe, Ast.toRes, catL, Re.groups, h1, List.replicate_succ]
    · simp [deepAst, Ast.marked, Ast.allMarked, h2, List.replicate_succ]
    · simp only [deepAst, Ast.nest, Ast.nests, h4]; omega

theorem parse_deep (n : Nat) : Ast.parse (deepRegex (n + 1)) = .ok (deepAst n) := by
  obtain ⟨f, h⟩ := reads_deep n false
  have h := h [] [] [] []
  simp only [List.append_nil] at h
  have hb : buildA [] .start (deepToks n) = .ok (deepAst n) := by
    refine Eq.trans h ?_
    simp [buildA, AFrame.finish, altA, catA]
  simp only [Ast.parse, (lexes_deep n).lex, hb]
  rw [if_pos]
  rw [Re.names, (deep_groups n).1, List.filterMap_replicate_of_none rfl]
  exact List.nodup_nil

/-- The HIR, with its groups renamed. -/
def deepHir (id : Nat) : Nat → Nat → Nat → Hir
  | 0, i, k => .capture i (some (['_', '_'] ++ decimal id ++ ['_'] ++ decimal k)) (.literal ['a'])
  | n + 1, i, k => .capture i (some (['_', '_'] ++ decimal id ++ ['_'] ++ decimal k)) (.concat [.literal ['a'], deepHir id n (i + 1) (k + 1)])

theorem rename_deep (id n : Nat) : ∀ i k, ∃ m, renameGroupsInner id (translate T (deepAst n) i).1 k = (deepHir id n i k, m) := by
  induction n with
  | zero => exact fun i k => ⟨_, rfl⟩
  | succ n ih =>
    intro i k
    obtain ⟨m, h⟩ := ih (i + 1) (k + 1)
    refine ⟨m, ?_⟩
    have hcap : ∃ x s, (translate T (deepAst n) (i + 1)).1 = .capture (i + 1) x s := by
      cases n <;> exact ⟨_, _, rfl⟩
    obtain ⟨x, s, hx⟩ := hcap
    have h1 : (translate T (deepAst (n + 1)) i).1 = .capture i none (.concat [.literal ['a'], (translate T (deepAst n) (i + 1)).1]) := by
      rw [hx]
      have : translate T (deepAst (n + 1)) i = (.capture i none (mkConcat [.literal ['a'], (translate T (deepAst n) (i + 1)).1]), _) := rfl
      rw [this, hx]
      rfl
    have hd : ∃ i' y s', deepHir id n (i + 1) (k + 1) = .capture i' y s' := by
      cases n <;> exact ⟨_, _, _, rfl⟩
    obtain ⟨i', y, s', hd⟩ := hd
    rw [h1]
    simp only [renameGroupsInner, renameGroupsList, h, deepHir]
    rw [hd]
    rfl

theorem nest_deepHir (id n : Nat) : ∀ i k, (astOf (deepHir id n i k)).nest = 3 * n + 1 := by
  induction n with
  | zero => exact fun i k => rfl
  | succ n ih =>
    intro i k
    simp only [deepHir, astOf, astOfs, catA, Ast.nest, Ast.nests, ih, List.map_cons, List.map_nil]
    simp [Ast.nest]
    omega

/-- C54: a custom regex with capture groups is printed anew, with one level more for each of its concatenations. `(a(a(a…)))` with `n + 1`
groups is `2n + 1` deep, `{x}` with it `3n + 3`. -/
theorem C54_renamed_deeper (n : Nat) : ∃ a c t, Ast.parse (deepRegex (n + 1)) = .ok a ∧ a.nest = 2 * n + 1 ∧
    Expression.regexWithParameters (hirOf T) (hashMapProvider [(['x'], deepRegex (n + 1))]) (chars! "{x}") = .ok c ∧
    Ast.parse c.pattern = .ok t ∧ 3 * n + 3 ≤ t.nest ∧ t.nest ≤ max 12 (3 * n + 3) := by
  let pars := hashMapProvider [(['x'], deepRegex (n + 1))]
  let p : Parameter := ⟨⟨1, 1, ['x']⟩, 0⟩
  obtain ⟨h1, h2, h3, h4⟩ := deep_groups n
  have hv : pars p.input = some (deepRegex (n + 1)) := rfl
  have hp : params [.parameter p] = [p] := rfl
  have ho : (deepAst n).outerGroup = true := by simp [Ast.outerGroup, h2, List.replicate_succ]
  have hnames : ((relabel 0 0 (deepAst n).marked).filterMap _root_.id).Nodup := by
    rw [relabel_top 0 0 _ (by rw [h2]; intro g hg; rw [List.eq_of_mem_replicate hg]), List.filterMap_map]
    have : ((_root_.id ∘ fun k => some (groupName 0 k)) : Nat → Option (List Char)) = fun k => some (groupName 0 k) := rfl
    rw [this, List.filterMap_eq_map']
    exact List.pairwise_map.2 ((List.nodup_range' ..).imp fun hne hab => hne (groupName_inj hab).2)
  have hr : ∀ q ∈ params [.parameter p], RegularParam pars q := by
    intro q hq
    rw [hp, List.mem_singleton] at hq
    rw [hq]
    simp only [RegularParam, hv]
    exact ⟨_, parse_deep n, fun _ => h3⟩
  have hn : ((params [.parameter p]).map (customNames pars)).flatten.Nodup := by
    rw [hp]
    simp only [List.map_cons, List.map_nil, List.flatten_cons, List.flatten_nil, List.append_nil, customNames, hv, parse_deep, ho, if_true]
    exact hnames
  obtain ⟨c, hc, -⟩ := (C45_regular_partial T pars (chars! "{x}") [.parameter p] rfl hr).1 hn
  obtain ⟨w, b, h5, h6, h7⟩ := enclosed_regular T (parse_deep n) (fun _ => h3) 0 (fun _ => hnames)
  have hb : b.nest = 3 * n + 1 := by
    rw [h7, ho, if_pos rfl, renameCaptureGroups]
    obtain ⟨m, hm⟩ := rename_deep T 0 n 1 0
    rw [hm]
    exact nest_deepHir ..
  obtain ⟨t, ht, hu, hl⟩ := C54_printed (hirOf T) pars (3 * n + 1) (chars! "{x}") [.parameter p] rfl c hc (by
    intro q hq
    rw [hp, List.mem_singleton] at hq
    rw [hq]
    simp only [LevelParam, hv]
    exact ⟨w, b, h5, h6, by omega⟩)
  have := hl p (by rw [hp]; simp) _ w b hv h5 h6
  exact ⟨_, c, t, parse_deep n, h4, hc, ht, by omega, by omega⟩

/-- C54: no number of levels is always enough for what an expression adds to a custom regex. -/
theorem C54_no_constant (k : Nat) : ∃ v a c t, Ast.parse v = .ok a ∧
    Expression.regexWithParameters (hirOf T) (hashMapProvider [(['x'], v)]) (chars! "{x}") = .ok c ∧
    Ast.parse c.pattern = .ok t ∧ a.nest + k < t.nest := by
  obtain ⟨a, c, t, h1, h2, h3, h4, h5, -⟩ := C54_renamed_deeper T k
  exact ⟨_, a, c, t, h1, h3, h4, by omega⟩

/-- C54: a custom regex within the limit can make an expression beyond it. -/
theorem C54_beyond : ∃ v c, withinNestLimit v = true ∧
    Expression.regexWithParameters (hirOf T) (hashMapProvider [(['x'], v)]) (chars! "{x}") = .ok c ∧ withinNestLimit c.pattern = false := by
  obtain ⟨a, c, t, h1, h2, h3, h4, h5, -⟩ := C54_renamed_deeper T 83
  refine ⟨_, c, ?_, h3, ?_⟩
  · simp only [withinNestLimit, h1, h2]
    rfl
  · simp only [withinNestLimit, h4, nestLimit]
    exact decide_eq_false (by omega)

/-- Non-vacuity of C54 for regexes with capture groups: what is put in parentheses for `(ab)c`, and how deep it is. -/
example : ∃ w a, enclosedText (hirOf asciiTables) 3 (chars! "(ab)c") = some w ∧ w = chars! "(?:(?P<__3_0>(?:ab))c)" ∧ Ast.parse w = .ok a ∧
    a.nest = 5 ∧ LevelParam (hirOf asciiTables) (hashMapProvider [(['x'], chars! "(ab)c")]) 5 ⟨⟨1, 1, ['x']⟩, 3⟩ := by
  have h1 : enclosedText (hirOf asciiTables) 3 (chars! "(ab)c") = some (chars! "(?:(?P<__3_0>(?:ab))c)") := by decide +kernel
  exact ⟨_, _, h1, rfl, rfl, rfl, _, _, h1, rfl, by decide⟩

end CE
