import Verif.Proof.Balanced
import Verif.Prop.Adequate
import Verif.Proof.CustomExpr
import Verif.Spec.Valid

/-!
# Valid custom regexes cannot break an expression: C74

C45 needs custom regexes to be regular, because for others the printer may print another regex. What remains true of all valid ones
is shown here.
-/

namespace CE
open Spec Regex Hir

variable (T : Tables) (pars : Provider)

theorem readsAs_unique {ts : List Tok} {r r' : Re} (h : ReadsAs ts [r]) (h' : ReadsAs ts [r']) : r = r' := by
  obtain ⟨f, h⟩ := h false
  obtain ⟨f', h'⟩ := h' false
  have h1 := h [] [] [] []
  have h2 := h' [] [] [] []
  rw [h1] at h2
  simpa [build, Frame.finish, altL, catL] using h2

/-- What is needed of a parameter's expansion. -/
structure Expands (p : Parameter) (t : List Char × List Tok × Re) : Prop where
  res : customRes (hirOf T) pars p = .ok t.1
  lexes : Lexes t.1 t.2.1
  reads : ReadsAs t.2.1 [t.2.2]
  names : Nameless pars p → ∃ k, (t.2.2.groups.filterMap id).Sublist ((List.range' 0 k).map (groupName p.id))
  regular : RegularParam pars p → t.2.2.groups.length = customGroups pars p ∧
    ∀ g pre x post l, t.2.2.Match T.classes g pre x post l ↔ customMatch T pars p g pre x post l

theorem valid_expands (p : Parameter) (hv : ValidParam pars p) : ∃ t, Expands T pars p t := by
  suffices h : ∃ t : List Char × List Tok × Re, customRes (hirOf T) pars p = .ok t.1 ∧ Lexes t.1 t.2.1 ∧ ReadsAs t.2.1 [t.2.2] ∧
      (Nameless pars p → ∃ k, (t.2.2.groups.filterMap id).Sublist ((List.range' 0 k).map (groupName p.id))) by
    obtain ⟨t, h1, h2, h3, h4⟩ := h
    refine ⟨t, h1, h2, h3, h4, fun hr => ?_⟩
    obtain ⟨cs, ts, rr, k1, k2, k3, k4, -, k5⟩ := sound_expansion (hirOf T) T.classes pars p (regular_sound T pars p hr)
    obtain ⟨s1, s2, -⟩ := regular_custom T pars p hr
    rw [h1] at k1
    cases Except.ok.inj k1
    have : t.2.1 = ts := by
      have := h2.lex
      rw [k2.lex] at this
      exact (Except.ok.inj this).symm
    rw [this] at h3
    cases readsAs_unique h3 k3
    exact ⟨k4.trans s2, fun g pre x post l => s1 ▸ k5 g pre x post l⟩
  unfold ValidParam at hv
  unfold customRes Nameless
  cases hp : pars p.input with
  | none =>
    rw [hp] at hv
    obtain ⟨b, hb⟩ := hv
    refine ⟨⟨builtinPat b p.id, builtinToks b p.id, builtinRe b p.id⟩, by simp [builtinRes, builtinNamed_some.2 hb],
      lexes_builtin b p.id, reads_builtin b p.id, fun _ => ⟨2, ?_⟩⟩
    simp only [groups_builtin]
    split
    · exact List.Sublist.refl _
    · exact List.nil_sublist _
  | some v =>
    rw [hp] at hv
    obtain ⟨r, hr⟩ := hv
    obtain ⟨a, ha, rfl⟩ := ast_of_parse hr
    have plain : ∃ ts, Lexes ('(' :: v ++ [')']) ts ∧ ReadsAs ts [.cap none a.toRe] := by
      obtain ⟨ts, hl, hb⟩ := parse_parts ha
      have hb' : build [] .start ts = .ok a.toRe := by
        have := build_forget ts [] .start (fun h => by cases h) (by simp)
        rw [hb] at this
        exact this
      exact ⟨_, lexes_captured hl hb', ReadsAs.captured hb'⟩
    obtain ⟨ts, p1, p2⟩ := plain
    have plainNames : (∀ w r, some v = some w → Regex.parse w = .ok r → r.names = []) →
        ∃ k, ((Re.cap none a.toRe).groups.filterMap id).Sublist ((List.range' 0 k).map (groupName p.id)) := fun hn =>
      ⟨0, by
        have : a.toRe.names = [] := hn v _ rfl hr
        simp only [Re.groups, List.filterMap_cons, id]
        rw [Re.names] at this
        rw [this]; exact List.nil_sublist _⟩
    simp only [valueRes, hirOf_ok T ha]
    by_cases h1 : '(' ∈ v
    · rw [if_pos h1]
      by_cases h2 : (translate T a 1).1.outerGroup = true
      · rw [if_pos h2]
        obtain ⟨g1, rr, g2, g3⟩ := tidy_good _ (rename_tidy p.id _ 0 (translate_tidy T a 1 (parse_valid ha)))
        have q3 := Atom.grouped (bs := [(hirToks (renameGroupsInner p.id (translate T a 1).1 0).1, [rr])]) (by simp) (by simpa using g2.readsAs)
        refine ⟨⟨_, _, rr⟩, rfl, (lexes_open.append g1).append lexes_close, by simpa [barred, altL, catL] using q3.readsAs, fun hn => ?_⟩
        have hn : a.toRe.groups.filterMap id = [] := hn v _ rfl hr
        obtain ⟨k, -, h3⟩ := rename_names p.id (translate T a 1).1 0 (sublist_nameless (translate_groups T a 1) hn)
        exact ⟨k, by rw [g3]; exact h3⟩
      · rw [if_neg h2]
        exact ⟨⟨_, ts, _⟩, rfl, p1, p2, plainNames⟩
    · rw [if_neg h1]
      exact ⟨⟨_, ts, _⟩, rfl, p1, p2, plainNames⟩

/-- The expansions of all valid parameters. -/
theorem expands_choice : ∃ f : Parameter → List Char × List Tok × Re, ∀ p, ValidParam pars p → Expands T pars p (f p) := by
  have hch : ∀ p, ∃ t : List Char × List Tok × Re, ValidParam pars p → Expands T pars p t := fun p => by
    by_cases hp : ValidParam pars p
    · obtain ⟨t, ht⟩ := valid_expands T pars p hp
      exact ⟨t, fun _ => ht⟩
    · exact ⟨([], [], .empty), fun h => absurd h hp⟩
  exact Classical.axiomOfChoice hch

theorem expands_regex {f : Parameter → List Char × List Tok × Re} {src : List Char} {e : Expression} (h : Expression.parse src = .ok e)
    (hf : ∀ p ∈ params e, Expands T pars p (f p)) :
    ((exprRe (fun p => (f p).2.2) e).names.Nodup → ∃ c, Expression.regexWithParameters (hirOf T) pars src = .ok c ∧
      c.re = exprRe (fun p => (f p).2.2) e) ∧
    (¬ (exprRe (fun p => (f p).2.2) e).names.Nodup → Expression.regexWithParameters (hirOf T) pars src = .err (.regex .invalid)) := by
  have hpat := parse_pattern (pp := fun p => (f p).1) (tp := fun p => (f p).2.1) (rp := fun p => (f p).2.2)
    (parse_nonemptyAlts h) (fun p hp => ⟨(hf p hp).lexes, (hf p hp).reads⟩)
  have hseq := seqPat_ok (pr := customRes (hirOf T) pars) (pp := fun p => (f p).1) (e := e) (fun p hp => (hf p hp).res)
  rw [regexWith_eq (hirOf T) pars h, hseq]
  simp only [compileRes, hpat]
  exact ⟨fun hn => ⟨_, by rw [if_pos hn], rfl⟩, fun hn => by rw [if_neg hn]⟩

/-- C74: every valid custom regex has a meaning of its own, which depends neither on the expression nor on the other parameters, and is
the one of C45 if it is regular; and every accepted expression matches exactly the texts that split into one piece per element, each
matched according to its meaning. So it matches whole texts only. -/
theorem C74_pieces : ∃ (M : Parameter → Nat → Matches) (G : Parameter → Nat),
    (∀ p, RegularParam pars p → M p = customMatch T pars p ∧ G p = customGroups pars p) ∧
    ∀ (src : List Char) (e : Expression) (c : Compiled), Expression.parse src = .ok e → (∀ p ∈ params e, ValidParam pars p) →
      Expression.regexWithParameters (hirOf T) pars src = .ok c →
      ∀ (w pre x post : List Char) (l : List Cap), c.re.Finds T.classes w pre x post l ↔
        pre = [] ∧ post = [] ∧ x = w ∧ SplitsWith M G e 1 [] w [] l := by
  obtain ⟨f, hf⟩ := expands_choice T pars
  refine ⟨fun p => (f p).2.2.Match T.classes, fun p => (f p).2.2.groups.length, fun p hr => ?_, fun src e c h hv hc w pre x post l => ?_⟩
  · have hv : ValidParam pars p := by
      unfold RegularParam at hr
      unfold ValidParam
      cases hp : pars p.input with
      | none => rw [hp] at hr; exact hr
      | some v =>
        rw [hp] at hr
        obtain ⟨a, ha, -⟩ := hr
        exact ⟨_, parse_re ha⟩
    obtain ⟨h1, h2⟩ := (hf p hv).regular hr
    exact ⟨by funext g pre x post l; exact propext (h2 g pre x post l), h1⟩
  · obtain ⟨e1, e2⟩ := expands_regex T pars h fun p hp => hf p (hv p hp)
    by_cases hn : (exprRe (fun p => (f p).2.2) e).names.Nodup
    · obtain ⟨c', h1, h2⟩ := e1 hn
      rw [hc] at h1
      cases h1
      rw [h2]
      exact finds_expr (U := T.classes) e (parse_nonemptyAlts h) (parse_plainWs h) (fun p hp => ⟨rfl, fun _ _ _ _ _ => Iff.rfl⟩) w pre x post l
    · rw [e2 hn] at hc
      cases hc

/-- C74: with valid custom regexes, what is found is always the whole text. -/
theorem C74_whole (src : List Char) (e : Expression) (c : Compiled) (h : Expression.parse src = .ok e)
    (hv : ∀ p ∈ params e, ValidParam pars p) (hc : Expression.regexWithParameters (hirOf T) pars src = .ok c) :
    ∃ hir, hirOf T c.pattern = some hir ∧ ∀ w i x l, hir.find w = some (i, x, l) → i = 0 ∧ x = w := by
  obtain ⟨M, G, -, hM⟩ := C74_pieces T pars
  obtain ⟨hir, h1, h2⟩ := C73_compiled T (hirOf T) pars src c hc
  refine ⟨hir, h1, fun w i x l hf => ?_⟩
  obtain ⟨⟨pre, post, k, hi, hm, -⟩, -⟩ := (h2 w).2 i x l hf
  obtain ⟨rfl, rfl, rfl, -⟩ := (hM src e c h hv hc w pre x post k).1 hm
  exact ⟨hi.symm, rfl⟩

/-- C74: valid custom regexes without named groups never make an expression fail. -/
theorem C74_accepted (src : List Char) (e : Expression) (h : Expression.parse src = .ok e)
    (hv : ∀ p ∈ params e, ValidParam pars p) (hn : ∀ p ∈ params e, Nameless pars p) :
    ∃ c, Expression.regexWithParameters (hirOf T) pars src = .ok c := by
  obtain ⟨f, hf⟩ := expands_choice T pars
  obtain ⟨e1, -⟩ := expands_regex T pars h fun p hp => hf p (hv p hp)
  suffices hnd : (exprRe (fun p => (f p).2.2) e).names.Nodup by
    obtain ⟨c, hc, -⟩ := e1 hnd
    exact ⟨c, hc⟩
  rw [Re.names, groups_expr, List.filterMap_flatten, List.map_map]
  have key : ∀ ps : List Parameter, (ps.map Parameter.id).Nodup → (∀ p ∈ ps, p ∈ params e) →
      (ps.map ((List.filterMap id) ∘ fun p => (f p).2.2.groups)).flatten.Nodup ∧
      ∀ n ∈ (ps.map ((List.filterMap id) ∘ fun p => (f p).2.2.groups)).flatten, ∃ p ∈ ps, ∃ k, n = groupName p.id k := by
    intro ps
    induction ps with
    | nil => simp
    | cons p ps ih =>
      intro hid hm
      rw [List.map_cons, List.nodup_cons] at hid
      obtain ⟨i1, i2⟩ := ih hid.2 (fun q hq => hm q (by simp [hq]))
      obtain ⟨k, hk⟩ := (hf p (hv p (hm p (by simp)))).names (hn p (hm p (by simp)))
      have hp2 : ∀ n ∈ (f p).2.2.groups.filterMap id, ∃ k, n = groupName p.id k := by
        intro n hn
        obtain ⟨j, -, hj⟩ := List.mem_map.1 (hk.subset hn)
        exact ⟨j, hj.symm⟩
      have hp1 : ((f p).2.2.groups.filterMap id).Nodup := by
        refine List.Nodup.sublist hk (List.pairwise_map.2 ?_)
        exact (List.nodup_range' (s := 0) (n := k)).imp fun hne hab => hne (groupName_inj hab).2
      rw [List.map_cons, List.flatten_cons]
      refine ⟨List.nodup_append.2 ⟨hp1, i1, ?_⟩, ?_⟩
      · intro a ha b hb hab
        obtain ⟨k, hk⟩ := hp2 a ha
        obtain ⟨q, hq, j, hj⟩ := i2 b hb
        have := (groupName_inj (hk.symm.trans (hab.trans hj))).1
        exact hid.1 (this ▸ List.mem_map_of_mem hq)
      · intro n hn
        rcases List.mem_append.1 hn with hn | hn
        · exact ⟨p, by simp, hp2 n hn⟩
        · obtain ⟨q, hq, j⟩ := i2 n hn; exact ⟨q, by simp [hq], j⟩
  exact (key (params e) (ids_nodup h) fun p hp => hp).1

/-! ## Invalid custom regexes -/

/-- A custom regex without a group is not looked at before it is inserted. `)|x\` is refused by itself, but `{p}` is accepted for it,
as `^()|x\)$`: that is found in every text, and in `zzzx)` it does not even begin at the beginning. -/
theorem C74_false : ∃ (v : List Char) (e : Expression) (c : Compiled) (x : RErr), Regex.parse v = .error x ∧
    Expression.parse (chars! "{p}") = .ok e ∧
    Expression.regexWithParameters (hirOf T) (hashMapProvider [(['p'], v)]) (chars! "{p}") = .ok c ∧
    (∀ w : List Char, c.re.Finds T.classes w [] [] w [⟨1, 0, []⟩]) ∧
    c.re.Finds T.classes (chars! "zzzx)") (chars! "zzz") (chars! "x)") [] [] := by
  refine ⟨chars! ")|x\\", _, ⟨chars! "^()|x\\)$", .alt (.cat .bol (.cap none .empty)) (.cat (.lit 'x') (.cat (.lit ')') .eol))⟩, _,
    rfl, rfl, rfl, fun w => ⟨rfl, .inl ?_⟩, rfl, .inr ?_⟩
  · exact ⟨[], [], [], [⟨1, 0, []⟩], rfl, rfl, ⟨rfl, rfl, rfl⟩, [], ⟨rfl, rfl⟩, rfl⟩
  · exact ⟨['x'], [')'], [], [], rfl, rfl, ⟨rfl, rfl⟩, [')'], [], [], [], rfl, rfl, ⟨rfl, rfl⟩, rfl, rfl, rfl⟩

/-! ## Examples -/

/-- Non-vacuity: `(a)(?:b+)?` and `(?:(c)|(c)d){0}(e)` are not regular, but valid and without names; beside them a built-in parameter. -/
example : ∃ e c hir, Expression.parse (chars! "{p}{q} {int}") = .ok e ∧
    (∀ p ∈ params e, ValidParam (hashMapProvider [(['p'], chars! "(a)(?:b+)?"), (['q'], chars! "(?:(c)|(c)d){0}(e)")]) p) ∧
    (∀ p ∈ params e, Nameless (hashMapProvider [(['p'], chars! "(a)(?:b+)?"), (['q'], chars! "(?:(c)|(c)d){0}(e)")]) p) ∧
    ¬ (∀ p ∈ params e, RegularParam (hashMapProvider [(['p'], chars! "(a)(?:b+)?"), (['q'], chars! "(?:(c)|(c)d){0}(e)")]) p) ∧
    Expression.regexWithParameters (hirOf asciiTables)
      (hashMapProvider [(['p'], chars! "(a)(?:b+)?"), (['q'], chars! "(?:(c)|(c)d){0}(e)")]) (chars! "{p}{q} {int}") = .ok c ∧
    hirOf asciiTables c.pattern = some hir ∧
    hir.find (chars! "abe 1") = some (0, chars! "abe 1", [⟨1, 0, ['a']⟩, ⟨2, 2, ['e']⟩, ⟨3, 4, ['1']⟩]) ∧
    hir.find (chars! " abe 1") = none := by
  have two : ∀ p ∈ params [.parameter ⟨⟨1, 1, ['p']⟩, 0⟩, .parameter ⟨⟨4, 1, ['q']⟩, 1⟩, .whitespaces ⟨6, 1, [' ']⟩, .parameter ⟨⟨8, 1, ['i', 'n', 't']⟩, 2⟩],
      p = ⟨⟨1, 1, ['p']⟩, 0⟩ ∨ p = ⟨⟨4, 1, ['q']⟩, 1⟩ ∨ p = ⟨⟨8, 1, ['i', 'n', 't']⟩, 2⟩ := by decide
  refine ⟨_, _, _, rfl, ?_, ?_, ?_, rfl, rfl, by decide +kernel, by decide +kernel⟩
  · intro p hp
    rcases two p hp with rfl | rfl | rfl
    · exact ⟨_, rfl⟩
    · exact ⟨_, rfl⟩
    · exact ⟨.int, rfl⟩
  · intro p hp v r hv hr
    rcases two p hp with rfl | rfl | rfl
    · cases Option.some.inj hv; cases Except.ok.inj hr; rfl
    · cases Option.some.inj hv; cases Except.ok.inj hr; rfl
    · cases hv
  · intro h
    obtain ⟨a, ha, hr⟩ := h ⟨⟨1, 1, ['p']⟩, 0⟩ (by decide)
    have e : a = .concat [.cap none (.lit 'a'), .rep (.group (.rep (.lit 'b') 1 none true)) 0 (some 1) true] := (Except.ok.inj ha).symm
    rw [e] at hr
    have := hr (by decide)
    simp [Ast.Regular, Ast.AllRegular, Ast.toRe, Re.groups, Ast.eager, Ast.once, Ast.weightless] at this

/-- Word boundaries and hexadecimal escapes in custom regexes: `{p}(s)` is found in `abb` and `abbs`, as the value need not end at
a word boundary unless the regex says so; with `\b` at the end only in the former. -/
theorem boundary_example : ∃ c d hir hir' : _, (Regex.parse (chars! "\\b(\\x{61}\\u0062*)")).isOk = true ∧
    Expression.regexWithParameters (hirOf asciiTables) (hashMapProvider [(['p'], chars! "\\b(\\x{61}\\u0062*)")]) (chars! "{p}(s)") = .ok c ∧
    Expression.regexWithParameters (hirOf asciiTables) (hashMapProvider [(['p'], chars! "(\\x61b*)\\b")]) (chars! "{p}(s)") = .ok d ∧
    hirOf asciiTables c.pattern = some hir ∧ hirOf asciiTables d.pattern = some hir' ∧
    hir.find (chars! "abbs") = some (0, chars! "abbs", [⟨1, 0, chars! "abb"⟩]) ∧
    hir'.find (chars! "abb") = some (0, chars! "abb", [⟨1, 0, chars! "abb"⟩]) ∧ hir'.find (chars! "abbs") = none :=
  ⟨_, _, _, _, rfl, rfl, rfl, rfl, rfl, by decide +kernel, by decide +kernel, by decide +kernel⟩

/-- Nested classes, set operations and ASCII classes in custom regexes: consonants with `&&`, letters without `--`, one of two
classes but not both with `~~`. -/
theorem setops_example : ∃ c hir : _, (Regex.parse (chars! "[[:alpha:]&&[^aeiou]]+")).isOk = true ∧
    Expression.regexWithParameters (hirOf asciiTables)
      (hashMapProvider [(['p'], chars! "[[:lower:]&&[^aeiou]--[x-z]]+[a-c~~b-d]")]) (chars! "a {p}") = .ok c ∧
    hirOf asciiTables c.pattern = some hir ∧
    hir.find (chars! "a bta") = some (0, chars! "a bta", [⟨1, 2, chars! "bta"⟩]) ∧
    hir.find (chars! "a btb") = none ∧ hir.find (chars! "a ota") = none ∧ hir.find (chars! "a bxa") = none :=
  ⟨_, _, rfl, rfl, rfl, by decide +kernel, by decide +kernel, by decide +kernel, by decide +kernel⟩

end CE
