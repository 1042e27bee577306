import Verif.Prop.Custom
import Verif.Spec.CustomLang
import Verif.Proof.HirRename
import Verif.Proof.Suffix

/-!
# Expansion with custom parameters: C32, C36, C45
-/

namespace CE
open Spec Regex

/-! ## C32 -/

/-- C32, what holds: renaming keeps matches and captures and names the groups outside repetitions `__id_0`, `__id_1`, …
in the order of their opening parentheses; the printed result is a regex with exactly these groups. Missing: groups inside
repetitions keep their names. -/
theorem C32_renamed_partial (h : Hir) (id : Nat) (hw : h.Wf) (hi : h.indices.Nodup) :
    Like (h.renameCaptureGroups id).toRe h.toRe ∧
    (h.renameCaptureGroups id).toRe.groups = relabel id 0 h.toRe.marked ∧
    (((relabel id 0 h.toRe.marked).filterMap _root_.id).Nodup →
      Regex.parse (h.renameCaptureGroups id).print = .ok (h.renameCaptureGroups id).toRe) := by
  obtain ⟨h1, -, h3, h4, -⟩ := Hir.rename_ok id h 0 hw hi
  exact ⟨h3, h4, fun hn => parse_print h1 (by rw [Re.names]; exact h4 ▸ hn)⟩

theorem relabel_top (id n : Nat) : ∀ gs : List (Option (List Char) × Bool), (∀ g ∈ gs, g.2 = false) →
    relabel id n gs = (List.range' n gs.length).map fun k => some (groupName id k)
  | [], _ => rfl
  | (x, false) :: gs, h => by
    rw [relabel, relabel_top id (n + 1) gs fun g hg => h g (by simp [hg])]
    simp [List.range'_succ]
  | (x, true) :: gs, h => by have := h (x, true) (by simp); cases this

theorem marked_length : ∀ r : Re, r.marked.length = r.groups.length
  | .empty => rfl
  | .lit _ => rfl
  | .dot => rfl
  | .cls _ => rfl
  | .bol => rfl
  | .eol => rfl
  | .mark _ => rfl
  | .cap _ r => by simp [Re.marked, Re.groups, marked_length r]
  | .cat a b => by simp [Re.marked, Re.groups, marked_length a, marked_length b]
  | .alt a b => by simp [Re.marked, Re.groups, marked_length a, marked_length b]
  | .rep r _ _ _ => by simp [Re.marked, Re.groups]

/-- C32 for regexes without groups inside repetitions: the groups are named `__id_0`, `__id_1`, … in the order of their
opening parentheses. -/
theorem C32_unrepeated_partial (h : Hir) (id : Nat) (hw : h.Wf) (hi : h.indices.Nodup)
    (hr : ∀ g ∈ h.toRe.marked, g.2 = false) :
    Regex.parse (h.renameCaptureGroups id).print = .ok (h.renameCaptureGroups id).toRe ∧
    (h.renameCaptureGroups id).toRe.groups = (List.range h.toRe.groups.length).map fun k => some (groupName id k) := by
  obtain ⟨-, h2, h3⟩ := C32_renamed_partial h id hw hi
  rw [relabel_top id 0 _ hr, marked_length, ← List.range_eq_range'] at h2 h3
  refine ⟨h3 ?_, h2⟩
  rw [List.filterMap_map]
  have : ((_root_.id ∘ fun k => some (groupName id k)) : Nat → Option (List Char)) = fun k => some (groupName id k) := rfl
  rw [this, List.filterMap_eq_map']
  · exact List.pairwise_map.2 (List.nodup_range.imp fun hne hab => hne (groupName_inj hab).2)

/-- Non-vacuity: `(a|b)(?:c(d))?` without the repetition: `(a)b(c(d))`. -/
example : ∃ h : Hir, h.Wf ∧ h.indices.Nodup ∧ (∀ g ∈ h.toRe.marked, g.2 = false) ∧
    (h.renameCaptureGroups 7).print = "(?:(?P<__7_0>a)b(?P<__7_1>(?:c(?P<__7_2>d))))".toList :=
  ⟨.concat [.capture 1 none (.literal ['a']), .literal ['b'], .capture 2 (some ['n']) (.concat [.literal ['c'],
    .capture 3 none (.literal ['d'])])],
    ⟨by simp [Hir.Wf], by simp [Hir.Wf], ⟨by simp [Hir.Wf, Hir.WfAll], fun _ h => ⟨'n', [], (Option.some.inj h).symm, by decide,
      by simp⟩⟩, trivial⟩, by decide, by decide, by decide⟩

/-- C32 is false: a group inside a repetition keeps its name (here: none); and if it has one, using the parameter twice is
an error. -/
theorem C32_false :
    (∃ h : Hir, h.Wf ∧ h.indices.Nodup ∧ h.outerGroup = true ∧
      (h.renameCaptureGroups 0).toRe.groups = [none, some (groupName 0 0)]) ∧
    (∃ h : Hir, h.Wf ∧ h.indices.Nodup ∧ Regex.parse "(?P<n>x)*".toList = .ok h.toRe ∧
      ∃ c, Expression.regexWithParameters (fun _ => some h) (hashMapProvider [("a".toList, "(?P<n>x)*".toList)])
        "{a}".toList = .ok c ∧
      Expression.regexWithParameters (fun _ => some h) (hashMapProvider [("a".toList, "(?P<n>x)*".toList)])
        "{a} {a}".toList = .err (.regex .invalid)) := by
  refine ⟨⟨.concat [.repetition 0 none true (.capture 1 none (.literal ['x'])), .capture 2 none (.literal ['y'])], ?_, ?_, ?_, ?_⟩,
    .repetition 0 none true (.capture 1 (some ['n']) (.literal ['x'])), ?_, ?_, rfl, _, rfl, rfl⟩
  · simp [Hir.Wf, Hir.WfAll]; decide
  · decide
  · decide
  · decide
  · exact ⟨⟨by simp [Hir.Wf], fun _ h => ⟨'n', [], (Option.some.inj h).symm, by decide, by simp⟩⟩, by simp, by simp, by decide⟩
  · decide

/-! ## C45 -/

variable (parseHir : List Char → Option Hir) (U : Classes) (pars : Provider)

theorem grouped_some {v : List Char} {h : Hir} :
    grouped parseHir v = some h ↔ '(' ∈ v ∧ parseHir v = some h ∧ h.outerGroup = true := by
  unfold grouped
  by_cases hp : '(' ∈ v <;> simp [hp, Option.filter_eq_some_iff]

/-- What is needed of a parameter's expansion. -/
theorem sound_expansion (p : Parameter) (hs : Sound parseHir U pars p) :
    ∃ cs ts rr, customRes parseHir pars p = .ok cs ∧ Lexes cs ts ∧ ReadsAs ts [rr] ∧
      rr.groups.length = paramGroups parseHir pars p ∧ rr.groups = paramLabels parseHir pars p ∧
      ∀ g pre x post l, rr.Match U g pre x post l ↔ paramMatch parseHir U pars p g pre x post l := by
  unfold Sound at hs
  unfold customRes paramGroups paramLabels paramMatch
  cases hv : pars p.input with
  | none =>
    rw [hv] at hs
    obtain ⟨b, hb⟩ := hs
    refine ⟨builtinPat b p.id, builtinToks b p.id, builtinRe b p.id, by simp [builtinRes, builtinNamed_some.2 hb],
      lexes_builtin b p.id, reads_builtin b p.id, ?_, ?_, fun g pre x post l => ?_⟩
    · simp only [groups_builtin, hb]
      by_cases hs : b = .string
      · simp [hs]
      · rw [if_neg hs, if_neg (fun hn => hs (name_inj hn))]; rfl
    · simp only [groups_builtin, hb]
      by_cases hs : b = .string
      · simp [hs]
      · rw [if_neg hs, if_neg (fun hn => hs (name_inj hn))]
    · rw [match_builtin]
      constructor
      · intro hm; exact ⟨b, hb, hm⟩
      · rintro ⟨b', h', hm⟩
        rw [hb] at h'
        exact name_inj h' ▸ hm
  | some v =>
    rw [hv] at hs
    obtain ⟨r, hr, hne, hgr⟩ := hs
    simp only []
    cases hg : grouped parseHir v with
    | some h =>
      obtain ⟨g1, g2, g3⟩ := (grouped_some parseHir).1 hg
      obtain ⟨hw, hi, hl⟩ := hgr h hg
      obtain ⟨k1, -, k3, k4, -⟩ := Hir.rename_ok p.id h 0 hw hi
      obtain ⟨q1, q2, -⟩ := good _ k1
      have e0 : (Hir.renameGroupsInner p.id h 0).1 = h.renameCaptureGroups p.id := rfl
      rw [e0] at k1 k3 k4 q1 q2
      have q3 : Atom (.group :: barred [hirToks (h.renameCaptureGroups p.id)] ++ [.close])
          (altL [catL [(h.renameCaptureGroups p.id).toRe]]) :=
        Atom.grouped (bs := [(hirToks (h.renameCaptureGroups p.id), [(h.renameCaptureGroups p.id).toRe])])
        (by simp) (by simpa using q2)
      refine ⟨_, .group :: hirToks (h.renameCaptureGroups p.id) ++ [.close], (h.renameCaptureGroups p.id).toRe,
        by simp only [valueRes, if_pos g1, g2, g3, if_true],
        (lexes_open.append q1).append lexes_close, by simpa [barred, altL, catL] using q3.readsAs, ?_, ?_, fun g pre x post l => ?_⟩
      · simp only [hr]; exact k3.1.trans hl.1
      · simp only [hr]; exact k4
      · simp only [hr, Except.ok.injEq, exists_eq_left']
        exact ((k3.at U).trans hl).2 g pre x post l
    | none =>
      obtain ⟨ts, hlx, hbd⟩ : ∃ ts, lex v = .ok ts ∧ build [] .start ts = .ok r := by
        unfold Regex.parse at hr
        split at hr
        · cases hr
        · rename_i ts hl
          split at hr
          · cases hr
          · rename_i r' hb
            split at hr
            · cases hr; exact ⟨ts, hl, hb⟩
            · cases hr
      refine ⟨'(' :: v ++ [')'], .capture none :: ts ++ [.close], .cap none r, ?_, lexes_captured hlx hbd, ReadsAs.captured hbd,
        ?_, ?_, fun g pre x post l => ?_⟩
      · simp only [valueRes]
        by_cases hp : '(' ∈ v
        · rw [if_pos hp]
          cases hh : parseHir v with
          | none => exact absurd hh (hne hp)
          | some h =>
            have : h.outerGroup = false := by
              cases hc : h.outerGroup with
              | false => rfl
              | true => rw [(grouped_some parseHir).2 ⟨hp, hh, hc⟩] at hg; cases hg
            simp [this]
        · rw [if_neg hp]
      · simp [hr, Re.groups]
      · simp [hr, Re.groups]
      · simp only [hr, Except.ok.injEq, exists_eq_left', Re.Match]

theorem sound_choice {ps : List Parameter} (hs : ∀ p ∈ ps, Sound parseHir U pars p) :
    ∃ f : Parameter → List Char × List Tok × Re, ∀ p ∈ ps, customRes parseHir pars p = .ok (f p).1 ∧ Lexes (f p).1 (f p).2.1 ∧
      ReadsAs (f p).2.1 [(f p).2.2] ∧ (f p).2.2.groups.length = paramGroups parseHir pars p ∧
      (f p).2.2.groups = paramLabels parseHir pars p ∧
      ∀ g pre x post l, (f p).2.2.Match U g pre x post l ↔ paramMatch parseHir U pars p g pre x post l := by
  have hch : ∀ p, ∃ t : List Char × List Tok × Re, p ∈ ps → customRes parseHir pars p = .ok t.1 ∧ Lexes t.1 t.2.1 ∧
      ReadsAs t.2.1 [t.2.2] ∧ t.2.2.groups.length = paramGroups parseHir pars p ∧
      t.2.2.groups = paramLabels parseHir pars p ∧
      ∀ g pre x post l, t.2.2.Match U g pre x post l ↔ paramMatch parseHir U pars p g pre x post l := by
    intro p
    by_cases hp : p ∈ ps
    · obtain ⟨cs, ts, rr, h'⟩ := sound_expansion parseHir U pars p (hs p hp)
      exact ⟨(cs, ts, rr), fun _ => h'⟩
    · exact ⟨([], [], .empty), fun h => absurd h hp⟩
  obtain ⟨f, hf⟩ := Classical.axiomOfChoice hch
  exact ⟨f, hf⟩

theorem names_labels (p : Parameter) : paramNames parseHir pars p = (paramLabels parseHir pars p).filterMap id := by
  unfold paramNames paramLabels
  split
  · split <;> rfl
  · split <;> simp_all [Re.names]

/-- The groups of the regex are those of the parameters, in order. -/
theorem regex_labels (src : List Char) (e : Expression) (h : Expression.parse src = .ok e)
    (hs : ∀ p ∈ params e, Sound parseHir U pars p) (c : Compiled)
    (hc : Expression.regexWithParameters parseHir pars src = .ok c) :
    c.re.groups = ((params e).map (paramLabels parseHir pars)).flatten := by
  obtain ⟨f, hf⟩ := sound_choice parseHir U pars hs
  have hpat := parse_pattern (pp := fun p => (f p).1) (tp := fun p => (f p).2.1) (rp := fun p => (f p).2.2)
    (parse_nonemptyAlts h) (fun p hp => ⟨(hf p hp).2.1, (hf p hp).2.2.1⟩)
  have hseq := seqPat_ok (pr := customRes parseHir pars) (pp := fun p => (f p).1) (e := e) (fun p hp => (hf p hp).1)
  rw [regexWith_eq parseHir pars h, hseq] at hc
  simp only [compileRes, hpat] at hc
  by_cases hn : (exprRe (fun p => (f p).2.2) e).names.Nodup
  · rw [if_pos hn] at hc
    cases hc
    rw [groups_expr]
    congr 1
    exact List.map_congr_left fun p hp => (hf p hp).2.2.2.2.1
  · rw [if_neg hn] at hc
    cases hc

/-- C45: with sound parameters, the regex matches exactly the subjects that split into pieces, one per element, where each
custom parameter matches and captures what its own regex does; it is refused only if two groups have the same name. -/
theorem C45_language (src : List Char) (e : Expression) (h : Expression.parse src = .ok e)
    (hs : ∀ p ∈ params e, Sound parseHir U pars p) :
    (((params e).map (paramNames parseHir pars)).flatten.Nodup →
      ∃ c, Expression.regexWithParameters parseHir pars src = .ok c ∧
        c.re.groups.length = ((params e).map (paramGroups parseHir pars)).sum ∧
        c.re.names = ((params e).map (paramNames parseHir pars)).flatten ∧
        ∀ (w pre x post : List Char) (l : List Cap), c.re.Finds U w pre x post l ↔
          pre = [] ∧ post = [] ∧ x = w ∧
            SplitsWith (paramMatch parseHir U pars) (paramGroups parseHir pars) e 1 [] w [] l) ∧
    (¬ ((params e).map (paramNames parseHir pars)).flatten.Nodup →
      Expression.regexWithParameters parseHir pars src = .err (.regex .invalid)) := by
  obtain ⟨f, hf⟩ := sound_choice parseHir U pars hs
  have hpat := parse_pattern (pp := fun p => (f p).1) (tp := fun p => (f p).2.1) (rp := fun p => (f p).2.2)
    (parse_nonemptyAlts h) (fun p hp => ⟨(hf p hp).2.1, (hf p hp).2.2.1⟩)
  have hseq := seqPat_ok (pr := customRes parseHir pars) (pp := fun p => (f p).1) (e := e) (fun p hp => (hf p hp).1)
  have hgr : (exprRe (fun p => (f p).2.2) e).groups = ((params e).map fun p => (f p).2.2.groups).flatten := by
    rw [groups_expr]
  have hnames : (exprRe (fun p => (f p).2.2) e).names = ((params e).map (paramNames parseHir pars)).flatten := by
    rw [Re.names, hgr, List.filterMap_flatten, List.map_map]
    congr 1
    exact List.map_congr_left fun p hp => by
      rw [names_labels, Function.comp_apply, (hf p hp).2.2.2.2.1]
  rw [regexWith_eq parseHir pars h, hseq]
  simp only [compileRes, hpat, hnames]
  constructor
  · intro hn
    rw [if_pos hn]
    refine ⟨_, rfl, ?_, hnames, fun w pre x post l => ?_⟩
    · simp only [hgr, List.length_flatten, List.map_map]
      congr 1
      exact List.map_congr_left fun p hp => (hf p hp).2.2.2.1
    · exact finds_expr (U := U) e (parse_nonemptyAlts h) (parse_plainWs h)
        (fun p hp => ⟨(hf p hp).2.2.2.1, (hf p hp).2.2.2.2.2⟩) w pre x post l
  · intro hn
    rw [if_neg hn]

/-! ## C36 -/

/-- C36, the part that holds for regexes without parentheses: if the leftmost parameter that is not sound has a custom
regex that consists of complete tokens (its escapes and brackets are closed), does not begin with `?`, but is invalid (such
as `*`, `a)b` or `x{2,1}`), the expression is refused, whatever follows. Missing: regexes with an unfinished escape, class or
count, which can be completed by what follows (see `C36_false`). -/
theorem C36_arrangement_partial (src : List Char) (e : Expression) (h : Expression.parse src = .ok e) (l r : Expression)
    (p : Parameter) (he : e = l ++ .parameter p :: r) (hs : ∀ q ∈ params l, Sound parseHir U pars q) (v : List Char)
    (hv : pars p.input = some v) (hpar : '(' ∉ v) (hq : v.head? ≠ some '?') (hbad : ∀ re, Regex.parse v ≠ .ok re)
    (ts : List Tok) (hlex : lex v = .ok ts) : ∃ x, Expression.regexWithParameters parseHir pars src = .err x := by
  have hbuild : ∃ x, build [] .start ts = .error x := by
    cases hb : build [] .start ts with
    | error x => exact ⟨x, rfl⟩
    | ok re =>
      exfalso
      have hg := build_closed ts .start _ (lex_closed hpar hlex) ⟨by simp [Frame.start], by simp [Frame.start]⟩ hb
      refine hbad re ?_
      simp [Regex.parse, hlex, hb, Re.names, hg]
  rw [regexWith_eq parseHir pars h]
  cases hsq : seqPat (customRes parseHir pars) e with
  | error x => exact ⟨_, rfl⟩
  | ok cs =>
    obtain ⟨f, hf⟩ := sound_choice parseHir U pars hs
    let pp : Parameter → List Char := fun p => match customRes parseHir pars p with
      | .ok c => c
      | .error _ => []
    have hf : ∀ p ∈ params l, Lexes (pp p) (f p).2.1 ∧ ReadsAs (f p).2.1 [(f p).2.2] := fun p hp =>
      ⟨by simp only [pp, (hf p hp).1, (hf p hp).2.1], (hf p hp).2.2.1⟩
    obtain ⟨rest, hcs⟩ : ∃ rest, cs = exprPat pp l ++ ('(' :: v ++ ')' :: rest) := by
      have hp : pp p = '(' :: v ++ [')'] := by simp [pp, customRes, hv, valueRes, hpar]
      have hl := seqPat_ok (pr := customRes parseHir pars) (pp := pp) (e := e) (fun p hp => by
        obtain ⟨q, hq⟩ := seqPat_isOk hsq p hp
        simp only [pp, hq])
      rw [hl] at hsq
      cases hsq
      exact ⟨exprPat pp r, by simp [he, exprPat, elemPat, hp]⟩
    have hne : NonemptyAlts l := fun hm => parse_nonemptyAlts h (by rw [he]; simp [hm])
    have h1 : Lexes (exprPat pp l) (l.map (elemToks fun p => (f p).2.1)).flatten :=
      Lexes.flatten l fun x hx => lexes_elem x fun p hp => (hf p (mem_params.2 (hp ▸ hx))).1
    have h2 : ReadsAs (l.map (elemToks fun p => (f p).2.1)).flatten (l.map (elemItems fun p => (f p).2.2)).flatten :=
      ReadsAs.flatten l fun x hx => reads_elem x (fun hx' => hne (hx' ▸ hx)) fun p hp => (hf p (mem_params.2 (hp ▸ hx))).2
    have h3 : lexOne '(' (v ++ ')' :: (rest ++ ['$'])) = .ok (.capture none, v ++ ')' :: (rest ++ ['$'])) := by
      cases v with
      | nil => rfl
      | cons c v => exact groupOpen_other _ (by simpa using hq)
    have h4 : ∃ x, Regex.parse (['^'] ++ cs ++ ['$']) = .error x := by
      rw [hcs]
      have h5 := (lexes_bol.append h1) ('(' :: (v ++ ')' :: (rest ++ ['$'])))
      rw [lex_cons h3, lex_append hpar hlex _ (by simp), lex_cons (t := .close) (r' := rest ++ ['$']) rfl] at h5
      simp only [List.cons_append, List.append_assoc, List.nil_append] at h5 ⊢
      unfold Regex.parse
      rw [h5]
      cases hr : lex (rest ++ ['$']) with
      | error x => exact ⟨x, rfl⟩
      | ok us =>
        obtain ⟨f', h6⟩ := h2 false
        obtain ⟨x, h7⟩ := build_stuck ts .start (.capture none) ⟨[], (l.map (elemItems fun p => (f p).2.2)).flatten.reverse ++ [.bol], f'⟩
          us (lex_closed hpar hlex) hbuild
        refine ⟨x, ?_⟩
        have : build [] .start (.bol :: ((l.map (elemToks fun p => (f p).2.1)).flatten ++ (.capture none :: (ts ++ .close :: us)))) =
            .error x := by
          rw [build]
          simp only [Frame.start, Frame.push]
          rw [h6, build]
          exact h7
        simp [prep, this]
    obtain ⟨x, hx⟩ := h4
    exact ⟨.regex x, by simp only [compileRes, hx]⟩

/-- Non-vacuity: `*` after a sound parameter. -/
example : Regex.parse "*".toList = .error .invalid ∧ (∃ ts, lex "*".toList = .ok ts) ∧
    Expression.regexWithParameters (fun _ => none) (hashMapProvider [("a".toList, "*".toList)]) "{int} {a} {word}".toList =
      .err (.regex .invalid) := ⟨rfl, ⟨_, rfl⟩, rfl⟩

/-- C45, a case in which nothing can go wrong: without parentheses in custom regexes, an expression all of whose parameters
are sound is always accepted. -/
theorem C45_plain (src : List Char) (e : Expression) (h : Expression.parse src = .ok e)
    (hs : ∀ p ∈ params e, Sound parseHir U pars p) (hp : ∀ p ∈ params e, ∀ v, pars p.input = some v → '(' ∉ v) :
    ∃ c, Expression.regexWithParameters parseHir pars src = .ok c := by
  have hn : ((params e).map (paramNames parseHir pars)).flatten.Nodup := by
    have hid : ((params e).map Parameter.id).Nodup := ids_nodup h
    have key : ∀ ps : List Parameter, (ps.map Parameter.id).Nodup → (∀ p ∈ ps, p ∈ params e) →
        (ps.map (paramNames parseHir pars)).flatten.Nodup ∧
        ∀ n ∈ (ps.map (paramNames parseHir pars)).flatten, ∃ p ∈ ps, ∃ k, n = groupName p.id k := by
      intro ps
      induction ps with
      | nil => simp
      | cons p ps ih =>
        intro hid hm
        rw [List.map_cons, List.nodup_cons] at hid
        obtain ⟨i1, i2⟩ := ih hid.2 (fun q hq => hm q (by simp [hq]))
        have hpn : (paramNames parseHir pars p).Nodup ∧ ∀ n ∈ paramNames parseHir pars p, ∃ k, n = groupName p.id k := by
          unfold paramNames
          cases hv : pars p.input with
          | none =>
            simp only []
            split
            · refine ⟨?_, by simp; exact ⟨⟨0, rfl⟩, ⟨1, rfl⟩⟩⟩
              refine List.nodup_cons.2 ⟨fun hm => ?_, by simp⟩
              have := (groupName_inj (List.mem_singleton.1 hm)).2
              omega
            · simp
          | some v =>
            have hsv := hs p (hm p (by simp))
            rw [Sound, hv] at hsv
            obtain ⟨r, hr, -⟩ := hsv
            have hpar := hp p (hm p (by simp)) v hv
            have hg : grouped parseHir v = none := by simp [grouped, hpar]
            simp only [hr, hg, Re.names, parse_nogroups hpar hr]
            simp
        rw [List.map_cons, List.flatten_cons]
        refine ⟨List.nodup_append.2 ⟨hpn.1, i1, ?_⟩, ?_⟩
        · intro a ha b hb hab
          obtain ⟨k, hk⟩ := hpn.2 a ha
          obtain ⟨q, hq, j, hj⟩ := i2 b hb
          have := (groupName_inj (hk.symm.trans (hab.trans hj))).1
          exact hid.1 (this ▸ List.mem_map_of_mem hq)
        · intro n hn
          rcases List.mem_append.1 hn with hn | hn
          · exact ⟨p, by simp, hpn.2 n hn⟩
          · obtain ⟨q, hq, j⟩ := i2 n hn; exact ⟨q, by simp [hq], j⟩
    exact (key (params e) hid fun p hp => hp).1
  obtain ⟨c, hc, -⟩ := (C45_language parseHir U pars src e h hs).1 hn
  exact ⟨c, hc⟩

/-- Non-vacuity: a custom parameter without parentheses beside a built-in one; and one with groups. -/
example : ∀ p ∈ params [.parameter ⟨⟨1, 1, "a".toList⟩, 0⟩, .parameter ⟨⟨4, 1, "string".toList⟩, 1⟩],
    Sound (fun _ => none) U (hashMapProvider [("a".toList, "x|y+".toList)]) p := by
  intro p hp
  simp only [params, List.filterMap_cons, List.filterMap_nil, List.mem_cons, List.not_mem_nil, or_false] at hp
  rcases hp with rfl | rfl
  · exact ⟨_, rfl, by decide, by intro h hg; simp [grouped] at hg⟩
  · exact ⟨.string, by decide⟩
example : Understood (fun _ => some (.concat [.literal ['x'], .capture 1 none (.literal ['y'])])) U "x(y)".toList
    (.cat (.lit 'x') (.cap none (.lit 'y'))) :=
  ⟨rfl, by simp, fun h hg => by
    have : h = .concat [.literal ['x'], .capture 1 none (.literal ['y'])] := by
      simp [grouped] at hg; exact hg.1.symm
    subst this
    exact ⟨by simp [Hir.Wf, Hir.WfAll], by decide, .refl _⟩⟩

end CE
