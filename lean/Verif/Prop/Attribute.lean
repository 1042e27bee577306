import Verif.Prop.Translate
import Verif.Spec.Attribute

/-! # C57: captures can be attributed to parameters by the names of the groups -/

namespace CE
open Spec Regex

theorem claimedBy_groupName (i j k : Nat) : claimedBy i (some (groupName j k)) = decide (i = j) := by
  simp only [claimedBy, namePrefix, groupName]
  by_cases h : i = j
  · subst h; simp
  · simp only [h, decide_false, Bool.eq_false_iff, ne_eq, List.isPrefixOf_iff_prefix, List.cons_append, List.nil_append,
      List.append_assoc]
    rintro ⟨t, ht⟩
    simp only [List.cons_append, List.append_assoc, List.nil_append, List.cons.injEq, true_and] at ht
    exact h (decimal_inj (split_at (underscore_decimal i) (underscore_decimal j) ht).1)

/-- The groups of a parameter are one without a name, or some named after it. -/
def Tidy (i : Nat) (gs : List (Option (List Char))) : Prop :=
  gs = [none] ∨ ∃ ks : List Nat, ks ≠ [] ∧ ks.Nodup ∧ gs = ks.map fun k => some (groupName i k)

theorem takeWhile_named (i : Nat) : ∀ (ks : List Nat) (rest : List (Option (List Char))),
    (∀ g, rest.head? = some g → claimedBy i g = false) →
    ((ks.map fun k => some (groupName i k)) ++ rest).takeWhile (claimedBy i) = ks.map fun k => some (groupName i k)
  | [], rest, h => by
    cases rest with
    | nil => rfl
    | cons g gs => simp [h g rfl]
  | k :: ks, rest, h => by
    simp [claimedBy_groupName, takeWhile_named i ks rest h]

theorem owners_named {i : Nat} {is : List Nat} {gs m : List (Option (List Char))} {g : Option (List Char)}
    (h : gs.takeWhile (claimedBy i) = g :: m) :
    owners (i :: is) gs = (owners is (gs.drop (g :: m).length)).map ((g :: m).length :: ·) := by
  rw [owners.eq_def]
  simp only [h]

theorem owners_tidy (labels : Parameter → List (Option (List Char))) : ∀ ps : List Parameter,
    (ps.map Parameter.id).Nodup → (∀ p ∈ ps, Tidy p.id (labels p)) →
    owners (ps.map Parameter.id) (ps.map labels).flatten = some (ps.map fun p => (labels p).length)
  | [], _, _ => rfl
  | p :: ps, hid, ht => by
    rw [List.map_cons, List.nodup_cons] at hid
    have ih := owners_tidy labels ps hid.2 fun q hq => ht q (by simp [hq])
    have hhead : ∀ g, (ps.map labels).flatten.head? = some g → claimedBy p.id g = false := by
      intro g hg
      obtain ⟨l, hl, hgl⟩ := List.mem_flatten.1 (List.mem_of_mem_head? hg)
      obtain ⟨q, hq, rfl⟩ := List.mem_map.1 hl
      rcases ht q (by simp [hq]) with h1 | ⟨ks, -, -, h1⟩
      · rw [h1] at hgl; simp at hgl; subst hgl; rfl
      · rw [h1] at hgl
        obtain ⟨k, -, rfl⟩ := List.mem_map.1 hgl
        rw [claimedBy_groupName]
        simp only [decide_eq_false_iff_not]
        intro he
        exact hid.1 (he ▸ List.mem_map_of_mem hq)
    rcases ht p (by simp) with h1 | ⟨ks, hk, -, h1⟩
    · simp only [List.map_cons, List.flatten_cons, h1, List.cons_append, List.nil_append, owners]
      rw [ih]
      rfl
    · have h2 := takeWhile_named p.id ks _ hhead
      rw [List.map_cons, List.map_cons, List.flatten_cons, h1]
      cases ks with
      | nil => exact absurd rfl hk
      | cons k ks =>
        rw [List.map_cons] at h2 ⊢
        rw [owners_named h2, List.length_cons, ← List.length_cons, ← List.map_cons (f := fun k => some (groupName p.id k)),
          List.drop_left, ih]
        simp [h1]

theorem tidy_nodup (labels : Parameter → List (Option (List Char))) : ∀ ps : List Parameter,
    (ps.map Parameter.id).Nodup → (∀ p ∈ ps, Tidy p.id (labels p)) → ((ps.map fun p => (labels p).filterMap id).flatten).Nodup
  | [], _, _ => by simp
  | p :: ps, hid, ht => by
    rw [List.map_cons, List.nodup_cons] at hid
    have ih := tidy_nodup labels ps hid.2 fun q hq => ht q (by simp [hq])
    rw [List.map_cons, List.flatten_cons, List.nodup_append]
    have hnames : ∀ q : Parameter, Tidy q.id (labels q) → ∀ n ∈ (labels q).filterMap id, ∃ k, n = groupName q.id k := by
      intro q hq n hn
      rcases hq with h1 | ⟨ks, -, -, h1⟩
      · rw [h1] at hn; simp at hn
      · rw [h1] at hn
        simp only [List.mem_filterMap, List.mem_map, id] at hn
        obtain ⟨_, ⟨k, -, rfl⟩, hk⟩ := hn
        cases hk
        exact ⟨k, rfl⟩
    refine ⟨?_, ih, ?_⟩
    · rcases ht p (by simp) with h1 | ⟨ks, -, hn, h1⟩
      · rw [h1]; simp
      · rw [h1, List.filterMap_map]
        have : ((id ∘ fun k => some (groupName p.id k)) : Nat → Option (List Char)) = fun k => some (groupName p.id k) := rfl
        rw [this, List.filterMap_eq_map']
        exact List.pairwise_map.2 (hn.imp fun hne hab => hne (groupName_inj hab).2)
    · rintro n hn m hm rfl
      obtain ⟨k, rfl⟩ := hnames p (ht p (by simp)) n hn
      obtain ⟨l, hl, hm⟩ := List.mem_flatten.1 hm
      obtain ⟨q, hq, rfl⟩ := List.mem_map.1 hl
      obtain ⟨k', hk⟩ := hnames q (ht q (by simp [hq])) _ hm
      exact hid.1 ((groupName_inj hk).1 ▸ List.mem_map_of_mem hq)

variable (T : Tables)

/-- What is known of the groups of a parameter without groups inside repetitions. -/
theorem unrepeated_labels (pars : Provider) (p : Parameter) (hr : RegularParam pars p) (hu : Unrepeated pars p) :
    Tidy p.id (paramLabels (hirOf T) pars p) ∧ (paramLabels (hirOf T) pars p).length = customGroups pars p ∧
    (paramLabels (hirOf T) pars p).filterMap id = customNames pars p := by
  unfold RegularParam at hr
  unfold paramLabels customGroups customNames
  cases hv : pars p.input with
  | none =>
    by_cases hs : p.input.frag = Builtin.string.name
    · simp only [hs, if_true]
      exact ⟨.inr ⟨[0, 1], by simp, by decide, rfl⟩, rfl, rfl⟩
    · simp only [hs, if_false]
      exact ⟨.inl rfl, rfl, rfl⟩
  | some v =>
    rw [hv] at hr
    obtain ⟨a, ha, hr⟩ := hr
    have hm := hu v a hv ha
    have hg := grouped_hirOf T ha hr
    cases ho : a.outerGroup with
    | true =>
      rw [ho, if_pos rfl] at hg
      have hp : a.toRe.groups ≠ [] := fun h => by rw [outer_groupless h] at ho; cases ho
      simp only [parse_re ha, ha, hg, ho, if_true, translate_marked T a 1 (parse_valid ha) (hr hp)]
      have hne : a.marked ≠ [] := by intro h; simp [Ast.outerGroup, h] at ho
      refine ⟨.inr ⟨List.range' 0 a.marked.length, by simpa using hne, List.nodup_range' .., relabel_top p.id 0 _ hm⟩, ?_, trivial⟩
      rw [relabel_top p.id 0 _ hm, List.length_map, List.length_range', marked_groups]
    | false =>
      rw [ho, if_neg (by simp)] at hg
      have he : a.marked = [] := by
        cases hl : a.marked with
        | nil => rfl
        | cons g gs =>
          have := hm g (by simp [hl])
          simp [Ast.outerGroup, hl, this] at ho
      have hgr : a.toRe.groups = [] := by
        have := marked_groups a
        rw [he] at this
        exact List.length_eq_zero_iff.1 this.symm
      simp only [parse_re ha, ha, hg, ho, if_neg (show ¬ false = true by simp), hgr, Re.names]
      exact ⟨.inl rfl, rfl, rfl⟩

/-- C57, in part: if all parameters are built in or have a valid (regular) custom regex without groups inside repetitions,
the regex exists, and its groups, attributed to the parameters by their names, are for each parameter as many as it has;
so that every match splits into one piece per element with captures numbered accordingly. Missing: custom regexes with a
group inside a repetition, for which it is false (`C57_false`), and those excluded by C45. -/
theorem C57_attribution_partial (pars : Provider) (src : List Char) (e : Expression) (h : Expression.parse src = .ok e)
    (hs : ∀ p ∈ params e, RegularParam pars p) (hu : ∀ p ∈ params e, Unrepeated pars p) :
    ∃ c counts, Expression.regexWithParameters (hirOf T) pars src = .ok c ∧
      owners ((params e).map Parameter.id) c.re.groups = some counts ∧
      counts = (params e).map (customGroups pars) ∧
      ∀ (w pre x post : List Char) (l : List Cap), c.re.Finds T.classes w pre x post l ↔
          pre = [] ∧ post = [] ∧ x = w ∧ SplitsWith (customMatch T pars) (customGroups pars) e 1 [] w [] l := by
  have hl := fun p hp => unrepeated_labels T pars p (hs p hp) (hu p hp)
  have hid := ids_nodup h
  have hn := tidy_nodup (paramLabels (hirOf T) pars) (params e) hid fun p hp => (hl p hp).1
  rw [List.map_congr_left fun p hp => (hl p hp).2.2] at hn
  obtain ⟨c, h1, -, -, h2⟩ := (C45_regular_partial T pars src e h hs).1 hn
  have hsound : ∀ p ∈ params e, Sound (hirOf T) T.classes pars p := by
    intro p hp
    have := hs p hp
    unfold RegularParam at this
    unfold Sound
    cases hv : pars p.input with
    | none => rw [hv] at this; exact this
    | some v =>
      rw [hv] at this
      obtain ⟨a, ha, hr⟩ := this
      exact ⟨a.toRe, C45_understood T v a ha hr⟩
  refine ⟨c, _, h1, ?_, rfl, h2⟩
  rw [regex_labels (hirOf T) T.classes pars src e h hsound c h1,
    owners_tidy (paramLabels (hirOf T) pars) (params e) hid fun p hp => (hl p hp).1]
  congr 1
  exact List.map_congr_left fun p hp => (hl p hp).2.1

/-- Each parameter's groups, with their names. -/
theorem labels_exact (pars : Provider) (p : Parameter) (hr : RegularParam pars p) (hu : Unrepeated pars p) :
    paramLabels (hirOf T) pars p = customLabels pars p := by
  unfold RegularParam at hr
  unfold paramLabels customLabels
  cases hv : pars p.input with
  | none => rfl
  | some v =>
    rw [hv] at hr
    obtain ⟨a, ha, hr⟩ := hr
    have hm := hu v a hv ha
    have hg := grouped_hirOf T ha hr
    cases ho : a.outerGroup with
    | true =>
      rw [ho, if_pos rfl] at hg
      have hp : a.toRe.groups ≠ [] := fun h => by rw [outer_groupless h] at ho; cases ho
      simp only [parse_re ha, ha, hg, ho, if_true, translate_marked T a 1 (parse_valid ha) (hr hp)]
      rw [relabel_top p.id 0 _ hm, marked_groups, List.range_eq_range']
    | false =>
      rw [ho, if_neg (by simp)] at hg
      have he : a.marked = [] := by
        cases hl : a.marked with
        | nil => rfl
        | cons g gs =>
          have := hm g (by simp [hl])
          simp [Ast.outerGroup, hl, this] at ho
      have hgr : a.toRe.groups = [] := by
        have := marked_groups a
        rw [he] at this
        exact List.length_eq_zero_iff.1 this.symm
      simp only [parse_re ha, ha, hg, ho, if_neg (show ¬ false = true by simp), hgr]

/-- C57, in part: the groups of the regex are, in order, those of the parameters; those of `string` parameters and of custom
parameters with groups are named after the parameter and numbered from 0, others have no name. Missing: as for
`C57_attribution_partial`. -/
theorem C57_names_partial (pars : Provider) (src : List Char) (e : Expression) (h : Expression.parse src = .ok e)
    (hs : ∀ p ∈ params e, RegularParam pars p) (hu : ∀ p ∈ params e, Unrepeated pars p) (c : Compiled)
    (hc : Expression.regexWithParameters (hirOf T) pars src = .ok c) :
    c.re.groups = ((params e).map (customLabels pars)).flatten := by
  have hsound : ∀ p ∈ params e, Sound (hirOf T) T.classes pars p := by
    intro p hp
    have := hs p hp
    unfold RegularParam at this
    unfold Sound
    cases hv : pars p.input with
    | none => rw [hv] at this; exact this
    | some v =>
      rw [hv] at this
      obtain ⟨a, ha, hr⟩ := this
      exact ⟨a.toRe, C45_understood T v a ha hr⟩
  rw [regex_labels (hirOf T) T.classes pars src e h hsound c hc]
  exact congrArg _ (List.map_congr_left fun p hp => labels_exact T pars p (hs p hp) (hu p hp))

/-- C57 for built-in parameters: no exceptions. -/
theorem C57_builtin (src : List Char) (e : Expression) (h : Expression.parse src = .ok e) (hb : AllBuiltin e) :
    ∃ c, Expression.regex src = .ok c ∧
      owners ((params e).map Parameter.id) c.re.groups =
        some ((params e).map fun p => if p.input.frag = Builtin.string.name then 2 else 1) := by
  obtain ⟨c, hc, -⟩ := C27_captures src e h hb
  refine ⟨c, hc, ?_⟩
  let labels : Parameter → List (Option (List Char)) := fun p => (SingleExpression.parameter p).groups
  have hflat : (e.map SingleExpression.groups).flatten = ((params e).map labels).flatten := by
    clear h hb hc
    induction e with
    | nil => rfl
    | cons x es ih =>
      cases x with
      | parameter p => rw [params_cons_parameter]; simp [ih, labels]
      | _ => rw [params_cons_other (by intro p hp; cases hp)]; simpa [SingleExpression.groups] using ih
  rw [C26_groups src e h hb c hc, hflat, owners_tidy labels (params e) (ids_nodup h)]
  · congr 1
    refine List.map_congr_left fun p _ => ?_
    simp only [labels, SingleExpression.groups]
    split <;> rfl
  · intro p _
    simp only [labels, SingleExpression.groups]
    split
    · exact .inr ⟨[0, 1], by simp, by decide, rfl⟩
    · exact .inl rfl

/-- Non-vacuity: `{x} {int} {string} {x}` with `(a|b)c+(d)` for `x`: its groups are attributed as 2, 1, 2 and 2. -/
example : ∃ e, Expression.parse (chars! "{x} {int} {string} {x}") = .ok e ∧
    (∀ p ∈ params e, RegularParam (hashMapProvider [(chars! "x", chars! "(a|b)c+(d)")]) p ∧
      Unrepeated (hashMapProvider [(chars! "x", chars! "(a|b)c+(d)")]) p) ∧
    (params e).map (customGroups (hashMapProvider [(chars! "x", chars! "(a|b)c+(d)")])) = [2, 1, 2, 2] := by
  refine ⟨_, rfl, ?_, by decide +kernel⟩
  have hparse : Ast.parse (chars! "(a|b)c+(d)") = .ok (.concat [.cap none (.alt [.lit 'a', .lit 'b']), .rep (.lit 'c') 1 none true,
      .cap none (.lit 'd')]) := rfl
  intro p hp
  have : p = ⟨⟨1, 1, ['x']⟩, 0⟩ ∨ p = ⟨⟨5, 1, ['i', 'n', 't']⟩, 1⟩ ∨ p = ⟨⟨11, 1, ['s', 't', 'r', 'i', 'n', 'g']⟩, 2⟩ ∨
      p = ⟨⟨20, 1, ['x']⟩, 3⟩ := by
    revert p; decide
  have hx : ∀ p : Parameter, p.input.frag = ['x'] →
      RegularParam (hashMapProvider [(chars! "x", chars! "(a|b)c+(d)")]) p ∧
      Unrepeated (hashMapProvider [(chars! "x", chars! "(a|b)c+(d)")]) p := by
    intro p hp
    have hv : hashMapProvider [(chars! "x", chars! "(a|b)c+(d)")] p.input = some (chars! "(a|b)c+(d)") := by
      simp [hashMapProvider, hp]
    refine ⟨by rw [RegularParam, hv]; exact ⟨_, hparse, fun _ => by simp [Ast.Regular, Ast.AllRegular, Ast.weightless, Ast.eager]⟩, ?_⟩
    intro v a h1 h2
    rw [hv] at h1
    cases h1
    rw [hparse] at h2
    cases h2
    decide
  rcases this with rfl | rfl | rfl | rfl
  · exact hx _ rfl
  · exact ⟨⟨.int, rfl⟩, fun v a h => by cases h⟩
  · exact ⟨⟨.string, rfl⟩, fun v a h => by cases h⟩
  · exact hx _ rfl

/-- C57 is false: for `{x} {int}` with `(?:(a)b)+` for `x`, the regex has three groups without names, from which the
groups of the two parameters cannot be told; the second, taken for the argument of `{int}`, captures a part of `{x}`. -/
theorem C57_false (hd : T.classes.digit '7') : ∃ (pars : Provider) (e : Expression) (c : Compiled) (l : List Cap),
    Expression.parse (chars! "{x} {int}") = .ok e ∧ (∀ p ∈ params e, RegularParam pars p) ∧
    Expression.regexWithParameters (hirOf T) pars (chars! "{x} {int}") = .ok c ∧ c.re.groups = [none, none, none] ∧
    owners ((params e).map Parameter.id) c.re.groups = none ∧
    c.re.Finds T.classes (chars! "ab 7") [] (chars! "ab 7") [] l ∧
    l = [⟨1, 0, chars! "ab"⟩, ⟨2, 0, chars! "a"⟩, ⟨3, 3, chars! "7"⟩] := by
  let pars := hashMapProvider [(chars! "x", chars! "(?:(a)b)+")]
  let e : Expression := [.parameter ⟨⟨1, 1, ['x']⟩, 0⟩, .whitespaces ⟨3, 1, [' ']⟩, .parameter ⟨⟨5, 1, ['i', 'n', 't']⟩, 1⟩]
  have he : Expression.parse (chars! "{x} {int}") = .ok e := rfl
  have hr : ∀ p ∈ params e, RegularParam pars p := by
    intro p hp
    have : p = ⟨⟨1, 1, ['x']⟩, 0⟩ ∨ p = ⟨⟨5, 1, ['i', 'n', 't']⟩, 1⟩ := by
      revert p; decide
    rcases this with rfl | rfl
    · exact ⟨.rep (.group (.concat [.cap none (.lit 'a'), .lit 'b'])) 1 none true, rfl,
        fun _ => by simp [Ast.Regular, Ast.AllRegular, Ast.weightless, Ast.allWeightless, Ast.eager, Ast.eagerOne, Ast.void]⟩
    · exact ⟨.int, rfl⟩
  obtain ⟨c, h1, h2, h3, h4⟩ := (C45_regular_partial T pars _ e he hr).1 (by decide +kernel)
  have hg : c.re.groups = [none, none, none] := by
    have : ∃ c', Expression.regexWithParameters (hirOf T) pars (chars! "{x} {int}") = .ok c' ∧ c'.re.groups = [none, none, none] :=
      ⟨_, rfl, rfl⟩
    obtain ⟨c', h5, h6⟩ := this
    rw [h1] at h5
    cases h5
    exact h6
  refine ⟨pars, e, c, _, he, hr, h1, hg, by rw [hg]; rfl, (h4 ..).2 ⟨rfl, rfl, rfl, ?_⟩, rfl⟩
  refine .cons (.parameter ⟨⟨1, 1, ['x']⟩, 0⟩) _ 1 [] (chars! "ab") (chars! " 7") [] [⟨1, 0, chars! "ab"⟩, ⟨2, 0, chars! "a"⟩]
    [⟨3, 3, chars! "7"⟩] ?_ ?_
  · refine ⟨.rep (.group (.concat [.cap none (.lit 'a'), .lit 'b'])) 1 none true, rfl, [⟨2, 0, ['a']⟩], ?_, rfl⟩
    refine .more 1 none [] ['a', 'b'] [] _ [⟨2, 0, ['a']⟩] [] (by simp) ?_ (.done ..)
    exact ⟨['a'], ['b'], [⟨2, 0, ['a']⟩], [], rfl, rfl, ⟨[], ⟨rfl, rfl⟩, rfl⟩, rfl, rfl⟩
  · refine .cons (.whitespaces ⟨3, 1, [' ']⟩) _ 3 _ [' '] ['7'] [] [] _ ⟨rfl, rfl⟩ ?_
    refine .cons (.parameter ⟨⟨5, 1, ['i', 'n', 't']⟩, 1⟩) [] 3 _ ['7'] [] [] [⟨3, 3, ['7']⟩] [] ?_ (.nil ..)
    exact ⟨.int, rfl, ⟨['7'], ⟨by simp, by simpa [Digits0] using hd⟩, .inl rfl⟩, rfl⟩

end CE
