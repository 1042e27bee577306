import Verif.Prop.CustomLang
import Verif.Spec.CustomRegular
import Verif.Proof.Dropped
import Verif.Model.Display

/-!
# Custom parameters, with the parser and the translator of `regex_syntax`: C32, C45
-/

namespace CE
open Spec Regex

variable (T : Tables)

theorem hirOf_ok {v : List Char} {a : Ast} (h : Ast.parse v = .ok a) : hirOf T v = some (translate T a 1).1 := by
  simp [hirOf, h]

theorem parse_re {v : List Char} {a : Ast} (h : Ast.parse v = .ok a) : Regex.parse v = .ok a.toRe := by
  rw [parse_toRe, h]; rfl

mutual
theorem marked_groups : ∀ a : Ast, a.marked.length = a.toRe.groups.length
  | .empty => rfl
  | .lit _ => rfl
  | .dot => rfl
  | .cls _ => rfl
  | .bol => rfl
  | .eol => rfl
  | .mark _ => rfl
  | .cap n a => by simp [Ast.marked, Ast.toRe, Re.groups, marked_groups a]
  | .group a => marked_groups a
  | .concat as => by rw [Ast.marked, Ast.toRe, groups_catL]; exact allMarked_groups as
  | .alt as => by rw [Ast.marked, Ast.toRe, groups_altL]; exact allMarked_groups as
  | .rep a m n g => by
    rw [Ast.marked]
    split
    · exact marked_groups a
    · simp [Ast.toRe, Re.groups]
theorem allMarked_groups : ∀ as : List Ast, (Ast.allMarked as).length = ((Ast.toRes as).map Re.groups).flatten.length
  | [] => rfl
  | a :: as => by
    simp only [Ast.allMarked, Ast.toRes, List.length_append, List.map_cons, List.flatten_cons, marked_groups a, allMarked_groups as]
end

theorem outerGroup_paren {v : List Char} {a : Ast} (h : Ast.parse v = .ok a) (hp : '(' ∉ v) : a.outerGroup = false := by
  have := marked_groups a
  rw [parse_nogroups hp (parse_re h)] at this
  rw [Ast.outerGroup, List.eq_nil_of_length_eq_zero this]; rfl

theorem outer_groupless {a : Ast} (h : a.toRe.groups = []) : a.outerGroup = false := by
  have := marked_groups a
  rw [h] at this
  rw [Ast.outerGroup, List.eq_nil_of_length_eq_zero this]; rfl

theorem translate_groupless {a : Ast} (h : a.toRe.groups = []) : (translate T a 1).1.outerGroup = false := by
  have h1 := translate_groups T a 1
  rw [h] at h1
  have h2 := marked_length (translate T a 1).1.toRe
  rw [List.sublist_nil.1 h1] at h2
  rw [Hir.outerGroup, List.eq_nil_of_length_eq_zero h2]; rfl

/-- With the translator of `regex_syntax`, a capture group is found iff there is one outside repetitions. -/
theorem grouped_hirOf {v : List Char} {a : Ast} (h : Ast.parse v = .ok a) (hr : a.toRe.groups ≠ [] → a.Regular) :
    grouped (hirOf T) v = if a.outerGroup then some (translate T a 1).1 else none := by
  unfold grouped
  split
  · rename_i hp
    rw [hirOf_ok T h]
    have : (translate T a 1).1.outerGroup = a.outerGroup := by
      by_cases hg : a.toRe.groups = []
      · rw [outer_groupless hg, translate_groupless T hg]
      · rw [Hir.outerGroup, translate_marked T a 1 (parse_valid h) (hr hg)]; rfl
    simp only [Option.filter_some, this]
  · rename_i hp
    rw [outerGroup_paren h hp]; rfl

/-- C45: valid regular regexes are understood. -/
theorem C45_understood (v : List Char) (a : Ast) (h : Ast.parse v = .ok a) (hr : a.toRe.groups ≠ [] → a.Regular) :
    Understood (hirOf T) T.classes v a.toRe := by
  refine ⟨parse_re h, fun _ => by simp [hirOf_ok T h], fun k hk => ?_⟩
  obtain ⟨-, h2, h3⟩ := (grouped_some _).1 hk
  rw [hirOf_ok T h] at h2
  cases h2
  have ok := translate_ok T a 1 (parse_valid h) (hr fun hg => by rw [translate_groupless T hg] at h3; cases h3)
  exact ⟨ok.wf, by rw [ok.indices]; exact List.nodup_range' .., ok.like⟩

theorem splitsWith_congr {R R' : Parameter → Nat → Matches} {n n' : Parameter → Nat} {e : Expression}
    (h : ∀ p ∈ params e, R p = R' p ∧ n p = n' p) {g : Nat} {pre x post : List Char} {l : List Cap}
    (hs : SplitsWith R n e g pre x post l) : SplitsWith R' n' e g pre x post l := by
  induction hs with
  | nil => exact .nil ..
  | cons e es g pre x y post k l h1 _ ih =>
    have hes : ∀ p ∈ params es, R p = R' p ∧ n p = n' p := fun p hp => h p (by
      rw [mem_params] at hp ⊢; simp [hp])
    have ih := ih hes
    have he : ∀ p, e = .parameter p → R p = R' p ∧ n p = n' p := fun p hp => h p (by rw [mem_params]; simp [hp])
    have h1' : e.PieceWith R' g pre x (y ++ post) k := by
      cases e with
      | parameter p => simp only [SingleExpression.PieceWith] at h1 ⊢; rw [← (he p rfl).1]; exact h1
      | _ => exact h1
    have hg : e.groupCountWith n = e.groupCountWith n' := by
      cases e with
      | parameter p => exact (he p rfl).2
      | _ => rfl
    exact .cons _ _ _ _ _ _ _ _ _ h1' (hg ▸ ih)

theorem regular_sound (pars : Provider) (p : Parameter) (this : RegularParam pars p) : Sound (hirOf T) T.classes pars p := by
  unfold RegularParam at this
  unfold Sound
  cases hv : pars p.input with
  | none => rw [hv] at this; exact this
  | some v =>
    rw [hv] at this
    obtain ⟨a, ha, hr⟩ := this
    exact ⟨a.toRe, C45_understood T v a ha hr⟩

theorem regular_custom (pars : Provider) (p : Parameter) (this : RegularParam pars p) :
    paramMatch (hirOf T) T.classes pars p = customMatch T pars p ∧
    paramGroups (hirOf T) pars p = customGroups pars p ∧ paramNames (hirOf T) pars p = customNames pars p := by
  unfold RegularParam at this
  unfold paramMatch customMatch paramGroups customGroups paramNames customNames
  cases hv : pars p.input with
  | none => exact ⟨rfl, rfl, rfl⟩
  | some v =>
    rw [hv] at this
    obtain ⟨a, ha, hr⟩ := this
    have hg := grouped_hirOf T ha hr
    cases ho : a.outerGroup with
    | true =>
      rw [ho, if_pos rfl] at hg
      refine ⟨?_, ?_, ?_⟩
      · funext g pre x post l
        simp only [parse_re ha, ha, hg, Except.ok.injEq, exists_eq_left', ho, if_true]
      · simp only [parse_re ha, ha, hg, ho, if_true]
      · have hp : a.toRe.groups ≠ [] := fun h => by rw [outer_groupless h] at ho; cases ho
        simp only [parse_re ha, ha, hg, ho, if_true, translate_marked T a 1 (parse_valid ha) (hr hp)]
    | false =>
      rw [ho, if_neg (by simp)] at hg
      refine ⟨?_, ?_, ?_⟩
      · funext g pre x post l
        simp only [parse_re ha, ha, hg, Except.ok.injEq, exists_eq_left', ho, if_neg (show ¬ false = true by simp)]
      · simp only [parse_re ha, ha, hg, ho, if_neg (show ¬ false = true by simp)]
      · simp only [parse_re ha, ha, hg, ho, if_neg (show ¬ false = true by simp)]

/-- C45, with the parser and translator of `regex_syntax`: if all custom regexes are valid, and regular where they have a
capture group, the regex of the expression matches exactly the subjects that split into pieces, one per element, where
each custom parameter matches and captures what its own regex does; it is refused only if two groups have the same
name. Missing: regexes with a capture group that are not regular, for which it is false (`C45_false`). -/
theorem C45_regular_partial (pars : Provider) (src : List Char) (e : Expression) (h : Expression.parse src = .ok e)
    (hs : ∀ p ∈ params e, RegularParam pars p) :
    (((params e).map (customNames pars)).flatten.Nodup →
      ∃ c, Expression.regexWithParameters (hirOf T) pars src = .ok c ∧
        c.re.groups.length = ((params e).map (customGroups pars)).sum ∧
        c.re.names = ((params e).map (customNames pars)).flatten ∧
        ∀ (w pre x post : List Char) (l : List Cap), c.re.Finds T.classes w pre x post l ↔
          pre = [] ∧ post = [] ∧ x = w ∧ SplitsWith (customMatch T pars) (customGroups pars) e 1 [] w [] l) ∧
    (¬ ((params e).map (customNames pars)).flatten.Nodup →
      Expression.regexWithParameters (hirOf T) pars src = .err (.regex .invalid)) := by
  have hsound : ∀ p ∈ params e, Sound (hirOf T) T.classes pars p := fun p hp => regular_sound T pars p (hs p hp)
  have same : ∀ p ∈ params e, paramMatch (hirOf T) T.classes pars p = customMatch T pars p ∧
      paramGroups (hirOf T) pars p = customGroups pars p ∧ paramNames (hirOf T) pars p = customNames pars p :=
    fun p hp => regular_custom T pars p (hs p hp)
  obtain ⟨c1, c2⟩ := C45_language (hirOf T) T.classes pars src e h hsound
  have e1 : (params e).map (paramNames (hirOf T) pars) = (params e).map (customNames pars) :=
    List.map_congr_left fun p hp => (same p hp).2.2
  have e2 : (params e).map (paramGroups (hirOf T) pars) = (params e).map (customGroups pars) :=
    List.map_congr_left fun p hp => (same p hp).2.1
  rw [e1, e2] at c1
  rw [e1] at c2
  refine ⟨fun hn => ?_, c2⟩
  obtain ⟨c, h1, h2, h3, h4⟩ := c1 hn
  refine ⟨c, h1, h2, h3, fun w pre x post l => (h4 w pre x post l).trans ?_⟩
  constructor
  · rintro ⟨rfl, rfl, rfl, hsp⟩
    exact ⟨rfl, rfl, rfl, splitsWith_congr (fun p hp => ⟨(same p hp).1, (same p hp).2.1⟩) hsp⟩
  · rintro ⟨rfl, rfl, rfl, hsp⟩
    exact ⟨rfl, rfl, rfl, splitsWith_congr (fun p hp => ⟨(same p hp).1.symm, (same p hp).2.1.symm⟩) hsp⟩

/-- C32 from the text of the regex on: a regular regex with a group outside repetitions is inserted in a form that matches
and captures the same, its groups named `__id_0`, `__id_1`, … in the order of their opening parentheses. Missing: groups
inside repetitions keep their names. -/
theorem C32_regular_partial (v : List Char) (a : Ast) (h : Ast.parse v = .ok a) (hr : a.Regular) (id : Nat) :
    ∃ k, hirOf T v = some k ∧ k.hasCaptureGroups = a.outerGroup ∧
      LikeIn T.classes (k.renameCaptureGroups id).toRe a.toRe ∧
      (k.renameCaptureGroups id).toRe.groups = relabel id 0 a.marked ∧
      (((relabel id 0 a.marked).filterMap _root_.id).Nodup →
        Regex.parse (k.renameCaptureGroups id).print = .ok (k.renameCaptureGroups id).toRe) := by
  have ok := translate_ok T a 1 (parse_valid h) hr
  have hm := translate_marked T a 1 (parse_valid h) hr
  obtain ⟨r1, r2, r3⟩ := C32_renamed_partial (translate T a 1).1 id ok.wf (by rw [ok.indices]; exact List.nodup_range' ..)
  rw [hm] at r2 r3
  refine ⟨_, hirOf_ok T h, ?_, (r1.at _).trans ok.like, r2, r3⟩
  rw [Hir.hasCaptureGroups_eq, Hir.outerGroup, hm]; rfl

/-! ## Non-vacuity -/

/-- `(a|b)(?:c+){2}(?:d*?)?(?:^|)*[^\s\S]?(?P<n>\d)(?:e){0}` is regular: repetitions of repetitions, of the empty text,
of a class without characters, and zero times. -/
example : ∃ a, Ast.parse (chars! "(a|b)(?:c+){2}(?:d*?)?(?:^|)*[^\\s\\S]?(?P<n>\\d)(?:e){0}") = .ok a ∧ a.Regular ∧
    a.marked = [(none, false), (some ['n'], false)] ∧ relabel 7 0 a.marked = [some (groupName 7 0), some (groupName 7 1)] := by
  refine ⟨.concat [.cap none (.alt [.lit 'a', .lit 'b']), .rep (.group (.rep (.lit 'c') 1 none true)) 2 (some 2) true,
    .rep (.group (.rep (.lit 'd') 0 none false)) 0 (some 1) true, .rep (.group (.alt [.bol, .empty])) 0 none true,
    .rep (.cls ⟨true, [.perl false .space, .perl true .space]⟩) 0 (some 1) true,
    .cap (some ['n']) (.cls ⟨false, [.perl false .digit]⟩), .rep (.group (.lit 'e')) 0 (some 0) true], rfl, ?_, by decide, by decide⟩
  simp [Ast.Regular, Ast.AllRegular, Ast.toRe, Ast.toRes, Re.groups, altL, Ast.eager, Ast.once, Ast.weightless]

/-- The hypotheses of C45 hold for `{a} {int}`, where `a` is `(x|y)+z`. -/
example : ∃ e, Expression.parse (chars! "{a} {int}") = .ok e ∧
    (∀ p ∈ params e, RegularParam (hashMapProvider [(chars! "a", chars! "(x|y)+z(w)")]) p) ∧
    ((params e).map (customNames (hashMapProvider [(chars! "a", chars! "(x|y)+z(w)")]))).flatten = [groupName 0 0] := by
  refine ⟨_, rfl, ?_, by decide +kernel⟩
  intro p hp
  have : p = ⟨⟨1, 1, ['a']⟩, 0⟩ ∨ p = ⟨⟨5, 1, ['i', 'n', 't']⟩, 1⟩ := by
    revert p; decide
  rcases this with rfl | rfl
  · exact ⟨.concat [.rep (.cap none (.alt [.lit 'x', .lit 'y'])) 1 none true, .lit 'z', .cap none (.lit 'w')], rfl,
      fun _ => by simp [Ast.Regular, Ast.AllRegular, Ast.weightless, Ast.allWeightless, Ast.eager]⟩
  · exact ⟨.int, rfl⟩

/-! ## Nested repetitions -/

/-- The printer puts nothing between a repetition and what is repeated: `(?:b+)?` comes out as `b+?`, which must match
a `b`. The custom regex `(a)(?:b+)?` matches `a`, `{p}` does not. -/
theorem C45_false (U : Classes) :
    ∃ (pars : Provider) (p : Parameter) (v : List Char) (r : Re) (c : Compiled), pars p.input = some v ∧ Regex.parse v = .ok r ∧
      Expression.parse (chars! "{p}") = .ok [.parameter p] ∧
      Expression.regexWithParameters (hirOf T) pars (chars! "{p}") = .ok c ∧
      (∃ l, r.Match U 1 [] ['a'] [] l) ∧ ¬ c.re.IsMatch U ['a'] := by
  refine ⟨hashMapProvider [(chars! "p", chars! "(a)(?:b+)?")], ⟨⟨1, 1, ['p']⟩, 0⟩, chars! "(a)(?:b+)?",
    .cat (.cap none (.lit 'a')) (.rep (.rep (.lit 'b') 1 none true) 0 (some 1) true),
    ⟨chars! "^(?:(?:(?P<__0_0>a)b+?))$",
      .cat .bol (.cat (.cat (.cap (some (chars! "__0_0")) (.lit 'a')) (.rep (.lit 'b') 1 none false)) .eol)⟩,
    rfl, rfl, rfl, rfl, ?_, ?_⟩
  · exact ⟨[⟨1, 0, ['a']⟩], ['a'], [], [⟨1, 0, ['a']⟩], [], rfl, rfl, ⟨[], ⟨rfl, rfl⟩, rfl⟩, .done ..⟩
  · rintro ⟨pre, x, post, l, hw, y, z, k, m, rfl, rfl, h1, y', z', k', m', rfl, rfl, ⟨y2, z2, k2, m2, rfl, rfl, h2, h3⟩, h4⟩
    have : 'b' ∈ z2 := by
      cases h3 with
      | more _ _ _ x _ _ _ _ _ hb => obtain ⟨rfl, -⟩ := hb; simp
    have : 'b' ∈ ['a'] := by rw [hw]; simp [this]
    simp at this

/-- The other two exceptions are needed as well. A group that is repeated zero times is dropped: `(a)(b){0}` has two groups,
`{p}` for it one. A group that matches only the empty text leaves its repetition: `(^)+` has no group outside
repetitions, so that `{p}` for it is to have two (one around the regex), but has one. -/
theorem C45_groups_false :
    (∃ (a : Ast) (c : Compiled), Ast.parse (chars! "(a)(b){0}") = .ok a ∧ a.toRe.groups = [none, none] ∧ a.outerGroup = true ∧
      Expression.regexWithParameters (hirOf T) (hashMapProvider [(chars! "p", chars! "(a)(b){0}")]) (chars! "{p}") = .ok c ∧
      c.re.groups = [some (groupName 0 0)]) ∧
    (∃ (a : Ast) (c : Compiled), Ast.parse (chars! "(^)+") = .ok a ∧ a.toRe.groups = [none] ∧ a.outerGroup = false ∧
      Expression.regexWithParameters (hirOf T) (hashMapProvider [(chars! "p", chars! "(^)+")]) (chars! "{p}") = .ok c ∧
      c.re.groups = [some (groupName 0 0)]) :=
  ⟨⟨.concat [.cap none (.lit 'a'), .rep (.cap none (.lit 'b')) 0 (some 0) true], _, rfl, rfl, rfl, rfl, rfl⟩,
    ⟨.rep (.cap none .bol) 1 none true, _, rfl, rfl, rfl, rfl, rfl⟩⟩

end CE
