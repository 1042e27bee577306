import Verif.Proof.CustomExpr

/-!
# The match that is returned for an expression with custom parameters: C72

As C46, for the HIR. A custom regex has by itself an order in which it tries its matches. The crate renames its groups in its HIR,
prints the HIR, and the text is parsed and translated again as part of the regex of the expression: the order survives this.
`T` are any tables for `\d`, `\s`, `\w`.
-/

namespace CE
open Spec Regex Hir

variable (T : Tables)

/-- What the HIR finds is the first of the ways in which the expression matches the text. -/
def ReturnsFirst (pars : Provider) (e : Expression) (hir : Hir) : Prop :=
  ∀ w : List Char, (hir.find w = none ↔ ¬ ∃ ws l, FitsC T pars e 1 [] ws [] l ∧ Way.text ws = w) ∧
    ∀ i x l, hir.find w = some (i, x, l) → i = 0 ∧ x = w ∧ ∃ ws, Way.text ws = w ∧ FitsC T pars e 1 [] ws [] l ∧
      ∀ vs m, FitsC T pars e 1 [] vs [] m → Way.text vs = w → vs = ws ∧ m = l ∨ PreferredC T pars e [] w ws vs

/-- C72: if the custom regexes are regular in the sense of C45 and, where they have a group outside repetitions, have no lazy exact
count, then the HIR of the whole regex finds nothing exactly if the expression matches the text in no way; otherwise the match
covers the whole text, and its choices (for a custom parameter, which match of its regex) are tried before those of any other way. -/
theorem C72_order (pars : Provider) (hs : SaneDigits T.classes) (src : List Char) (e : Expression) (h : Expression.parse src = .ok e)
    (hp : ∀ p ∈ params e, RegularParam pars p ∧ SteadyParam pars p) (hn : ((params e).map (customNames pars)).flatten.Nodup) :
    ∃ c, Expression.regexWithParameters (hirOf T) pars src = .ok c ∧ ∃ hir, hirOf T c.pattern = some hir ∧ ReturnsFirst T pars e hir := by
  obtain ⟨c, hc, -⟩ := (C45_regular_partial T pars src e h fun p hq => (hp p hq).1).1 hn
  refine ⟨c, hc, (translate T (exprAst (custAst T pars) e) 1).1, ?_, fun w => ?_⟩
  · have : ∀ p, ∃ z : List Char × List Tok, p ∈ params e →
        customRes (hirOf T) pars p = .ok z.1 ∧ Lexes z.1 z.2 ∧ AReadsAs z.2 [custAst T pars p] := by
      intro p
      by_cases hq : p ∈ params e
      · obtain ⟨cs, ts, h1, h2, h3⟩ := expansion_ast T pars p (hp p hq)
        exact ⟨(cs, ts), fun _ => ⟨h1, h2, h3⟩⟩
      · exact ⟨([], []), fun h => absurd h hq⟩
    obtain ⟨z, hz⟩ := Classical.axiomOfChoice this
    rw [regexWith_eq (hirOf T) pars h, seqPat_ok (pp := fun p => (z p).1) fun p hq => (hz p hq).1, compileRes] at hc
    split at hc
    · cases hc
    · rename_i r hr
      cases hc
      exact hirOf_ok T (ast_pattern (tp := fun p => (z p).2) (parse_nonemptyAlts h) (fun p hq => (hz p hq).2) hr)
  rw [hirFind_exprC T pars e (parse_good h) hp]
  have hall : ∀ vs m, FitsC T pars e 1 [] vs [] m → vs.text = w → (vs, w, m) ∈ seqTriesC T pars e 1 [] w := fun vs m hd ht =>
    (mem_seqTriesC T pars e hp _ _ _ _ _ _).2 ⟨ht.symm, [], by simp, hd⟩
  have whole : ∀ vs x m, (vs, x, m) ∈ seqTriesC T pars e 1 [] w → (w.drop x.length).isEmpty = true →
      x = w ∧ Way.text vs = w ∧ FitsC T pars e 1 [] vs [] m := by
    rintro vs x m hm he
    obtain ⟨rfl, post, h2, h3⟩ := (mem_seqTriesC T pars e hp _ _ _ _ _ _).1 hm
    have : post = [] := by simpa [h2] using he
    subst this
    rw [List.append_nil] at h2
    exact ⟨h2.symm, h2.symm, h3⟩
  constructor
  · rw [Option.map_eq_none_iff, List.find?_eq_none]
    constructor
    · rintro hn ⟨ws, l, h1, h2⟩
      exact hn _ (hall ws l h1 h2) (by simp)
    · rintro hn ⟨ws, x, l⟩ ha hx
      obtain ⟨-, h1, h2⟩ := whole _ _ _ ha hx
      exact hn ⟨ws, l, h2, h1⟩
  · intro i x l hf
    obtain ⟨⟨ws, y, m⟩, hf', heq⟩ := Option.map_eq_some_iff.1 hf
    clear hf
    simp only [Prod.mk.injEq] at heq
    obtain ⟨rfl, rfl, rfl⟩ := heq
    have hx := List.find?_some hf'
    obtain ⟨rfl, h2, h3⟩ := whole _ _ _ (List.mem_of_find?_eq_some hf') hx
    refine ⟨rfl, rfl, ws, h2, h3, fun vs m' hd ht => ?_⟩
    rcases sorts_seqC T pars hs e (parse_good h) hp 1 [] y _ _ hf' _ (hall vs m' hd ht) (by simp) with he | hq
    · simp only [Prod.mk.injEq] at he; exact .inl ⟨he.1, he.2.2⟩
    · exact .inr hq

/-! ## The order is one -/

theorem comesFirst_asymm {L : List Try} {a b : Try} (h : ComesFirst L a b) : ¬ ComesFirst L b a := by
  rintro ⟨-, l', r', h', ha⟩
  obtain ⟨hne, l, r, rfl, hb⟩ := h
  rcases List.append_eq_append_iff.1 h' with ⟨m, rfl, h2⟩ | ⟨m, rfl, h2⟩
  · cases m with
    | nil => rw [List.nil_append, List.cons.injEq] at h2; exact hne h2.1
    | cons x m => rw [List.cons_append, List.cons.injEq] at h2; exact ha (by simp [h2.1])
  · cases m with
    | nil => rw [List.nil_append, List.cons.injEq] at h2; exact hne h2.1.symm
    | cons x m => rw [List.cons_append, List.cons.injEq] at h2; exact hb (by simp [h2.1])

theorem firstIn_asymm {pars : Provider} (hs : SaneDigits T.classes) {e : SingleExpression} {pre rest : List Char} {c d : CustomChoice}
    (h : e.FirstIn T pars pre rest c d) : ¬ e.FirstIn T pars pre rest d c := by
  cases c <;> cases d
  · rename_i c d
    have h1 : e.TriedBefore T.classes c d := by cases e <;> exact h
    intro h'
    have h2 : e.TriedBefore T.classes d c := by cases e <;> exact h'
    exact triedBefore_asymm hs h1 h2
  · cases e <;> exact h.elim
  · cases e <;> exact h.elim
  · cases e with
    | parameter p =>
      obtain ⟨v, k, h1, h2, h3⟩ := h
      rintro ⟨v', k', h1', h2', h3'⟩
      rw [h1] at h1'; cases h1'
      rw [h2] at h2'; cases h2'
      exact comesFirst_asymm h3 h3'
    | _ => exact h.elim

/-- C72: two different ways of matching are never tried before each other. -/
theorem C72_asymm (pars : Provider) (hs : SaneDigits T.classes) (e : Expression) (pre rest : List Char) (ws vs : Way)
    (h : PreferredC T pars e pre rest ws vs) : ¬ PreferredC T pars e pre rest vs ws ∧ ws ≠ vs := by
  have asymm : ∀ {e pre rest ws vs}, PreferredC T pars e pre rest ws vs → ¬ PreferredC T pars e pre rest vs ws := by
    intro e pre rest ws vs h
    induction h with
    | here e es pre rest c d x y ws vs h =>
      intro h'
      cases h' with
      | here _ _ _ _ _ _ _ _ _ _ h' => exact firstIn_asymm T hs h h'
      | there => exact firstIn_asymm T hs h h
    | there e es pre rest c x ws vs _ ih =>
      intro h'
      cases h' with
      | here _ _ _ _ _ _ _ _ _ _ h' => exact firstIn_asymm T hs h' h'
      | there _ _ _ _ _ _ _ _ h' => exact ih h'
  exact ⟨asymm h, fun he => asymm (he ▸ h) (he ▸ h)⟩

/-! ## The printed regex -/

/-- C72: renaming the groups of a regular custom regex without lazy exact counts does not change what it tries in which order, and
the result survives being printed and parsed again. -/
theorem C72_reprinted (v : List Char) (a : Ast) (h : Ast.parse v = .ok a) (hr : a.Regular) (hst : a.Steady) (id : Nat)
    (hn : ((relabel id 0 a.marked).filterMap _root_.id).Nodup) :
    ∃ k, hirOf T v = some k ∧ hirOf T (k.renameCaptureGroups id).print = some (k.renameCaptureGroups id) ∧
      ∀ pre rest, (k.renameCaptureGroups id).tries pre rest = k.tries pre rest := by
  have ok := translate_ok T a 1 (parse_valid h) hr
  have hi : (translate T a 1).1.indices.Nodup := by rw [ok.indices]; exact List.nodup_range' ..
  suffices hirOf T ((translate T a 1).1.renameCaptureGroups id).print = some ((translate T a 1).1.renameCaptureGroups id) from
    ⟨_, hirOf_ok T h, this, tries_of_nameless (rename_normal id _ 0 (translate_normal T a 1 (parse_valid h) hst) hi).2⟩
  obtain ⟨k, hk, -, -, -, hp⟩ := C32_regular_partial T v a h hr id
  rw [hirOf_ok T h] at hk
  cases hk
  obtain ⟨k1, -⟩ := Hir.rename_ok id _ 0 ok.wf hi
  obtain ⟨r1, r2⟩ := rename_normal id _ 0 (translate_normal T a 1 (parse_valid h) hst) hi
  have e0 : (renameGroupsInner id (translate T a 1).1 0).1 = (translate T a 1).1.renameCaptureGroups id := rfl
  rw [e0] at k1 r1 r2
  have hidx : ((translate T a 1).1.renameCaptureGroups id).indices = List.range' 1 a.toRe.groups.length := by
    rw [← indices_nameless, r2, indices_nameless, ok.indices]
  obtain ⟨b, hb, -⟩ := ast_of_parse (hp hn)
  obtain ⟨ts, hl, hbu⟩ := parse_parts hb
  have q1 := (good _ k1).1.lex
  rw [hl] at q1
  cases q1
  obtain ⟨f, q2⟩ := (agood _ k1).1 false
  have q2 := q2 [] [] [] []
  simp only [List.append_nil] at q2
  have hbu' : buildA [] ⟨[], [], false⟩ (hirToks ((translate T a 1).1.renameCaptureGroups id)) = .ok b := hbu
  rw [q2] at hbu'
  have : b = astOf ((translate T a 1).1.renameCaptureGroups id) := by
    cases hbu'
    simp [AFrame.finish, altA, catA]
  subst this
  rw [hirOf_ok T hb, translate_astOf T _ 1 r1 (by rw [hidx]; simp)]

/-! ## Examples -/

/-- C72: with a lazy exact count it is false. `(?:a|ab){2}?(c?)|(?:a|ab){2}(bc?)` by itself prefers, on `aabc`, its first branch,
where the first group takes `c`. Its groups are renamed, and the printer drops the `?` after the count: now both branches begin
with the same repetition, which the translation of the printed regex puts before the alternation; the second group takes `bc`. -/
theorem C72_false : ∃ (pars : Provider) (src : List Char) (e : Expression) (c : Compiled) (hir : Hir),
    Expression.parse src = .ok e ∧ (∀ p ∈ params e, RegularParam pars p) ∧ ((params e).map (customNames pars)).flatten.Nodup ∧
      Expression.regexWithParameters (hirOf asciiTables) pars src = .ok c ∧ hirOf asciiTables c.pattern = some hir ∧
      ¬ ReturnsFirst asciiTables pars e hir := by
  let v := chars! "(?:a|ab){2}?(c?)|(?:a|ab){2}(bc?)"
  let a : Ast := .alt [.concat [.rep (.group (.alt [.lit 'a', .concat [.lit 'a', .lit 'b']])) 2 (some 2) false,
    .cap none (.rep (.lit 'c') 0 (some 1) true)], .concat [.rep (.group (.alt [.lit 'a', .concat [.lit 'a', .lit 'b']])) 2 (some 2) true,
    .cap none (.concat [.lit 'b', .rep (.lit 'c') 0 (some 1) true])]]
  have ha : Ast.parse v = .ok a := rfl
  obtain ⟨k, hk, ht⟩ : ∃ k, hirOf asciiTables v = some k ∧ k.tries [] (chars! "aabc") =
      [(chars! "aa", [⟨1, 2, []⟩])] ++ (chars! "aabc", [⟨1, 3, ['c']⟩]) :: [(chars! "aab", [⟨1, 3, []⟩]),
        (chars! "aabc", [⟨2, 2, ['b', 'c']⟩]), (chars! "aab", [⟨2, 2, ['b']⟩])] := ⟨_, rfl, by decide +kernel⟩
  refine ⟨hashMapProvider [(['p'], v)], chars! "{p}", [.parameter ⟨⟨1, 1, ['p']⟩, 0⟩], _, _, rfl, ?_, ?_, rfl, rfl, ?_⟩
  · intro p hp
    have hp : p ∈ [(⟨⟨1, 1, ['p']⟩, 0⟩ : Parameter)] := hp
    rw [List.mem_singleton.1 hp]
    exact ⟨a, ha, fun _ => by simp [a, Ast.Regular, Ast.AllRegular, Ast.toRe, Ast.toRes, Re.groups, altL, catL, Ast.eager]⟩
  · decide +kernel
  · intro h
    obtain ⟨-, -, ws, h1, h2, h3⟩ := (h (chars! "aabc")).2 0 (chars! "aabc") [⟨2, 2, chars! "bc"⟩] (by decide +kernel)
    have hv : (hashMapProvider [(['p'], v)]) (⟨1, 1, ['p']⟩ : Span) = some v := rfl
    have fit : FitsC asciiTables (hashMapProvider [(['p'], v)]) [.parameter ⟨⟨1, 1, ['p']⟩, 0⟩] 1 []
        [(.own (chars! "aabc", [⟨1, 3, ['c']⟩]), chars! "aabc")] [] ([⟨1, 3, ['c']⟩] ++ []) :=
      .cons _ _ _ _ _ _ _ _ _ _ ⟨v, a, k, hv, ha, hk, by
        have : k.tries [] (chars! "aabc" ++ (Way.text [] ++ [])) = _ := ht
        rw [this]; decide, rfl, rfl⟩ (.nil _ _ _)
    rcases h3 _ _ fit rfl with ⟨-, hm⟩ | hp
    · exact absurd hm (by decide)
    generalize hl : ([⟨2, 2, chars! "bc"⟩] : List Cap) = l at h2
    cases h2 with
    | cons _ _ _ _ c x ws _ k1 l1 e1 e2 =>
      cases e2
      have hx : x = chars! "aabc" := by simpa [Way.text] using h1
      subst hx
      cases hp with
      | there _ _ _ _ _ _ _ _ hp => cases hp
      | here _ _ _ _ _ _ _ _ _ _ hp =>
        cases c with
        | known => exact hp.elim
        | own b =>
          obtain ⟨v', a', k', q1, q2, q3, q4, q5, q6⟩ := e1
          rw [hv] at q1; cases q1
          rw [ha] at q2; cases q2
          rw [hk] at q3; cases q3
          obtain ⟨b1, b2⟩ := b
          simp only at q5 q6
          subst q5
          have ho : a.outerGroup = true := rfl
          rw [List.append_nil, q6, ownCaptures, if_pos ho] at hl
          have hb2 : b2 = [⟨2, 2, chars! "bc"⟩] := by
            cases b2 with
            | nil => simp [later] at hl
            | cons y b2 =>
              obtain ⟨y1, y2, y3⟩ := y
              cases b2 <;> simp [later] at hl
              obtain ⟨rfl, rfl, rfl⟩ := hl
              rfl
          subst hb2
          obtain ⟨v', k', q1, q2, hp⟩ := hp
          rw [hv] at q1; cases q1
          rw [hk] at q2; cases q2
          rw [ht] at hp
          exact comesFirst_asymm hp ⟨by decide, _, _, rfl, by decide⟩

/-- Non-vacuity of C72: with `(ab|a)(c|bcd)?` for `p`, the hypotheses hold for `{p}{word}`; on `abcde` the custom regex first
tries `abc`, which is returned, although it could also be `a`, `ab` or `abcd`. -/
example : ∃ e c hir, Expression.parse (chars! "{p}{word}") = .ok e ∧
    (∀ p ∈ params e, RegularParam (hashMapProvider [(chars! "p", chars! "(ab|a)(c|bcd)?")]) p ∧
      SteadyParam (hashMapProvider [(chars! "p", chars! "(ab|a)(c|bcd)?")]) p) ∧
    ((params e).map (customNames (hashMapProvider [(chars! "p", chars! "(ab|a)(c|bcd)?")]))).flatten = [groupName 0 0] ∧
    Expression.regexWithParameters (hirOf asciiTables) (hashMapProvider [(chars! "p", chars! "(ab|a)(c|bcd)?")])
      (chars! "{p}{word}") = .ok c ∧ hirOf asciiTables c.pattern = some hir ∧
    hir.find (chars! "abcde") = some (0, chars! "abcde", [⟨1, 0, chars! "ab"⟩, ⟨2, 2, chars! "c"⟩, ⟨3, 3, chars! "de"⟩]) := by
  refine ⟨_, _, _, rfl, ?_, by decide +kernel, rfl, rfl, by decide +kernel⟩
  intro p hp
  have : p = ⟨⟨1, 1, ['p']⟩, 0⟩ ∨ p = ⟨⟨4, 1, ['w', 'o', 'r', 'd']⟩, 1⟩ := by
    revert p; decide
  let a : Ast := .concat [.cap none (.alt [.concat [.lit 'a', .lit 'b'], .lit 'a']),
    .rep (.cap none (.alt [.lit 'c', .concat [.lit 'b', .lit 'c', .lit 'd']])) 0 (some 1) true]
  have ha : Ast.parse (chars! "(ab|a)(c|bcd)?") = .ok a := rfl
  rcases this with rfl | rfl
  · refine ⟨⟨a, ha, fun _ => by simp [a, Ast.Regular, Ast.AllRegular, Ast.eager]⟩, fun v b hv hb _ => ?_⟩
    have hv : some (chars! "(ab|a)(c|bcd)?") = some v := hv
    cases hv
    rw [ha] at hb
    cases hb
    simp [a, Ast.Steady, Ast.AllSteady]
  · exact ⟨⟨.word, rfl⟩, fun v b hv _ _ => by cases hv⟩

/-- Non-vacuity of `C72_reprinted`: a regex with repetitions of both kinds, a class, and alternatives with a common beginning. -/
example : ∃ a, Ast.parse (chars! "(?P<x>a|ab){2,3}?|a([^\\d]*)c{2}") = .ok a ∧ a.Regular ∧ a.Steady ∧
    ((relabel 7 0 a.marked).filterMap _root_.id).Nodup := by
  refine ⟨.alt [.rep (.cap (some ['x']) (.alt [.lit 'a', .concat [.lit 'a', .lit 'b']])) 2 (some 3) false,
    .concat [.lit 'a', .cap none (.rep (.cls ⟨true, [.perl false .digit]⟩) 0 none true), .rep (.lit 'c') 2 (some 2) true]],
    rfl, ?_, ?_, by decide +kernel⟩
  · simp [Ast.Regular, Ast.AllRegular, Ast.toRe, Re.groups, Ast.eager, Ast.weightless, Ast.allWeightless]
  · simp [Ast.Steady, Ast.AllSteady]

end CE
