import Verif.Prop.Attribute
import Verif.Prop.Algebra
import Verif.Proof.ExprAst
import Verif.Spec.Nested

/-! # C71: an expression as a custom parameter -/

namespace CE
open Spec Regex

/-! ## The pattern without its anchors -/

def bodyAst (e : Expression) : Ast := catA (e.map (elemAsts bAst)).flatten

theorem allRegular_iff : ∀ as : List Ast, Ast.AllRegular as ↔ ∀ a ∈ as, a.Regular
  | [] => by simp [Ast.AllRegular]
  | a :: as => by simp [Ast.AllRegular, allRegular_iff as]

theorem regular_catA {as : List Ast} (h : ∀ a ∈ as, a.Regular) : (catA as).Regular := by
  match as, h with
  | [], _ => trivial
  | [a], h => exact h a (by simp)
  | a :: b :: as, h => exact (allRegular_iff _).2 h

theorem regular_altA {as : List Ast} (h : ∀ a ∈ as, a.Regular) : (altA as).Regular := by
  match as, h with
  | [], _ => trivial
  | [a], h => exact h a (by simp)
  | a :: b :: as, h => exact (allRegular_iff _).2 h

theorem marked_catA (as : List Ast) : (catA as).marked = (as.map Ast.marked).flatten := by
  have key : ∀ as : List Ast, Ast.allMarked as = (as.map Ast.marked).flatten := by
    intro as
    induction as with
    | nil => rfl
    | cons a as ih => rw [Ast.allMarked, ih]; rfl
  match as with
  | [] => rfl
  | [a] => simp [catA]
  | a :: b :: as => exact key _

theorem marked_altA (as : List Ast) : (altA as).marked = (as.map Ast.marked).flatten := by
  have key : ∀ as : List Ast, Ast.allMarked as = (as.map Ast.marked).flatten := by
    intro as
    induction as with
    | nil => rfl
    | cons a as ih => rw [Ast.allMarked, ih]; rfl
  match as with
  | [] => rfl
  | [a] => simp [altA]
  | a :: b :: as => exact key _

theorem eager_lits (u : List Char) : (catA (u.map Ast.lit)).eager = false := by
  match u with
  | [] => rfl
  | [c] => rfl
  | c :: d :: u => rfl

theorem toRe_lits_groups (u : List Char) : (catA (u.map Ast.lit)).toRe.groups = [] := by
  have h := marked_groups (catA (u.map Ast.lit))
  rw [marked_catA] at h
  have : ((u.map Ast.lit).map Ast.marked).flatten = [] := by
    induction u with
    | nil => rfl
    | cons c u ih => simp [Ast.marked]
  rw [this] at h
  exact List.eq_nil_of_length_eq_zero h.symm

theorem regular_lits (u : List Char) : ∀ a ∈ u.map Ast.lit, a.Regular := by
  intro a ha
  obtain ⟨c, -, rfl⟩ := List.mem_map.1 ha
  trivial

theorem marked_lits (u : List Char) : ∀ a ∈ u.map Ast.lit, a.marked = [] := by
  intro a ha
  obtain ⟨c, -, rfl⟩ := List.mem_map.1 ha
  rfl

theorem regular_altAsts (a : Alternative) : ∀ x ∈ altAsts a, x.Regular ∧ x.marked = [] := by
  cases a with
  | text t => exact fun x hx => ⟨regular_lits _ x hx, marked_lits _ x hx⟩
  | optional o =>
    intro x hx
    rw [altAsts, List.mem_singleton] at hx
    subst hx
    refine ⟨⟨regular_catA (regular_lits _), .inl (toRe_lits_groups _), fun h => ?_⟩, ?_⟩
    · have := h.1
      rw [Ast.eager, eager_lits] at this
      cases this
    · rw [Ast.marked, if_neg (by simp), Ast.toRe, toRe_lits_groups]; rfl

theorem flatten_nil {α β : Type} {f : α → List β} {as : List α} (h : ∀ a ∈ as, f a = []) : (as.map f).flatten = [] := by
  rw [List.flatten_eq_nil_iff]
  intro l hl
  obtain ⟨a, ha, rfl⟩ := List.mem_map.1 hl
  exact h a ha

theorem regular_branch (b : SingleAlternation) : (catA (branchAsts b)).Regular ∧ (catA (branchAsts b)).marked = [] := by
  have h : ∀ x ∈ branchAsts b, x.Regular ∧ x.marked = [] := by
    intro x hx
    obtain ⟨l, hl, hx⟩ := List.mem_flatten.1 hx
    obtain ⟨a, -, rfl⟩ := List.mem_map.1 hl
    exact regular_altAsts a x hx
  exact ⟨regular_catA fun x hx => (h x hx).1, by rw [marked_catA]; exact flatten_nil fun x hx => (h x hx).2⟩

theorem regular_builtinAst (b : Builtin) (id : Nat) : (builtinAst b id).Regular := by
  cases b <;>
    simp [builtinAst, intAst, floatAst, wordAst, stringAst, anonAst, quotedAst, notQuoteAst, mantissaAst, exponentAst, astDigits, astDigits0,
      astSign, digitCls, Ast.Regular, Ast.AllRegular, Ast.toRe, Ast.toRes, catL, Re.groups, Ast.eager, Ast.eagerOne, Ast.weightless,
      Ast.allWeightless, Ast.void]

theorem marked_builtinAst (b : Builtin) (id : Nat) : (builtinAst b id).marked =
    if b = .string then [(some (groupName id 0), false), (some (groupName id 1), false)] else [(none, false)] := by
  cases b <;> rfl

theorem regular_elem {e : SingleExpression} (hb : ∀ p, e = .parameter p → IsBuiltin p) :
    (∀ x ∈ elemAsts bAst e, x.Regular) ∧ ((elemAsts bAst e).map Ast.marked).flatten = e.groups.map (·, false) := by
  cases e with
  | text t => exact ⟨regular_lits _, flatten_nil (marked_lits _)⟩
  | whitespaces t => exact ⟨regular_lits _, flatten_nil (marked_lits _)⟩
  | optional o => exact ⟨fun x hx => (regular_altAsts (.optional o) x hx).1, flatten_nil fun x hx => (regular_altAsts (.optional o) x hx).2⟩
  | alternation a =>
    simp only [elemAsts, List.mem_singleton, forall_eq, List.map_cons, List.map_nil, List.flatten_cons, List.flatten_nil, List.append_nil,
      SingleExpression.groups]
    refine ⟨regular_altA fun x hx => ?_, ?_⟩
    · obtain ⟨b, -, rfl⟩ := List.mem_map.1 hx
      exact (regular_branch b).1
    · rw [Ast.marked, marked_altA]
      refine flatten_nil fun x hx => ?_
      obtain ⟨b, -, rfl⟩ := List.mem_map.1 hx
      exact (regular_branch b).2
  | parameter p =>
    obtain ⟨b, h⟩ := hb p rfl
    simp only [elemAsts, List.mem_singleton, forall_eq, List.map_cons, List.map_nil, List.flatten_cons, List.flatten_nil, List.append_nil,
      bAst_named h, SingleExpression.groups]
    refine ⟨regular_builtinAst b p.id, ?_⟩
    rw [marked_builtinAst]
    by_cases hs : b = .string
    · rw [if_pos hs, if_pos (by rw [h, hs])]; rfl
    · rw [if_neg hs, if_neg (fun hn => hs (name_inj (h.symm.trans hn)))]; rfl

theorem regular_body {e : Expression} (hb : ∀ p ∈ params e, IsBuiltin p) :
    (bodyAst e).Regular ∧ (bodyAst e).marked = (e.map SingleExpression.groups).flatten.map (·, false) := by
  have h : ∀ x ∈ e, _ := fun x hx => regular_elem (e := x) fun p hp => hb p (mem_params.2 (hp ▸ hx))
  constructor
  · refine regular_catA fun a ha => ?_
    obtain ⟨l, hl, ha⟩ := List.mem_flatten.1 ha
    obtain ⟨x, hx, rfl⟩ := List.mem_map.1 hl
    exact (h x hx).1 a ha
  · rw [bodyAst, marked_catA]
    clear hb
    induction e with
    | nil => rfl
    | cons x e ih =>
      simp only [List.map_cons, List.flatten_cons, List.map_append, List.flatten_append]
      rw [(h x (by simp)).2, ih fun y hy => h y (by simp [hy])]

def bodyRe (e : Expression) : Re := catL (e.map (elemItems bRe)).flatten

theorem groups_body (e : Expression) : (bodyRe e).groups = (exprRe bRe e).groups := by
  rw [bodyRe, exprRe, groups_catL, groups_catL]
  simp [Re.groups]

theorem parse_body {e : Expression} (hne : NonemptyAlts e) (hid : ((params e).map Parameter.id).Nodup)
    (hb : ∀ p ∈ params e, IsBuiltin p) :
    Ast.parse (exprPat bPat e) = .ok (bodyAst e) ∧ (bodyAst e).toRe = bodyRe e := by
  have h : ∀ p ∈ params e, Lexes (bPat p) (bToks p) ∧ ReadsAs (bToks p) [bRe p] ∧ AReadsAs (bToks p) [bAst p] := by
    intro p hp
    obtain ⟨b, h⟩ := hb p hp
    rw [bAst_named h]
    simp only [bPat, bToks, bRe, builtinNamed_some.2 h]
    exact ⟨lexes_builtin b p.id, reads_builtin b p.id, areads_builtin b p.id⟩
  have h1 : Lexes (exprPat bPat e) (e.map (elemToks bToks)).flatten := Lexes.flatten e fun x hx => lexes_elem x fun p hp =>
    (h p (mem_params.2 (hp ▸ hx))).1
  have h2 : ReadsAs (e.map (elemToks bToks)).flatten (e.map (elemItems bRe)).flatten := ReadsAs.flatten e fun x hx =>
    reads_elem x (fun hx' => hne (hx' ▸ hx)) fun p hp => (h p (mem_params.2 (hp ▸ hx))).2.1
  have h3 : AReadsAs (e.map (elemToks bToks)).flatten (e.map (elemAsts bAst)).flatten := AReadsAs.flatten e fun x hx =>
    areads_elem x (fun hx' => hne (hx' ▸ hx)) fun p hp => (h p (mem_params.2 (hp ▸ hx))).2.2
  have h4 := h1.lex
  have r1 : Regex.parse (exprPat bPat e) = .ok (bodyRe e) := by
    obtain ⟨f, h5⟩ := h2 false
    have h6 := h5 [] [] [] []
    simp only [List.append_nil] at h6
    have h7 : build [] .start (e.map (elemToks bToks)).flatten = .ok (bodyRe e) := by
      rw [Frame.start, h6]
      simp [build, Frame.finish, altL, bodyRe]
    have hn : (bodyRe e).names.Nodup := by
      rw [Re.names, groups_body]
      exact bRe_nodup hid hb
    simp only [Regex.parse, h4, h7, if_pos hn]
  have r2 : Ast.parse (exprPat bPat e) = .ok (bodyAst e) := by
    obtain ⟨a, ha, -⟩ := ast_of_parse r1
    obtain ⟨f, h5⟩ := h3 false
    have h6 := h5 [] [] [] []
    simp only [List.append_nil] at h6
    have h7 : buildA [] .start (e.map (elemToks bToks)).flatten = .ok (bodyAst e) := by
      rw [AFrame.start, h6]
      simp [buildA, AFrame.finish, altA, bodyAst]
    rw [ha]
    simp only [Ast.parse, h4, h7] at ha
    split at ha
    · cases ha; rfl
    · cases ha
  refine ⟨r2, ?_⟩
  rw [parse_re r2] at r1
  exact Except.ok.inj r1

theorem match_body (U : Classes) {src : List Char} {e : Expression} (h : Expression.parse src = .ok e) (hb : AllBuiltin e)
    (g : Nat) (pre x post : List Char) (l : List Cap) :
    (bodyRe e).Match U g pre x post l ↔ Splits U e g pre.length x l := by
  rw [bodyRe, match_elems (U := U) (R := fun p g pre x _ l => ∃ b : Builtin, p.input.frag = b.name ∧ b.Lang U x ∧
    b.Captures g pre.length x l) (n := fun p => if p.input.frag = Builtin.string.name then 2 else 1) e (parse_nonemptyAlts h)
    (parse_plainWs h), splits_iff U e hb g pre.length pre x post l rfl]
  intro p hp
  obtain ⟨b, h⟩ := (allBuiltin_iff e).1 hb p hp
  rw [bRe_named h]
  refine ⟨?_, fun g pre x post l => ?_⟩
  · rw [groups_builtin, h]
    by_cases hs : b = .string
    · simp [hs]
    · rw [if_neg hs, if_neg (fun hn => hs (name_inj hn))]; rfl
  · rw [match_builtin]
    constructor
    · intro hm; exact ⟨b, h, hm⟩
    · rintro ⟨b', h', hm⟩
      rw [h] at h'
      exact name_inj h' ▸ hm

theorem splits_noparams (U : Classes) {e : Expression} (hp : params e = []) {g p : Nat} {x : List Char} {l : List Cap}
    (h : Splits U e g p x l) : l = [] ∧ ∀ g' p', Splits U e g' p' x [] := by
  induction h with
  | nil => exact ⟨rfl, fun g' p' => .nil ..⟩
  | cons e es g p x y k l h1 h2 ih =>
    cases e with
    | parameter q => simp [params_cons_parameter] at hp
    | _ =>
      rw [params_cons_other (by intro p hp; cases hp)] at hp
      obtain ⟨rfl, ih'⟩ := ih hp
      obtain ⟨h1, rfl⟩ := h1
      exact ⟨rfl, fun g' p' => .cons _ _ g' p' x y [] [] ⟨h1, rfl⟩ (ih' ..)⟩

theorem groups_params {e : Expression} : (e.map SingleExpression.groups).flatten = [] ↔ params e = [] := by
  induction e with
  | nil => simp [params]
  | cons x e ih =>
    cases x with
    | parameter p =>
      simp only [List.map_cons, List.flatten_cons, params_cons_parameter, SingleExpression.groups]
      split <;> simp
    | _ => rw [params_cons_other (by intro p hp; cases hp)]; simpa [SingleExpression.groups] using ih

theorem groups_count (e : Expression) : (e.map SingleExpression.groups).flatten.length = (e.map SingleExpression.groupCount).sum := by
  induction e with
  | nil => rfl
  | cons x e ih =>
    simp only [List.map_cons, List.flatten_cons, List.length_append, List.sum_cons, ih]
    congr 1
    cases x with
    | parameter p => simp only [SingleExpression.groups, SingleExpression.groupCount]; split <;> rfl
    | _ => rfl

variable (T : Tables)

theorem nests {pars : Provider} {inner : Parameter → Option Expression} {p : Parameter} (h : Nests inner pars p) :
    RegularParam pars p ∧ Unrepeated pars p ∧ customMatch T pars p = nestedMatch T.classes inner p ∧
    customGroups pars p = nestedGroups inner p := by
  unfold Nests at h
  unfold RegularParam Unrepeated customMatch nestedMatch customGroups nestedGroups
  cases hv : pars p.input with
  | none =>
    rw [hv] at h
    obtain ⟨h1, h2⟩ := h
    simp only [h1]
    exact ⟨h2, (by intro v a h; exact nomatch h), trivial, trivial⟩
  | some v =>
    rw [hv] at h
    obtain ⟨src, e, c, h1, h2, hb, h3, h4⟩ := h
    rw [regex_builtin h2 hb] at h3
    cases h3
    have hv : v = exprPat bPat e := by
      simp only [List.append_cancel_left_eq, List.append_cancel_right_eq] at h4
      exact h4.symm
    subst hv
    have hb' := (allBuiltin_iff e).1 hb
    obtain ⟨ha, hre⟩ := parse_body (parse_nonemptyAlts h2) (ids_nodup h2) hb'
    obtain ⟨hr, hm⟩ := regular_body hb'
    have hout : (bodyAst e).outerGroup = !decide (params e = []) := by
      rw [Ast.outerGroup, hm]
      by_cases hp : params e = []
      · rw [groups_params.2 hp]; simp [hp]
      · have := mt groups_params.1 hp
        cases hg : (e.map SingleExpression.groups).flatten with
        | nil => exact absurd hg this
        | cons n ns => simp [hp]
    have hgr : (bodyAst e).toRe.groups.length = (e.map SingleExpression.groupCount).sum := by
      rw [← marked_groups, hm, List.length_map, groups_count]
    simp only [h1]
    refine ⟨⟨_, ha, fun _ => hr⟩, ?_, ?_, ?_⟩
    · intro v a hv' ha'
      cases hv'
      rw [ha] at ha'
      cases ha'
      rw [hm]
      intro g hg
      obtain ⟨n, -, rfl⟩ := List.mem_map.1 hg
      rfl
    · funext g pre x post l
      refine propext ?_
      have hA : (∃ a, Ast.parse (exprPat bPat e) = .ok a ∧ if a.outerGroup = true then a.toRe.Match T.classes g pre x post l
          else ∃ k, a.toRe.Match T.classes (g + 1) pre x post k ∧ l = ⟨g, pre.length, x⟩ :: k) ↔
          if params e = [] then ∃ k, Splits T.classes e (g + 1) pre.length x k ∧ l = ⟨g, pre.length, x⟩ :: k
          else Splits T.classes e g pre.length x l := by
        constructor
        · rintro ⟨a, ha', hl⟩
          rw [ha] at ha'
          cases ha'
          rw [hout, hre] at hl
          by_cases hp : params e = []
          · simp only [hp, decide_true, Bool.not_true, Bool.false_eq_true, if_false, match_body T.classes h2 hb] at hl
            rw [if_pos hp]; exact hl
          · simp only [hp, decide_false, Bool.not_false, if_true, match_body T.classes h2 hb] at hl
            rw [if_neg hp]; exact hl
        · intro hl
          refine ⟨_, ha, ?_⟩
          rw [hout, hre]
          by_cases hp : params e = []
          · rw [if_pos hp] at hl
            simp only [hp, decide_true, Bool.not_true, Bool.false_eq_true, if_false, match_body T.classes h2 hb]
            exact hl
          · rw [if_neg hp] at hl
            simp only [hp, decide_false, Bool.not_false, if_true, match_body T.classes h2 hb]
            exact hl
      rw [hA]
      split
      · rename_i hp
        constructor
        · rintro ⟨k, hk, rfl⟩
          obtain ⟨rfl, hk'⟩ := splits_noparams _ hp hk
          exact ⟨⟨_, hk' 1 0⟩, rfl⟩
        · rintro ⟨⟨k, hk⟩, rfl⟩
          exact ⟨[], (splits_noparams _ hp hk).2 .., rfl⟩
      · exact .rfl
    · simp only [ha, hout, hgr]
      by_cases hp : params e = []
      · have h0 : (e.map SingleExpression.groupCount).sum = 0 := by rw [← groups_count, groups_params.2 hp]; rfl
        simp only [hp, decide_true, Bool.not_true, Bool.false_eq_true, if_false, h0, if_true]
      · simp only [hp, decide_false, Bool.not_false, if_true, if_false]

/-- C71: if every custom parameter of an expression has for its regex that of another expression, without the anchors, the
regex exists and matches exactly the texts that split into one piece per element, where the piece of a custom parameter
is matched by its expression, and captured as this expression captures it (as a whole, if it has no parameters). The
captures can be told apart by the names of their groups, as in C57. -/
theorem C71_nested (pars : Provider) (inner : Parameter → Option Expression) (src : List Char) (e : Expression)
    (h : Expression.parse src = .ok e) (hs : ∀ p ∈ params e, Nests inner pars p) :
    ∃ c, Expression.regexWithParameters (hirOf T) pars src = .ok c ∧
      owners ((params e).map Parameter.id) c.re.groups = some ((params e).map (nestedGroups inner)) ∧
      ∀ (w pre x post : List Char) (l : List Cap), c.re.Finds T.classes w pre x post l ↔
        pre = [] ∧ post = [] ∧ x = w ∧ SplitsWith (nestedMatch T.classes inner) (nestedGroups inner) e 1 [] w [] l := by
  have hn := fun p hp => nests T (hs p hp)
  obtain ⟨c, counts, h1, h2, rfl, h3⟩ := C57_attribution_partial T pars src e h (fun p hp => (hn p hp).1) (fun p hp => (hn p hp).2.1)
  refine ⟨c, h1, ?_, fun w pre x post l => ?_⟩
  · rw [h2]; congr 1
    exact List.map_congr_left fun p hp => (hn p hp).2.2.2
  · rw [h3]
    refine and_congr_right fun _ => and_congr_right fun _ => and_congr_right fun _ => ?_
    exact ⟨splitsWith_congr fun p hp => (hn p hp).2.2, splitsWith_congr fun p hp => ⟨(hn p hp).2.2.1.symm, (hn p hp).2.2.2.symm⟩⟩

/-! ## Written out in its place -/

section
variable (U : Classes) (inner : List Char → Option Expression)

def nestTypes : Types :=
  ⟨fun n => nestedMatch U (fun q => inner q.input.frag) (named n 0), fun n => nestedGroups (fun q => inner q.input.frag) (named n 0)⟩

theorem nested_erase (e : Expression) (g : Nat) (p w q : List Char) (l : List Cap) :
    SplitsWith (nestedMatch U fun q => inner q.input.frag) (nestedGroups fun q => inner q.input.frag) e g p w q l ↔
      eSplits (nestTypes U inner) (erase e) g p w q l := splits_erase (nestTypes U inner) e g p w q l

theorem splits_nested {e : Expression} (h : ∀ q ∈ params e, inner q.input.frag = none) (g : Nat) (p w q : List Char) (l : List Cap) :
    Splits U e g p.length w l ↔ SplitsWith (nestedMatch U fun q => inner q.input.frag) (nestedGroups fun q => inner q.input.frag) e g p w q l := by
  constructor
  · intro hs
    generalize hn : p.length = n at hs
    induction hs generalizing p with
    | nil => exact .nil ..
    | cons e es g n x y k l h1 h2 ih =>
      subst hn
      have hes : ∀ q ∈ params es, inner q.input.frag = none := fun q hq => h q (by rw [mem_params] at hq ⊢; simp [hq])
      have ih := ih hes (p ++ x) (by simp)
      cases e with
      | parameter r =>
        have hr := h r (by simp [params_cons_parameter])
        refine .cons _ _ _ _ _ _ _ _ _ ?_ ?_
        · simp only [SingleExpression.PieceWith, nestedMatch, hr]; exact h1
        · simp only [SingleExpression.groupCountWith, nestedGroups, hr]; exact ih
      | _ => exact .cons _ _ _ _ _ _ _ _ _ h1 ih
  · intro hs
    induction hs with
    | nil => exact .nil ..
    | cons e es g pre x y post k l h1 h2 ih =>
      have hes : ∀ q ∈ params es, inner q.input.frag = none := fun q hq => h q (by rw [mem_params] at hq ⊢; simp [hq])
      have ih := ih hes
      rw [List.length_append] at ih
      cases e with
      | parameter r =>
        have hr := h r (by simp [params_cons_parameter])
        simp only [SingleExpression.PieceWith, nestedMatch, hr] at h1
        simp only [SingleExpression.groupCountWith, nestedGroups, hr] at ih
        exact .cons _ _ _ _ _ _ _ _ h1 ih
      | _ => exact .cons _ _ _ _ _ _ _ _ h1 ih

theorem caps_exist (b : Builtin) {x : List Char} (h : b.Lang U x) (g p : Nat) : ∃ l, b.Captures g p x l := by
  cases b with
  | string =>
    obtain ⟨q, i, rfl | rfl, rfl, -⟩ := h
    · exact ⟨_, i, .inl ⟨rfl, rfl⟩⟩
    · exact ⟨_, i, .inr ⟨rfl, rfl⟩⟩
  | _ => exact ⟨_, rfl⟩

theorem splits_renumber {e : Expression} {g p : Nat} {w : List Char} {l : List Cap} (h : Splits U e g p w l) (g' p' : Nat) :
    ∃ l, Splits U e g' p' w l := by
  induction h generalizing g' p' with
  | nil => exact ⟨_, .nil ..⟩
  | cons e es g p x y k l h1 h2 ih =>
    obtain ⟨m, hm⟩ := ih (g' + e.groupCount) (p' + x.length)
    cases e with
    | parameter r =>
      obtain ⟨b, hb, h3, -⟩ := h1
      obtain ⟨k', hk⟩ := caps_exist U b h3 g' p'
      exact ⟨_, .cons _ _ _ _ _ _ _ _ ⟨b, hb, h3, hk⟩ hm⟩
    | _ => exact ⟨_, .cons _ _ _ _ _ _ _ _ h1 hm⟩

theorem nested_renumber (n : List Char) {g : Nat} {p w q : List Char} {l : List Cap} (h : (nestTypes U inner).mat n g p w q l) (g' : Nat) :
    ∃ l, (nestTypes U inner).mat n g' p w q l := by
  simp only [nestTypes, nestedMatch] at h ⊢
  split at h
  · obtain ⟨b, h1, h2, -⟩ := h
    obtain ⟨k, hk⟩ := caps_exist U b h2 g' p.length
    exact ⟨k, b, h1, h2, hk⟩
  · split at h
    · rename_i hp; simp only [if_pos hp]; exact ⟨_, h.1, rfl⟩
    · rename_i hp; simp only [if_neg hp]; exact splits_renumber U h ..

theorem eSplits_renumber (es : List Elem) {g : Nat} {p w q : List Char} {l : List Cap} (h : eSplits (nestTypes U inner) es g p w q l)
    (g' : Nat) : ∃ l, eSplits (nestTypes U inner) es g' p w q l := by
  induction es generalizing g p w l g' with
  | nil => exact ⟨l, h⟩
  | cons e es ih =>
    obtain ⟨x, y, k, m, rfl, rfl, h1, h2⟩ := h
    obtain ⟨m', hm⟩ := ih h2 (g' + e.groupCount (nestTypes U inner))
    have : ∃ k, e.Piece (nestTypes U inner) g' p x (y ++ q) k := by
      cases e with
      | param n => exact nested_renumber U inner n h1 g'
      | _ => exact ⟨_, h1⟩
    obtain ⟨k', hk⟩ := this
    exact ⟨_, x, y, k', m', rfl, rfl, hk, hm⟩

theorem eSplits_param (n : List Char) (g : Nat) (p w q : List Char) (l : List Cap) :
    eSplits (nestTypes U inner) [.param n] g p w q l ↔ (nestTypes U inner).mat n g p w q l := by
  constructor
  · rintro ⟨x, y, k, m, rfl, rfl, h1, rfl, rfl⟩
    rw [List.append_nil, List.append_nil]
    exact h1
  · intro h; exact ⟨w, [], l, [], by simp, by simp, h, rfl, rfl⟩

variable {inner} {n : List Char} {ie : Expression} (hi : inner n = some ie) (hq : ∀ q ∈ params ie, inner q.input.frag = none)
include hi hq

/-- A parameter and its expression match the same texts. -/
theorem param_lang (g g' : Nat) (p w q : List Char) :
    (∃ l, eSplits (nestTypes U inner) [.param n] g p w q l) ↔ ∃ l, eSplits (nestTypes U inner) (erase ie) g' p w q l := by
  simp only [eSplits_param, ← nested_erase, ← splits_nested U inner hq]
  simp only [nestTypes, nestedMatch, named, hi]
  constructor
  · rintro ⟨l, h⟩
    split at h
    · obtain ⟨⟨k, h⟩, -⟩ := h; exact splits_renumber U h ..
    · exact splits_renumber U h ..
  · rintro ⟨l, h⟩
    split
    · exact ⟨_, splits_renumber U h .., rfl⟩
    · exact splits_renumber U h ..

/-- If the expression has parameters, with the same captures. -/
theorem param_splits (hp : params ie ≠ []) (g : Nat) (p w q : List Char) (l : List Cap) :
    eSplits (nestTypes U inner) [.param n] g p w q l ↔ eSplits (nestTypes U inner) (erase ie) g p w q l := by
  rw [eSplits_param, ← nested_erase, ← splits_nested U inner hq]
  simp only [nestTypes, nestedMatch, named, hi, if_neg hp]

theorem param_groups (hp : params ie ≠ []) : groupsOf (nestTypes U inner) [.param n] = groupsOf (nestTypes U inner) (erase ie) := by
  have key : ∀ e : Expression, (∀ q ∈ params e, inner q.input.frag = none) →
      (e.map SingleExpression.groupCount).sum = groupsOf (nestTypes U inner) (erase e) := by
    intro e he
    induction e with
    | nil => rfl
    | cons x e ih =>
      have ih := ih fun q hq => he q (by rw [mem_params] at hq ⊢; simp [hq])
      simp only [groupsOf, erase, List.map_cons, List.sum_cons] at ih ⊢
      rw [ih]
      congr 1
      cases x with
      | parameter r =>
        simp only [SingleExpression.groupCount, eraseSingle, Elem.groupCount, nestTypes, nestedGroups, named, he r (by simp [params_cons_parameter])]
        rfl
      | _ => rfl
  rw [← key ie hq]
  simp only [groupsOf, List.map_cons, List.map_nil, List.sum_cons, List.sum_nil, Elem.groupCount, nestTypes, nestedGroups, named, hi, if_neg hp]
  rfl

end

/-- Three accepted texts, one directly behind the other. -/
theorem join3 {a b c : List Elem} (ha : Canonical a) (hb : Canonical b) (hc : Canonical c) (hab : ¬ eTouching a b)
    (hbc : ¬ eTouching b c) (hac : b = [] → ¬ eTouching a c) :
    ∃ es, Canonical es ∧ render es = render a ++ render b ++ render c ∧ SameLang es (a ++ b ++ c) ∧ namesOf es = namesOf (a ++ b ++ c) := by
  obtain ⟨es2, j1, j2, j3, j4, -, j5⟩ := join hb hc hbc
  have hae : ¬ eTouching a es2 := by
    rintro ⟨x, y, hx, hy, h1, h2⟩
    rw [hy] at j5
    have : ∃ y', (b ++ c).head? = some y' ∧ y.kind = y'.kind := by
      cases hh : (b ++ c).head? with
      | none => rw [hh] at j5; cases j5
      | some y' => rw [hh] at j5; exact ⟨y', rfl, by simpa using j5⟩
    obtain ⟨y', hy', hk⟩ := this
    have h1' : Elem.Bad x y' := by cases x <;> cases y <;> cases y' <;> simp_all [Elem.Bad, Elem.kind]
    have h2' : x.isAlt = true ∨ y'.isAlt = true := by cases x <;> cases y <;> cases y' <;> simp_all [Elem.isAlt, Elem.kind]
    cases b with
    | nil => exact hac rfl ⟨x, y', hx, by simpa using hy', h1', h2'⟩
    | cons z b => exact hab ⟨x, y', hx, by simpa using hy', h1', h2'⟩
  obtain ⟨es, k1, k2, k3, k4, -⟩ := join ha j1 hae
  refine ⟨es, k1, by rw [k2, j2, List.append_assoc], ?_, ?_⟩
  · rw [List.append_assoc]
    exact k3.trans ((SameLang.refl a).append j3)
  · rw [k4, namesOf_append, j4, List.append_assoc, namesOf_append a]

/-- C71: such a parameter can as well be written out: replacing it by its expression, where this does not make an
alternation grow, changes no matches, and, if this expression has parameters, no captures either. -/
theorem C71_inline (pars : Provider) (hn : ByName pars) (inner : List Char → Option Expression) (src isrc : List Char)
    (l r ie : Expression) (p : Parameter) (h : Expression.parse src = .ok (l ++ .parameter p :: r))
    (hs : ∀ q ∈ params (l ++ .parameter p :: r), Nests (fun q => inner q.input.frag) pars q) (hie : Expression.parse isrc = .ok ie)
    (hb : AllBuiltin ie) (hi : inner p.input.frag = some ie) (hq : ∀ q ∈ params ie, pars q.input = none ∧ inner q.input.frag = none)
    (h1 : ¬ Touching l ie) (h2 : ¬ Touching ie r) (h3 : ie = [] → ¬ Touching l r) :
    ∃ c d, Expression.regexWithParameters (hirOf T) pars src = .ok c ∧
      Expression.regexWithParameters (hirOf T) pars (print l ++ isrc ++ print r) = .ok d ∧
      (∀ w, c.re.IsMatch T.classes w ↔ d.re.IsMatch T.classes w) ∧
      (params ie ≠ [] → ∀ w pre x post k, c.re.Finds T.classes w pre x post k ↔ d.re.Finds T.classes w pre x post k) := by
  obtain ⟨hc, -, -⟩ := C06_parse_then_print _ _ h
  obtain ⟨hci, hri, -⟩ := C06_parse_then_print _ _ hie
  have he : erase (l ++ .parameter p :: r) = erase l ++ ([.param p.input.frag] ++ erase r) := by simp [erase, eraseSingle]
  rw [he] at hc
  have hcl := (canonical_of_append hc).1
  have hcr := (canonical_of_append (canonical_of_append hc).2).2
  obtain ⟨es, k1, k2, k3, k4⟩ := join3 hcl hci hcr (fun h => h1 (touching_erase h)) (fun h => h2 (touching_erase h))
    (fun he h => h3 (by cases ie with | nil => rfl | cons x ie => simp [erase] at he) (touching_erase h))
  obtain ⟨z, hz, hez⟩ := C06_print_then_parse es k1
  rw [k2, hri, print_erase, print_erase] at hz
  have hsz : ∀ q ∈ params z, Nests (fun q => inner q.input.frag) pars q := by
    intro q hqz
    have hm : Elem.param q.input.frag ∈ erase l ++ erase ie ++ erase r := by
      rw [← mem_namesOf, ← k4, ← hez, mem_namesOf]
      exact List.mem_map.2 ⟨_, mem_params.1 hqz, rfl⟩
    have named : ∀ q' : Parameter, q'.input.frag = q.input.frag → Nests (fun q => inner q.input.frag) pars q' →
        Nests (fun q => inner q.input.frag) pars q := by
      intro q' hqq hn'
      unfold Nests at hn' ⊢
      simp only [hn _ _ hqq, hqq] at hn'
      exact hn'
    have find : ∀ x : Expression, Elem.param q.input.frag ∈ erase x → ∃ q' ∈ params x, q'.input.frag = q.input.frag := by
      intro x hx
      obtain ⟨e, he, hm⟩ := List.mem_map.1 hx
      cases e <;> simp only [eraseSingle, Elem.param.injEq, reduceCtorEq] at hm
      exact ⟨_, mem_params.2 he, hm⟩
    rcases List.mem_append.1 hm with hm | hm
    · rcases List.mem_append.1 hm with hm | hm
      · obtain ⟨q', h4, h5⟩ := find l hm
        exact named q' h5 (hs q' (by rw [mem_params] at h4 ⊢; simp [h4]))
      · obtain ⟨q', h4, h5⟩ := find ie hm
        refine named q' h5 ?_
        unfold Nests
        rw [(hq q' h4).1]
        exact ⟨(hq q' h4).2, hb q' (mem_params.1 h4)⟩
    · obtain ⟨q', h4, h5⟩ := find r hm
      exact named q' h5 (hs q' (by rw [mem_params] at h4 ⊢; simp [h4]))
  obtain ⟨c, c1, -, c2⟩ := C71_nested T pars _ _ _ h hs
  obtain ⟨d, d1, -, d2⟩ := C71_nested T pars _ _ _ hz hsz
  simp only [nested_erase] at c2 d2
  rw [he] at c2
  simp only [hez, (k3 _).2] at d2
  have hq' := fun q h => (hq q h).2
  refine ⟨c, d, c1, d1, fun w => ?_, fun hp w pre x post k => ?_⟩
  · constructor
    · rintro ⟨pre, x, post, k, hk⟩
      obtain ⟨rfl, rfl, rfl, hk⟩ := (c2 ..).1 hk
      obtain ⟨u, v, a, b, rfl, rfl, s1, s2⟩ := (eSplits_append ..).1 hk
      obtain ⟨v, y, b, m, rfl, rfl, s2, s3⟩ := (eSplits_append ..).1 s2
      obtain ⟨b', s2⟩ := (param_lang T.classes hi hq' _ (1 + groupsOf (nestTypes T.classes inner) (erase l)) _ _ _).1 ⟨_, s2⟩
      obtain ⟨m', s3⟩ := eSplits_renumber T.classes inner _ s3 (1 + groupsOf (nestTypes T.classes inner) (erase l) + groupsOf (nestTypes T.classes inner) (erase ie))
      refine ⟨[], _, [], a ++ (b' ++ m'), (d2 ..).2 ⟨rfl, rfl, rfl, ?_⟩⟩
      rw [List.append_assoc]
      exact (eSplits_append ..).2 ⟨_, _, _, _, rfl, rfl, s1, (eSplits_append ..).2 ⟨_, _, _, _, rfl, rfl, s2, s3⟩⟩
    · rintro ⟨pre, x, post, k, hk⟩
      obtain ⟨rfl, rfl, rfl, hk⟩ := (d2 ..).1 hk
      rw [List.append_assoc] at hk
      obtain ⟨u, v, a, b, rfl, rfl, s1, s2⟩ := (eSplits_append ..).1 hk
      obtain ⟨v, y, b, m, rfl, rfl, s2, s3⟩ := (eSplits_append ..).1 s2
      obtain ⟨b', s2⟩ := (param_lang T.classes hi hq' (1 + groupsOf (nestTypes T.classes inner) (erase l)) _ _ _ _).2 ⟨_, s2⟩
      obtain ⟨m', s3⟩ := eSplits_renumber T.classes inner _ s3 (1 + groupsOf (nestTypes T.classes inner) (erase l) + groupsOf (nestTypes T.classes inner) [.param p.input.frag])
      refine ⟨[], _, [], a ++ (b' ++ m'), (c2 ..).2 ⟨rfl, rfl, rfl, ?_⟩⟩
      exact (eSplits_append ..).2 ⟨_, _, _, _, rfl, rfl, s1, (eSplits_append ..).2 ⟨_, _, _, _, rfl, rfl, s2, s3⟩⟩
  · rw [c2, d2, List.append_assoc]
    simp only [eSplits_append, param_splits T.classes hi hq' hp, param_groups T.classes hi hq' hp]

/-- Non-vacuity of `C71_nested` and `C71_inline`: `from {date} on` with the regex of `{int}-{int}(th)` for `date`. -/
example : ∃ (inner : List Char → Option Expression) (l r ie : Expression) (p : Parameter),
    ByName (hashMapProvider [(chars! "date", chars! "((?:-?\\d+)|(?:\\d+))-((?:-?\\d+)|(?:\\d+))(?:th)?")]) ∧
    Expression.parse (chars! "from {date} on") = .ok (l ++ .parameter p :: r) ∧
    (∀ q ∈ params (l ++ .parameter p :: r), Nests (fun q => inner q.input.frag)
      (hashMapProvider [(chars! "date", chars! "((?:-?\\d+)|(?:\\d+))-((?:-?\\d+)|(?:\\d+))(?:th)?")]) q) ∧
    Expression.parse (chars! "{int}-{int}(th)") = .ok ie ∧ AllBuiltin ie ∧ inner p.input.frag = some ie ∧
    (∀ q ∈ params ie, hashMapProvider [(chars! "date", chars! "((?:-?\\d+)|(?:\\d+))-((?:-?\\d+)|(?:\\d+))(?:th)?")] q.input = none ∧
      inner q.input.frag = none) ∧ params ie ≠ [] ∧ ¬ Touching l ie ∧ ¬ Touching ie r ∧ (ie = [] → ¬ Touching l r) := by
  let ie : Expression := [.parameter ⟨⟨1, 1, chars! "int"⟩, 0⟩, .text ⟨5, 1, ['-']⟩, .parameter ⟨⟨7, 1, chars! "int"⟩, 1⟩,
    .optional ⟨⟨12, 1, ['t', 'h']⟩⟩]
  have hie : Expression.parse (chars! "{int}-{int}(th)") = .ok ie := rfl
  have hb : AllBuiltin ie := by
    intro p hp
    simp [ie] at hp
    rcases hp with rfl | rfl <;> exact ⟨.int, rfl⟩
  refine ⟨fun n => if n = chars! "date" then some ie else none,
    [.text ⟨0, 1, chars! "from"⟩, .whitespaces ⟨4, 1, [' ']⟩], [.whitespaces ⟨11, 1, [' ']⟩, .text ⟨12, 1, ['o', 'n']⟩], ie,
    ⟨⟨6, 1, chars! "date"⟩, 0⟩, fun s t h => by simp [hashMapProvider, h], rfl, ?_, hie, hb, rfl, ?_, by simp [ie, params], ?_, ?_, ?_⟩
  · intro q hq
    simp [params] at hq
    subst hq
    exact ⟨_, ie, _, rfl, hie, hb, regex_builtin hie hb, rfl⟩
  · intro q hq
    simp [ie, params] at hq
    rcases hq with rfl | rfl <;> exact ⟨rfl, rfl⟩
  · rintro ⟨a, b, ha, hb, h, -⟩
    simp at ha
    subst ha
    cases h
  · rintro ⟨a, b, ha, hb, -, h, -⟩
    simp at hb
    subst hb
    cases h
  · intro h; simp [ie] at h

/-- C71 needs that the anchors are removed: with the whole regex of `b` for `x`, `a{x}` matches nothing. -/
theorem C71_anchors (parseHir : List Char → Option Hir) : ∃ ci c, Expression.regex ['b'] = .ok ci ∧
    Expression.regexWithParameters parseHir (hashMapProvider [(['x'], ci.pattern)]) (chars! "a{x}") = .ok c ∧
    ∀ (U : Classes) (w : List Char), ¬ c.re.IsMatch U w := by
  refine ⟨⟨chars! "^b$", .cat .bol (.cat (.lit 'b') .eol)⟩,
    ⟨chars! "^a(^b$)$", .cat .bol (.cat (.lit 'a') (.cat (.cap none (.cat .bol (.cat (.lit 'b') .eol))) .eol))⟩, rfl, rfl, ?_⟩
  rintro U w ⟨pre, x, post, l, -, h⟩
  obtain ⟨_, _, _, _, -, -, -, _, _, _, _, -, -, ⟨rfl, -⟩, _, _, _, _, -, -, ⟨_, ⟨_, _, _, _, -, -, ⟨h, -⟩, -⟩, -⟩, -⟩ := h
  simp at h

end CE
