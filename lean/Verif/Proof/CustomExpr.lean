import Verif.Proof.Reprint
import Verif.Prop.HirSearch
import Verif.Prop.Translate

/-! # The order in which the matches of an expression with custom parameters are tried -/

namespace CE.Regex

theorem buildA_inside {ts : List Tok} {st : List (Kind × AFrame)} {f : AFrame} {a : Ast} (h : buildA st f ts = .ok a)
    (k : Kind) (g : AFrame) (base : List (Kind × AFrame)) (rest : List Tok) :
    buildA (st ++ (k, g) :: base) f (ts ++ .close :: rest) = buildA base (g.push (k.wrapA a)) rest := by
  induction ts generalizing st f with
  | nil =>
    cases st with
    | nil => cases h; rfl
    | cons x st => cases h
  | cons t ts ih =>
    cases t with
    | lit c => exact ih h
    | dot => exact ih h
    | cls k => exact ih h
    | bol => exact ih h
    | eol => exact ih h
    | mark n => exact ih h
    | capture n => exact ih (st := (.capture n, f) :: st) h
    | group => exact ih (st := (.group, f) :: st) h
    | close =>
      cases st with
      | nil => cases h
      | cons x st => exact ih h
    | bar => exact ih h
    | quest =>
      simp only [buildA, List.cons_append] at h ⊢
      cases hq : f.quest with
      | error e => rw [hq] at h; cases h
      | ok f' => rw [hq] at h; exact ih h
    | star =>
      simp only [buildA, List.cons_append] at h ⊢
      cases hq : f.repeated 0 none with
      | error e => rw [hq] at h; cases h
      | ok f' => rw [hq] at h; exact ih h
    | plus =>
      simp only [buildA, List.cons_append] at h ⊢
      cases hq : f.repeated 1 none with
      | error e => rw [hq] at h; cases h
      | ok f' => rw [hq] at h; exact ih h
    | count m n =>
      simp only [buildA, List.cons_append] at h ⊢
      cases hq : f.repeated m n with
      | error e => rw [hq] at h; cases h
      | ok f' => rw [hq] at h; exact ih h

theorem AReadsAs.captured {ts : List Tok} {a : Ast} (h : buildA [] .start ts = .ok a) :
    AReadsAs (.capture none :: ts ++ [.close]) [.cap none a] := by
  intro fr
  refine ⟨false, fun st br it rest => ?_⟩
  have := buildA_inside h (.capture none) ⟨br, it, fr⟩ st rest
  simp only [List.nil_append] at this
  simp only [List.cons_append, List.append_assoc, buildA, List.nil_append, this]
  rfl

end CE.Regex

namespace CE
open Spec Regex Hir

variable (T : Tables) (pars : Provider)

/-! ## The syntax tree of a parameter -/

def ownAst (id : Nat) (a : Ast) : Ast :=
  if a.outerGroup then .group (astOf ((translate T a 1).1.renameCaptureGroups id)) else .cap none a

def custAst (p : Parameter) : Ast :=
  match pars p.input with
  | none => bAst p
  | some v => match Ast.parse v with
    | .ok a => ownAst T p.id a
    | .error _ => .empty

def GoodParam (p : Parameter) : Prop := RegularParam pars p ∧ SteadyParam pars p

theorem parse_parts {v : List Char} {a : Ast} (h : Ast.parse v = .ok a) : ∃ ts, lex v = .ok ts ∧ buildA [] .start ts = .ok a := by
  unfold Ast.parse at h
  split at h
  · cases h
  · rename_i ts hl
    split at h
    · cases h
    · rename_i r' hb
      split at h
      · cases h; exact ⟨ts, hl, hb⟩
      · cases h

theorem outer_paren {v : List Char} {a : Ast} (h : Ast.parse v = .ok a) (ho : a.outerGroup = true) : '(' ∈ v :=
  Classical.byContradiction fun hp => by rw [outerGroup_paren h hp] at ho; cases ho

/-- The expansion of a parameter is read as its syntax tree. -/
theorem expansion_ast (p : Parameter) (hp : GoodParam pars p) :
    ∃ cs ts, customRes (hirOf T) pars p = .ok cs ∧ Lexes cs ts ∧ AReadsAs ts [custAst T pars p] := by
  obtain ⟨hr, -⟩ := hp
  unfold RegularParam at hr
  unfold customRes custAst
  cases hv : pars p.input with
  | none =>
    rw [hv] at hr
    obtain ⟨b, hb⟩ := hr
    exact ⟨builtinPat b p.id, builtinToks b p.id, by simp [builtinRes, builtinNamed_some.2 hb], lexes_builtin b p.id, by
      simp only [bAst_named hb]; exact areads_builtin b p.id⟩
  | some v =>
    rw [hv] at hr
    obtain ⟨a, ha, hr⟩ := hr
    simp only [ha]
    have hg := grouped_hirOf T ha hr
    unfold ownAst
    cases ho : a.outerGroup with
    | true =>
      have hp : a.toRe.groups ≠ [] := fun h => by rw [outer_groupless h] at ho; cases ho
      rw [ho, if_pos rfl] at hg
      have ok := translate_ok T a 1 (parse_valid ha) (hr hp)
      obtain ⟨g1, g2, g3⟩ := (grouped_some (hirOf T)).1 hg
      obtain ⟨k1, -⟩ := Hir.rename_ok p.id _ 0 ok.wf (by rw [ok.indices]; exact List.nodup_range' ..)
      have e0 : (Hir.renameGroupsInner p.id (translate T a 1).1 0).1 = (translate T a 1).1.renameCaptureGroups p.id := rfl
      rw [e0] at k1
      have q1 := (good _ k1).1
      have q2 := (agood _ k1).1
      have q3 := AAtom.grouped (bs := [(hirToks ((translate T a 1).1.renameCaptureGroups p.id), [astOf ((translate T a 1).1.renameCaptureGroups p.id)])])
        (by simp) (by simpa using q2)
      exact ⟨_, .group :: hirToks ((translate T a 1).1.renameCaptureGroups p.id) ++ [.close],
        by simp only [valueRes, if_pos g1, g2, g3, if_true], (lexes_open.append q1).append lexes_close,
        by simpa [barred, altA, catA] using q3.reads⟩
    | false =>
      obtain ⟨ts, hl, hb⟩ := parse_parts ha
      have hb' : build [] .start ts = .ok a.toRe := by
        have := build_forget ts [] .start (fun h => by cases h) (by simp)
        rw [hb] at this
        exact this
      refine ⟨'(' :: v ++ [')'], .capture none :: ts ++ [.close], ?_, lexes_captured hl hb', AReadsAs.captured hb⟩
      rw [ho, if_neg (by simp)] at hg
      simp only [valueRes]
      by_cases hp : '(' ∈ v
      · rw [if_pos hp, hirOf_ok T ha]
        have : (translate T a 1).1.outerGroup = false := by
          cases hc : (translate T a 1).1.outerGroup with
          | false => rfl
          | true => rw [(grouped_some (hirOf T)).2 ⟨hp, hirOf_ok T ha, hc⟩] at hg; cases hg
        simp [this]
      · rw [if_neg hp]

/-! ## Elements -/

abbrev OTry := CustomChoice × Try

def elemTriesC : SingleExpression → (g : Nat) → (pre rest : List Char) → List OTry
  | .parameter p, g, pre, rest => match pars p.input with
    | none => (elemTriesH T (.parameter p) g pre rest).map fun a => (.known a.1, a.2)
    | some v => match Ast.parse v with
      | .ok t => ((translate T t 1).1.tries pre rest).map fun a => (.own a, a.1, ownCaptures t g pre.length a.1 a.2)
      | .error _ => []
  | e, g, pre, rest => (elemTriesH T e g pre rest).map fun a => (.known a.1, a.2)

/-- The translated parameter tries what its regex tries. -/
theorem tries_own {v : List Char} {a : Ast} (ha : Ast.parse v = .ok a) (hr : a.toRe.groups ≠ [] → a.Regular)
    (hst : a.outerGroup = true → a.Steady) (id : Nat) {g : Nat} (hg : 1 ≤ g) (pre rest : List Char) :
    (translate T (ownAst T id a) g).1.tries pre rest =
      ((translate T a 1).1.tries pre rest).map (fun t => (t.1, ownCaptures a g pre.length t.1 t.2)) ∧
    (translate T (ownAst T id a) g).2 = g + if a.outerGroup then a.toRe.groups.length else a.toRe.groups.length + 1 := by
  unfold ownAst ownCaptures
  cases ho : a.outerGroup with
  | true =>
    simp only [if_true]
    have ok := translate_ok T a 1 (parse_valid ha) (hr fun h => by rw [outer_groupless h] at ho; cases ho)
    have hi : (translate T a 1).1.indices.Nodup := by rw [ok.indices]; exact List.nodup_range' ..
    obtain ⟨r1, r2⟩ := rename_normal id _ 0 (translate_normal T a 1 (parse_valid ha) (hst ho)) hi
    have e0 : (renameGroupsInner id (translate T a 1).1 0).1 = (translate T a 1).1.renameCaptureGroups id := rfl
    rw [e0] at r1 r2
    have hidx : ((translate T a 1).1.renameCaptureGroups id).indices = List.range' 1 a.toRe.groups.length := by
      rw [← indices_nameless, r2, indices_nameless, ok.indices]
    have ht := translate_astOf T _ 1 r1 (by rw [hidx]; simp)
    have e : g = 1 + (g - 1) := by omega
    rw [translate, e, translate_renumber, ht, hidx]
    simp only [Nat.add_sub_cancel_left, List.length_range']
    refine ⟨?_, by omega⟩
    rw [tries_renumber, tries_of_nameless r2]
  | false =>
    simp only [Bool.false_eq_true, if_false]
    rw [translate, Nat.add_comm g 1, translate_renumber, translate_next]
    refine ⟨?_, by simp only []; omega⟩
    simp only [tries, tries_renumber, List.map_map]
    rfl

theorem elem_sameC (e : SingleExpression) (he : GoodElem e) (hb : ∀ p, e = .parameter p → GoodParam pars p) {g : Nat} (hg : 1 ≤ g)
    (pre rest : List Char) :
    Same (catTries (translateL T (elemAsts (custAst T pars) e) g).1 pre rest) ((elemTriesC T pars e g pre rest).map (·.2)) ∧
      (translateL T (elemAsts (custAst T pars) e) g).2 = g + e.groupCountWith (customGroups pars) := by
  cases e with
  | parameter p =>
    obtain ⟨hr, hst⟩ := hb p rfl
    unfold RegularParam at hr
    cases hv : pars p.input with
    | none =>
      rw [hv] at hr
      have := elem_same T (.parameter p) he (fun q hq => by cases hq; exact hr) g pre rest
      have e1 : elemAsts (custAst T pars) (.parameter p) = elemAsts bAst (.parameter p) := by simp [elemAsts, custAst, hv]
      rw [e1]
      refine ⟨?_, this.2.trans ?_⟩
      · simpa [elemTriesC, hv, List.map_map, Function.comp_def] using this.1
      · simp [SingleExpression.groupCount, SingleExpression.groupCountWith, customGroups, hv]
    | some v =>
      rw [hv] at hr
      obtain ⟨a, ha, hr⟩ := hr
      obtain ⟨h1, h2⟩ := tries_own T ha hr (hst v a hv ha) p.id hg pre rest
      simp only [elemAsts, translateL, custAst, hv, ha, catTries_single, elemTriesC, h1, List.map_map, Function.comp_def]
      refine ⟨.refl _, h2.trans ?_⟩
      simp [SingleExpression.groupCountWith, customGroups, hv, ha]
  | text t =>
    have := elem_same T (.text t) he (fun q hq => by cases hq) g pre rest
    exact ⟨by simp only [elemTriesC, List.map_map, Function.comp_def]; exact this.1, this.2⟩
  | whitespaces t =>
    have := elem_same T (.whitespaces t) he (fun q hq => by cases hq) g pre rest
    exact ⟨by simp only [elemTriesC, List.map_map, Function.comp_def]; exact this.1, this.2⟩
  | optional o =>
    have := elem_same T (.optional o) he (fun q hq => by cases hq) g pre rest
    exact ⟨by simp only [elemTriesC, List.map_map, Function.comp_def]; exact this.1, this.2⟩
  | alternation a =>
    have := elem_same T (.alternation a) he (fun q hq => by cases hq) g pre rest
    exact ⟨by simp only [elemTriesC, List.map_map, Function.comp_def]; exact this.1, this.2⟩

/-- All texts are beginnings of `rest`. -/
def Begins (rest : List Char) (L : List Try) : Prop := ∀ a ∈ L, a.1 <+: rest

theorem Begins.andThen {rest : List Char} {L : List Try} {f : List Char → List Try} (hL : Begins rest L)
    (hf : ∀ x, Begins (rest.drop x.length) (f x)) : Begins rest (andThen L f) := by
  intro a ha
  simp only [Regex.andThen, List.mem_flatMap, List.mem_map] at ha
  obtain ⟨b, hb, c, hc, rfl⟩ := ha
  obtain ⟨post, hp⟩ := hL b hb
  obtain ⟨post', hp'⟩ := hf b.1 c hc
  refine ⟨post', ?_⟩
  rw [← hp, List.drop_left] at hp'
  rw [← hp, ← hp', List.append_assoc]

theorem Begins.append {rest : List Char} {L M : List Try} (hL : Begins rest L) (hM : Begins rest M) : Begins rest (L ++ M) :=
  fun a ha => (List.mem_append.1 ha).elim (hL a) (hM a)

theorem Begins.none (rest : List Char) : Begins rest [] := fun _ h => by cases h

theorem Begins.nothing (rest : List Char) : Begins rest [([], [])] := fun a ha => by
  rw [List.mem_singleton.1 ha]; exact ⟨rest, rfl⟩

theorem Begins.repTries {body : List Char → List Char → List Try} (hb : ∀ pre rest, Begins rest (body pre rest)) (g : Bool) :
    ∀ (fuel m : Nat) (n : Option Nat) (pre rest : List Char), Begins rest (repTries body g fuel m n pre rest)
  | 0, m, n, pre, rest => by
    unfold Regex.repTries
    split
    · exact .nothing _
    · exact .none _
  | fuel + 1, m, n, pre, rest => by
    have h1 : Begins rest (if n = some 0 then [] else Regex.andThen ((body pre rest).filter fun a => m != 0 || !a.1.isEmpty) fun x =>
        Regex.repTries body g fuel (m - 1) (n.map (· - 1)) (pre ++ x) (rest.drop x.length)) := by
      split
      · exact .none _
      · exact .andThen (fun a ha => hb pre rest a (List.mem_filter.1 ha).1) fun x => Begins.repTries hb g fuel _ _ _ _
    have h2 : Begins rest (if m = 0 then [([], [])] else []) := by
      split
      · exact .nothing _
      · exact .none _
    unfold Regex.repTries
    simp only []
    split
    · exact h1.append h2
    · exact h2.append h1

mutual
theorem tries_begins : ∀ (h : Hir) (pre rest : List Char), Begins rest (h.tries pre rest)
  | .empty, _, rest => .nothing _
  | .literal cs, _, rest => by
    unfold tries
    split
    · rename_i h
      intro a ha
      rw [List.mem_singleton.1 ha]
      exact List.isPrefixOf_iff_prefix.1 h
    · exact .none _
  | .cls rs, _, rest => by
    cases rest with
    | nil => exact .none _
    | cons c rest =>
      simp only [tries, oneChar]
      split
      · intro a ha
        rw [List.mem_singleton.1 ha]
        exact ⟨rest, rfl⟩
      · exact .none _
  | .look .start, pre, rest => by
    unfold tries
    split
    · exact .nothing _
    · exact .none _
  | .look .finish, pre, rest => by
    unfold tries
    split
    · exact .nothing _
    · exact .none _
  | .look (.mark _ _), pre, rest => by
    unfold tries
    split
    · exact .nothing _
    · exact .none _
  | .repetition m n g sub, pre, rest => .repTries (fun p q => tries_begins sub p q) _ _ _ _ _ _
  | .capture i name sub, pre, rest => by
    intro a ha
    simp only [tries, List.mem_map] at ha
    obtain ⟨b, hb, rfl⟩ := ha
    exact tries_begins sub pre rest b hb
  | .concat subs, pre, rest => catTries_begins subs pre rest
  | .alternation subs, pre, rest => altTries_begins subs pre rest
theorem catTries_begins : ∀ (hs : List Hir) (pre rest : List Char), Begins rest (catTries hs pre rest)
  | [], _, _ => .nothing _
  | h :: hs, pre, rest => .andThen (tries_begins h pre rest) fun _ => catTries_begins hs _ _
theorem altTries_begins : ∀ (hs : List Hir) (pre rest : List Char), Begins rest (altTries hs pre rest)
  | [], _, _ => .none _
  | h :: hs, pre, rest => (tries_begins h pre rest).append (altTries_begins hs pre rest)
end

theorem tries_prefix (h : Hir) (pre rest : List Char) : ∀ a ∈ h.tries pre rest, ∃ post, rest = a.1 ++ post := fun a ha => by
  obtain ⟨post, hp⟩ := tries_begins h pre rest a ha
  exact ⟨post, hp.symm⟩

theorem mem_elemTriesC (e : SingleExpression) (hb : ∀ p, e = .parameter p → GoodParam pars p) (g : Nat) (pre rest : List Char)
    (c : CustomChoice) (x : List Char) (l : List Cap) : (c, x, l) ∈ elemTriesC T pars e g pre rest ↔
      ∃ post, rest = x ++ post ∧ e.FitsIn T pars g pre c x post l := by
  have known : ∀ e : SingleExpression, (∀ p, e = .parameter p → IsBuiltin p) →
      ((c, x, l) ∈ (elemTriesH T e g pre rest).map (fun a => (CustomChoice.known a.1, a.2)) ↔
        ∃ d, c = .known d ∧ e.Fits T.classes g pre.length d x l ∧ ∃ post, rest = x ++ post) := by
    intro e hb
    rw [List.mem_map]
    constructor
    · rintro ⟨⟨d, y, m⟩, hm, he⟩
      simp only [Prod.mk.injEq] at he
      obtain ⟨rfl, rfl, rfl⟩ := he
      obtain ⟨h1, h2⟩ := (mem_elemTriesH T e hb _ _ _ _ _ _).1 hm
      exact ⟨d, rfl, h1, h2⟩
    · rintro ⟨d, rfl, h1, h2⟩
      exact ⟨(d, x, l), (mem_elemTriesH T e hb _ _ _ _ _ _).2 ⟨h1, h2⟩, rfl⟩
  cases e with
  | parameter p =>
    obtain ⟨hr, hst⟩ := hb p rfl
    unfold RegularParam at hr
    cases hv : pars p.input with
    | none =>
      rw [hv] at hr
      simp only [elemTriesC, hv]
      rw [known _ (fun q hq => by cases hq; exact hr)]
      constructor
      · rintro ⟨d, rfl, h1, post, h2⟩
        exact ⟨post, h2, hv, h1⟩
      · rintro ⟨post, h2, h1⟩
        cases c with
        | known d => exact ⟨d, rfl, h1.2, post, h2⟩
        | own a =>
          obtain ⟨v, -, -, h, -⟩ := h1
          rw [hv] at h; cases h
    | some v =>
      rw [hv] at hr
      obtain ⟨a, ha, hr⟩ := hr
      simp only [elemTriesC, hv, ha, List.mem_map, Prod.mk.injEq]
      constructor
      · rintro ⟨t, ht, rfl, rfl, rfl⟩
        obtain ⟨post, hp⟩ := tries_prefix _ _ _ t ht
        exact ⟨post, hp, v, a, _, hv, ha, hirOf_ok T ha, hp ▸ ht, rfl, rfl⟩
      · rintro ⟨post, rfl, h1⟩
        cases c with
        | known d => have := h1.1; rw [hv] at this; cases this
        | own t =>
          obtain ⟨v', a', h, h1, h2, h3, h4, h5, h6⟩ := h1
          rw [hv] at h1
          cases h1
          rw [ha] at h2
          cases h2
          rw [hirOf_ok T ha] at h3
          cases h3
          exact ⟨t, h4, rfl, h5.symm, by rw [h6, h5]⟩
  | _ =>
    simp only [elemTriesC]
    rw [known _ (fun q hq => by cases hq)]
    constructor
    · rintro ⟨d, rfl, h1, post, h2⟩
      exact ⟨post, h2, h1⟩
    · rintro ⟨post, h2, h1⟩
      cases c with
      | known d => exact ⟨d, rfl, h1, post, h2⟩
      | own a => exact h1.elim

theorem Sorts.comesFirst (L : List Try) : Sorts (ComesFirst L) L := by
  intro Q a ha b hb hQ
  by_cases hab : a = b
  · exact .inl hab.symm
  · refine .inr ⟨hab, ?_⟩
    obtain ⟨-, l, r, rfl, hl⟩ := List.find?_eq_some_iff_append.1 ha
    refine ⟨l, r, rfl, fun hbl => ?_⟩
    have := hl b hbl
    simp [hQ] at this

theorem sorts_elemC (hs : SaneDigits T.classes) (e : SingleExpression) (he : GoodElem e) (hb : ∀ p, e = .parameter p → GoodParam pars p)
    (g : Nat) (pre rest : List Char) :
    Sorts (fun a b : OTry => e.FirstIn T pars pre rest a.1 b.1) (elemTriesC T pars e g pre rest) := by
  cases e with
  | parameter p =>
    obtain ⟨hr, hst⟩ := hb p rfl
    unfold RegularParam at hr
    cases hv : pars p.input with
    | none =>
      rw [hv] at hr
      simp only [elemTriesC, hv]
      exact (sorts_elemH T hs _ he (fun q hq => by cases hq; exact hr) g pre rest).map fun a _ b _ h => h
    | some v =>
      rw [hv] at hr
      obtain ⟨a, ha, hr⟩ := hr
      simp only [elemTriesC, hv, ha]
      exact (Sorts.comesFirst _).map fun _ _ _ _ h => ⟨v, _, hv, hirOf_ok T ha, h⟩
  | _ => exact (sorts_elemH T hs _ he (fun q hq => by cases hq) g pre rest).map fun a _ b _ h => h

/-! ## Expressions -/

def seqTriesC : Expression → (g : Nat) → (pre rest : List Char) → List (Way × Try)
  | [], _, _, _ => [([], [], [])]
  | e :: es, g, pre, rest => (elemTriesC T pars e g pre rest).flatMap fun a =>
    (seqTriesC es (g + e.groupCountWith (customGroups pars)) (pre ++ a.2.1) (rest.drop a.2.1.length)).map fun b =>
      ((a.1, a.2.1) :: b.1, a.2.1 ++ b.2.1, a.2.2 ++ b.2.2)

theorem seq_sameC (e : Expression) (he : ∀ x ∈ e, GoodElem x) (hb : ∀ p ∈ params e, GoodParam pars p) {g : Nat} (hg : 1 ≤ g)
    (pre rest : List Char) :
    Same (catTries (translateL T (e.map (elemAsts (custAst T pars))).flatten g).1 pre rest) ((seqTriesC T pars e g pre rest).map (·.2)) := by
  induction e generalizing g pre rest with
  | nil => exact .refl _
  | cons x e ih =>
    obtain ⟨h1, h2⟩ := elem_sameC T pars x (he x (by simp)) (fun p hp => hb p (mem_params.2 (by simp [hp]))) hg pre rest
    rw [List.map_cons, List.flatten_cons, translateL_append, catTries_append, h2]
    refine (h1.andThen fun y => ih (fun y hy => he y (by simp [hy])) (fun p hp => hb p (mem_params.2 (by
      simp [mem_params.1 hp]))) (by omega) _ _).trans (.of_eq ?_)
    simp only [seqTriesC, andThen, List.flatMap_map, List.map_flatMap, List.map_map, Function.comp_def]

theorem mem_seqTriesC (e : Expression) (hb : ∀ p ∈ params e, GoodParam pars p) (g : Nat) (pre rest : List Char) (ws : Way)
    (x : List Char) (l : List Cap) : (ws, x, l) ∈ seqTriesC T pars e g pre rest ↔
      x = ws.text ∧ ∃ post, rest = x ++ post ∧ FitsC T pars e g pre ws post l := by
  induction e generalizing g pre rest ws x l with
  | nil =>
    simp only [seqTriesC, List.mem_singleton, Prod.mk.injEq]
    constructor
    · rintro ⟨rfl, rfl, rfl⟩; exact ⟨rfl, rest, rfl, .nil _ _ _⟩
    · rintro ⟨rfl, post, -, h⟩; cases h; exact ⟨rfl, rfl, rfl⟩
  | cons e es ih =>
    have ih := ih (fun p hp => hb p (mem_params.2 (by simp [mem_params.1 hp])))
    have he : ∀ p, e = .parameter p → GoodParam pars p := fun p hp => hb p (mem_params.2 (by simp [hp]))
    simp only [seqTriesC, List.mem_flatMap, List.mem_map, Prod.exists, Prod.mk.injEq]
    constructor
    · rintro ⟨c, y, k, h1, vs, z, m, h2, rfl, rfl, rfl⟩
      obtain ⟨post, rfl, h1'⟩ := (mem_elemTriesC T pars e he _ _ _ _ _ _).1 h1
      rw [List.drop_left] at h2
      obtain ⟨rfl, post', rfl, h3⟩ := (ih _ _ _ _ _ _).1 h2
      exact ⟨by simp [Way.text], post', by simp, .cons _ _ _ _ _ _ _ _ _ _ h1' h3⟩
    · rintro ⟨rfl, post, rfl, h⟩
      cases h with
      | cons _ _ _ _ c y vs _ k m h1 h2 =>
        refine ⟨c, y, k, (mem_elemTriesC T pars e he _ _ _ _ _ _).2 ⟨vs.text ++ post, by simp [Way.text], h1⟩,
          vs, vs.text, m, (ih _ _ _ _ _ _).2 ⟨rfl, post, ?_, h2⟩, rfl, by simp [Way.text], rfl⟩
        simp [Way.text]

theorem sorts_seqC (hs : SaneDigits T.classes) (e : Expression) (he : ∀ x ∈ e, GoodElem x) (hb : ∀ p ∈ params e, GoodParam pars p)
    (g : Nat) (pre rest : List Char) :
    Sorts (fun a b : Way × Try => PreferredC T pars e pre rest a.1 b.1) (seqTriesC T pars e g pre rest) := by
  induction e generalizing g pre rest with
  | nil => exact .single _
  | cons e es ih =>
    exact Sorts.flatMap (B1 := fun a b : OTry => e.FirstIn T pars pre rest a.1 b.1)
      (B2 := fun c (a b : Way × Try) => PreferredC T pars es (pre ++ c.2.1) (rest.drop c.2.1.length) a.1 b.1)
      (sorts_elemC T pars hs e (he e (by simp)) (fun p hp => hb p (mem_params.2 (by simp [hp]))) _ _ _)
      (fun _ _ => ih (fun y hy => he y (by simp [hy])) (fun p hp => hb p (mem_params.2 (by simp [mem_params.1 hp]))) _ _ _)
      (fun _ _ _ _ h _ _ _ _ => .here _ _ _ _ _ _ _ _ _ _ h) (fun _ _ _ _ _ _ h => .there _ _ _ _ _ _ _ _ h)

/-! ## The whole regex -/

theorem hirTries_exprC (e : Expression) (he : ∀ x ∈ e, GoodElem x) (hb : ∀ p ∈ params e, GoodParam pars p) (w : List Char) :
    Same ((translate T (exprAst (custAst T pars) e) 1).1.tries [] w)
      (((seqTriesC T pars e 1 [] w).filter fun a => (w.drop a.2.1.length).isEmpty).map (·.2)) := by
  rw [exprAst, translate, translateL, translateL_append, tries_mkConcat, catTries, translate, Hir.tries]
  simp only [List.isEmpty_nil, if_true, andThen_nil, List.nil_append, List.length_nil, List.drop_zero]
  rw [catTries_append]
  refine ((seq_sameC T pars e he hb (Nat.le_refl 1) [] w).andThen fun _ => .refl _).trans (.of_eq ?_)
  simp only [translateL, translate, catTries_single, Hir.tries]
  generalize seqTriesC T pars e 1 [] w = L
  induction L with
  | nil => rfl
  | cons a L ih =>
    simp only [andThen] at ih
    rw [List.map_cons, andThen, List.flatMap_cons, ih, List.filter_cons]
    by_cases h : (w.drop a.2.1.length).isEmpty = true <;> simp [h]

theorem hirTries_laterC (ap : Parameter → Ast) (e : Expression) {pre : List Char} (hp : pre ≠ []) (rest : List Char) :
    (translate T (exprAst ap e) 1).1.tries pre rest = [] := by
  rw [exprAst, translate, translateL, tries_mkConcat, catTries, translate, Hir.tries]
  simp [hp, andThen]

theorem hirFind_exprC (e : Expression) (he : ∀ x ∈ e, GoodElem x) (hb : ∀ p ∈ params e, GoodParam pars p) (w : List Char) :
    (translate T (exprAst (custAst T pars) e) 1).1.find w =
      ((seqTriesC T pars e 1 [] w).find? fun a => (w.drop a.2.1.length).isEmpty).map fun a => (0, a.2) := by
  unfold Hir.find
  rw [List.range_succ_eq_map, List.findSome?_cons]
  have h0 : ((translate T (exprAst (custAst T pars) e) 1).1.tries (w.take 0) (w.drop 0)).head? =
      ((seqTriesC T pars e 1 [] w).find? fun a => (w.drop a.2.1.length).isEmpty).map (·.2) := by
    rw [List.take_zero, List.drop_zero, (hirTries_exprC T pars e he hb w).head?, List.head?_map, List.head?_filter]
  rw [h0]
  cases hf : (seqTriesC T pars e 1 [] w).find? fun a => (w.drop a.2.1.length).isEmpty with
  | some a => rfl
  | none =>
    simp only [Option.map_none]
    rw [List.findSome?_eq_none_iff]
    intro i hi
    obtain ⟨j, hj, rfl⟩ := List.mem_map.1 hi
    have hj := List.mem_range.1 hj
    rw [hirTries_laterC]
    · rfl
    · intro hn
      have := congrArg List.length hn
      rw [List.length_take, List.length_nil] at this
      omega

end CE
