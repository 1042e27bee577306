import Verif.Proof.Lift
import Verif.Prop.Search

/-! # The order in which the matches of an expression are tried, after translation into the HIR -/

namespace CE
open Spec Regex Hir

/-! ## Branches -/

theorem branchTries_congr : ∀ {b c : SingleAlternation}, b.map Alternative.part = c.map Alternative.part → branchTries b = branchTries c
  | [], [], _ => rfl
  | [], _ :: _, h => by simp at h
  | _ :: _, [], h => by simp at h
  | x :: b, y :: c, h => by
    simp only [List.map_cons, List.cons.injEq] at h
    have ih := branchTries_congr h.2
    cases x <;> cases y <;> simp [Alternative.part] at h <;> funext rest <;> simp [branchTries, ih, h.1]

theorem branchTries_append (b c : SingleAlternation) (rest : List Char) : branchTries (b ++ c) rest =
    (branchTries b rest).flatMap fun s => (branchTries c (rest.drop s.2.length)).map fun t => (s.1 ++ t.1, s.2 ++ t.2) := by
  induction b generalizing rest with
  | nil => simp [branchTries]
  | cons x b ih =>
    cases x <;> simp only [List.cons_append, branchTries, ih, List.flatMap_assoc, List.flatMap_map, List.map_flatMap, List.map_map,
      Function.comp_def, List.append_assoc, List.length_append, List.drop_drop, List.cons_append]

theorem branchTries_length {b : SingleAlternation} {rest : List Char} {s : List Bool × List Char} (h : s ∈ branchTries b rest) :
    s.1.length = ((b.map Alternative.part).filter (·.1)).length := by
  induction b generalizing rest s with
  | nil => simp [branchTries] at h; simp [h]
  | cons x b ih =>
    cases x with
    | text t =>
      simp only [branchTries, List.mem_flatMap, List.mem_map] at h
      obtain ⟨y, -, u, hu, rfl⟩ := h
      simpa [Alternative.part] using ih hu
    | optional o =>
      simp only [branchTries, List.mem_flatMap, List.mem_map] at h
      obtain ⟨y, -, u, hu, rfl⟩ := h
      simpa [Alternative.part] using ih hu

theorem tries_lit (u pre rest : List Char) : (Hir.literal u).tries pre rest = (litTries u rest).map fun x => (x, []) := by
  rw [Hir.tries, litTries]; split <;> rfl

theorem tries_optional {u : List Char} (hu : u ≠ []) (pre rest : List Char) :
    (partHir (true, u)).tries pre rest = (optTries u rest).map fun a => (a.2, []) := by
  rw [← tries_opt (T := asciiTests) hu 0 pre rest]
  simp only [partHir, Hir.tries, Re.tries, tries_lits]
  congr 1
  funext p q
  rw [litTries]; split <;> rfl

theorem catTries_branch {b : SingleAlternation} (h : ∀ q ∈ b, q.part.2 ≠ []) (pre rest : List Char) :
    catTries (branchHirs b) pre rest = (branchTries b rest).map fun a => (a.2, []) := by
  induction b generalizing pre rest with
  | nil => rfl
  | cons x b ih =>
    have ih := fun pre rest => ih (fun q hq => h q (by simp [hq])) pre rest
    have hb : branchHirs (x :: b) = partHir x.part :: branchHirs b := rfl
    rw [hb, catTries]
    simp only [ih]
    cases x with
    | text t =>
      simp [Alternative.part, partHir, tries_lit, branchTries, andThen, List.flatMap_map, List.map_flatMap, Function.comp_def]
    | optional o =>
      have ho : unescape o.input.frag ≠ [] := h (.optional o) (by simp)
      simp [Alternative.part, tries_optional ho, branchTries, andThen, List.flatMap_map, List.map_flatMap, Function.comp_def]

theorem altTries_map {α : Type} (a : List α) (f : α → Hir) (pre rest : List Char) :
    altTries (a.map f) pre rest = a.flatMap fun c => (f c).tries pre rest := by
  induction a with
  | nil => rfl
  | cons c a ih => simp [altTries, ih]

/-! ## Alternations -/

/-- First the common beginning, then the branch, then its rest. -/
def liftTries (a : Alternation) (rest : List Char) : List (Choice × List Char × List Cap) :=
  (branchTries ((a.headD []).take (liftLen a)) rest).flatMap fun s =>
    (a.zipIdx.flatMap fun c => (branchTries (c.1.drop (liftLen a)) (rest.drop s.2.length)).map fun t => (c.2, t)).map fun t =>
      (.branch t.1 (s.1 ++ t.2.1), s.2 ++ t.2.2, [])

theorem map_zipIdx {α β : Type} (a : List α) (f : α → List β) (k : Nat) : (a.zipIdx k).flatMap (fun c => f c.1) = a.flatMap f := by
  induction a generalizing k with
  | nil => rfl
  | cons x a ih => simp [ih]

theorem liftTries_same {a : Alternation} (h2 : 2 ≤ a.length) (h : ∀ c ∈ a, GoodBranch c) (pre rest : List Char) :
    Same ((mkAlternation (a.map fun c => mkConcat (branchHirs c))).tries pre rest) ((liftTries a rest).map (·.2)) := by
  cases a with
  | nil => simp at h2
  | cons b bs =>
    refine (alternation_same (by simpa using h2) h pre rest).trans (.of_eq ?_)
    have e1 : ∀ c, (branchHirs c).take (liftLen (b :: bs)) = branchHirs (c.take (liftLen (b :: bs))) := fun c => by simp [branchHirs]
    have e2 : ∀ c, (branchHirs c).drop (liftLen (b :: bs)) = branchHirs (c.drop (liftLen (b :: bs))) := fun c => by simp [branchHirs]
    simp only [e1, e2]
    rw [catTries_branch (fun q hq => (h b (by simp)).full q (List.mem_of_mem_take hq))]
    simp only [altTries_map, tries_mkConcat]
    have e3 : ∀ p r, (b :: bs).flatMap (fun c => catTries (branchHirs (c.drop (liftLen (b :: bs)))) p r) =
        (b :: bs).flatMap fun c => (branchTries (c.drop (liftLen (b :: bs))) r).map fun a => (a.2, []) := by
      intro p r
      rw [List.flatMap_def, List.flatMap_def]
      congr 1
      refine List.map_congr_left fun c hc => ?_
      exact catTries_branch (fun q hq => (h c hc).full q (List.mem_of_mem_drop hq)) _ _
    simp only [e3]
    simp only [liftTries, List.headD_cons, andThen, List.flatMap_map, List.map_flatMap, List.map_map, Function.comp_def]
    congr 1
    funext s
    exact (map_zipIdx (b :: bs) (fun c => (branchTries (c.drop (liftLen (b :: bs))) (rest.drop s.2.length)).map fun t =>
      (s.2 ++ t.2, ([] : List Cap))) 0).symm

theorem mem_liftTries {a : Alternation} (rest : List Char) (c : Choice) (x : List Char) (l : List Cap) :
    (c, x, l) ∈ liftTries a rest ↔ l = [] ∧ ∃ i s b, c = .branch i s ∧ a[i]? = some b ∧ (s, x) ∈ branchTries b rest := by
  have key : ∀ b ∈ a, branchTries ((a.headD []).take (liftLen a)) = branchTries (b.take (liftLen a)) := by
    intro b hb
    cases a with
    | nil => cases hb
    | cons b0 bs =>
      refine branchTries_congr ?_
      rw [List.headD_cons, List.map_take, List.map_take, liftLen_parts hb]
  have split : ∀ b s, (s, x) ∈ branchTries b rest ↔ ∃ u ∈ branchTries (b.take (liftLen a)) rest,
      ∃ t ∈ branchTries (b.drop (liftLen a)) (rest.drop u.2.length), (s, x) = (u.1 ++ t.1, u.2 ++ t.2) := by
    intro b s
    have := branchTries_append (b.take (liftLen a)) (b.drop (liftLen a)) rest
    rw [List.take_append_drop] at this
    rw [this]
    simp only [List.mem_flatMap, List.mem_map]
    constructor
    · rintro ⟨u, hu, t, ht, h⟩; exact ⟨u, hu, t, ht, h.symm⟩
    · rintro ⟨u, hu, t, ht, h⟩; exact ⟨u, hu, t, ht, h.symm⟩
  simp only [liftTries, List.mem_flatMap, List.mem_map, Prod.mk.injEq]
  constructor
  · rintro ⟨u, hu, t, ⟨⟨b, i⟩, hbi, t', ht, rfl⟩, rfl, rfl, rfl⟩
    rw [List.mk_mem_zipIdx_iff_getElem?] at hbi
    refine ⟨rfl, i, _, b, rfl, hbi, (split b _).2 ⟨u, ?_, t', ht, rfl⟩⟩
    rw [← key b (List.mem_of_getElem? hbi)]
    exact hu
  · rintro ⟨rfl, i, s, b, rfl, hbi, hs⟩
    obtain ⟨u, hu, t, ht, he⟩ := (split b s).1 hs
    simp only [Prod.mk.injEq] at he
    obtain ⟨rfl, rfl⟩ := he
    refine ⟨u, ?_, (i, t), ⟨(b, i), List.mk_mem_zipIdx_iff_getElem?.2 hbi, t, ht, rfl⟩, rfl, rfl, rfl⟩
    rw [key b (List.mem_of_getElem? hbi)]
    exact hu

theorem takenBefore_append (u : List Bool) {s t : List Bool} (h : TakenBefore s t) : TakenBefore (u ++ s) (u ++ t) := by
  induction u with
  | nil => exact h
  | cons b u ih => exact .there _ _ _ ih

theorem sorts_liftTries {a : Alternation} (h : ∀ c ∈ a, GoodBranch c) (rest : List Char) :
    Sorts (fun x y : CTry => ∃ i s j t, x.1 = .branch i s ∧ y.1 = .branch j t ∧ BranchBefore a i s j t) (liftTries a rest) := by
  cases a with
  | nil => rw [show liftTries [] rest = [] by simp [liftTries]]; exact .nil
  | cons b bs =>
    have hlong : LongestBeginning (b :: bs) ((b.map Alternative.part).take (beginning b bs).length) := longest_iff.2 rfl
    have hk := liftLen_optionals h
    have hlen : ∀ u ∈ branchTries (((b :: bs).headD []).take (liftLen (b :: bs))) rest,
        u.1.length = (((b.map Alternative.part).take (beginning b bs).length).filter (·.1)).length := by
      intro u hu
      rw [branchTries_length hu, ← hk, List.headD_cons, List.map_take]
    refine Sorts.flatMap (B1 := fun u v => TakenBefore u.1 v.1)
      (B2 := fun _ (x y : Nat × List Bool × List Char) => x.1 < y.1 ∨ x.1 = y.1 ∧ TakenBefore x.2.1 y.2.1)
      (sorts_branchTries _ _) ?_ ?_ ?_
    · intro u _
      refine Sorts.flatMap (B1 := fun x y : SingleAlternation × Nat => x.2 < y.2)
        (B2 := fun _ (a c : List Bool × List Char) => TakenBefore a.1 c.1) (Sorts.zipIdx _ 0)
        (fun _ _ => sorts_branchTries _ _) (fun _ _ _ _ h _ _ _ _ => .inl h) (fun _ _ _ _ _ _ h => .inr ⟨rfl, h⟩)
    · intro u hu v hv huv x _ y _
      refine ⟨_, _, _, _, rfl, rfl, _, _, hlong, rfl, .inl ?_⟩
      rw [← hlen u hu, List.take_left, hlen u hu, ← hlen v hv, List.take_left]
      exact huv
    · intro u hu x _ y _ hxy
      refine ⟨_, _, _, _, rfl, rfl, _, _, hlong, rfl, .inr ⟨?_, ?_⟩⟩
      · rw [← hlen u hu, List.take_left, List.take_left]
      · exact hxy.imp id fun h => ⟨h.1, takenBefore_append _ h.2⟩

/-! ## Elements -/

variable (T : Tables)

def elemTriesH : SingleExpression → (g : Nat) → (pre rest : List Char) → List CTry
  | .alternation a, _, _, rest => liftTries a rest
  | e, g, pre, rest => elemTries T.tests e g pre rest

/-- What the elements of accepted expressions satisfy. -/
def GoodElem : SingleExpression → Prop
  | .alternation a => 2 ≤ a.length ∧ ∀ b ∈ a, GoodBranch b
  | e => FullElem e

theorem settled_lits (u : List Char) (i : Nat) : AllSettled T (u.map .lit) i := by
  induction u generalizing i with
  | nil => trivial
  | cons c u ih => exact ⟨trivial, ih _⟩

theorem toRes_lits (u : List Char) : Ast.toRes (u.map .lit) = u.map .lit := by
  rw [Ast.toRes_map, List.map_map]; rfl

theorem valid_lits (u : List Char) : Ast.AllValid (u.map .lit) := by
  rw [allValid_iff]
  intro a ha
  obtain ⟨c, -, rfl⟩ := List.mem_map.1 ha
  trivial

theorem elem_same (e : SingleExpression) (he : GoodElem e) (hb : ∀ p, e = .parameter p → IsBuiltin p) (g : Nat) (pre rest : List Char) :
    Same (catTries (translateL T (elemAsts bAst e) g).1 pre rest) ((elemTriesH T e g pre rest).map (·.2)) ∧
      (translateL T (elemAsts bAst e) g).2 = g + e.groupCount := by
  have hlits : ∀ u : List Char, (translateL T (u.map .lit) g).2 = g := fun u => by rw [translateL_lits]
  cases e with
  | text t =>
    refine ⟨(translateL_cat T _ _ (valid_lits _) (settled_lits T _ _) _ _).trans (.of_eq ?_), hlits _⟩
    rw [toRes_lits]
    exact tries_elem (.text t) trivial g pre rest
  | whitespaces t =>
    refine ⟨(translateL_cat T _ _ (valid_lits _) (settled_lits T _ _) _ _).trans (.of_eq ?_), hlits _⟩
    rw [toRes_lits]
    exact tries_elem (.whitespaces t) he g pre rest
  | optional o =>
    have ho : unescape o.input.frag ≠ [] := he
    simp only [elemAsts, altAsts, translateL, translate_optional T ho, catTries_single]
    refine ⟨.of_eq ?_, rfl⟩
    rw [tries_optional ho]
    simp [elemTriesH, elemTries]
  | alternation a =>
    simp only [elemAsts, translateL, translate_alternation T he.1 he.2, catTries_single]
    exact ⟨liftTries_same he.1 he.2 pre rest, rfl⟩
  | parameter p =>
    obtain ⟨b, hn⟩ := hb p rfl
    simp only [elemAsts, translateL, bAst_named hn, catTries_single]
    refine ⟨(translate_same T _ g (valid_builtin b p.id) (settled_builtin T b p.id g) pre rest).trans (.of_eq ?_), ?_⟩
    · rw [toRe_builtin]
      simp [elemTriesH, elemTries, bRe_named hn, Function.comp_def]
    · rw [translate_next, toRe_builtin]
      have := groupCount_items (.parameter p) hb
      simpa [elemItems, catL, bRe_named hn] using this

theorem mem_elemTriesH (e : SingleExpression) (hb : ∀ p, e = .parameter p → IsBuiltin p) (g : Nat) (pre rest : List Char)
    (c : Choice) (x : List Char) (l : List Cap) : (c, x, l) ∈ elemTriesH T e g pre rest ↔
      e.Fits T.classes g pre.length c x l ∧ ∃ post, rest = x ++ post := by
  cases e with
  | alternation a =>
    rw [elemTriesH, mem_liftTries]
    constructor
    · rintro ⟨rfl, i, s, b, rfl, hi, h⟩
      obtain ⟨h1, h2⟩ := (mem_branchTries _ _ _ _).1 h
      exact ⟨⟨⟨b, hi, h1⟩, rfl⟩, h2⟩
    · rintro ⟨h, hp⟩
      cases c <;> simp only [SingleExpression.Fits] at h
      obtain ⟨⟨b, hi, h⟩, rfl⟩ := h
      exact ⟨rfl, _, _, b, rfl, hi, (mem_branchTries _ _ _ _).2 ⟨h, hp⟩⟩
  | _ => exact mem_elemTries (T := T.tests) _ hb g pre rest c x l

theorem sorts_elemH (hs : SaneDigits T.classes) (e : SingleExpression) (he : GoodElem e) (hb : ∀ p, e = .parameter p → IsBuiltin p)
    (g : Nat) (pre rest : List Char) :
    Sorts (fun a b : CTry => e.TriedBefore T.classes a.1 b.1) (elemTriesH T e g pre rest) := by
  cases e with
  | alternation a =>
    refine (sorts_liftTries he.2 rest).mono ?_
    rintro ⟨c, x⟩ _ ⟨d, y⟩ _ ⟨i, s, j, t, h1, h2, h⟩
    simp only at h1 h2
    subst h1 h2
    exact h
  | _ => exact sorts_elem (T := T.tests) hs _ hb g pre rest

/-! ## Expressions -/

def seqTriesH : Expression → (g : Nat) → (pre rest : List Char) → List (List Choice × Try)
  | [], _, _, _ => [([], [], [])]
  | e :: es, g, pre, rest => (elemTriesH T e g pre rest).flatMap fun a =>
    (seqTriesH es (g + e.groupCount) (pre ++ a.2.1) (rest.drop a.2.1.length)).map fun b =>
      (a.1 :: b.1, a.2.1 ++ b.2.1, a.2.2 ++ b.2.2)

theorem seq_same (e : Expression) (he : ∀ x ∈ e, GoodElem x) (hb : AllBuiltin e) (g : Nat) (pre rest : List Char) :
    Same (catTries (translateL T (e.map (elemAsts bAst)).flatten g).1 pre rest) ((seqTriesH T e g pre rest).map (·.2)) := by
  induction e generalizing g pre rest with
  | nil => exact .refl _
  | cons x e ih =>
    obtain ⟨h1, h2⟩ := elem_same T x (he x (by simp)) (fun p hp => hb p (by simp [hp])) g pre rest
    rw [List.map_cons, List.flatten_cons, translateL_append, catTries_append, h2]
    refine (h1.andThen fun y => ih (fun y hy => he y (by simp [hy])) (fun p hp => hb p (by simp [hp])) _ _ _).trans (.of_eq ?_)
    simp only [seqTriesH, andThen, List.flatMap_map, List.map_flatMap, List.map_map, Function.comp_def]

theorem mem_seqTriesH (e : Expression) (hb : AllBuiltin e) (g : Nat) (pre rest : List Char) (cs : List Choice)
    (x : List Char) (l : List Cap) : (cs, x, l) ∈ seqTriesH T e g pre rest ↔
      Fits T.classes e g pre.length cs x l ∧ ∃ post, rest = x ++ post := by
  induction e generalizing g pre rest cs x l with
  | nil =>
    simp only [seqTriesH, List.mem_singleton, Prod.mk.injEq]
    constructor
    · rintro ⟨rfl, rfl, rfl⟩; exact ⟨.nil _ _, rest, rfl⟩
    · rintro ⟨h, -⟩; cases h; exact ⟨rfl, rfl, rfl⟩
  | cons e es ih =>
    have ih := ih (fun p hp => hb p (by simp [hp]))
    simp only [seqTriesH, List.mem_flatMap, List.mem_map, Prod.exists, Prod.mk.injEq]
    constructor
    · rintro ⟨c, y, k, h1, ds, z, m, h2, rfl, rfl, rfl⟩
      obtain ⟨h1', post, rfl⟩ := (mem_elemTriesH T e (fun p hp => hb p (by simp [hp])) _ _ _ _ _ _).1 h1
      rw [List.drop_left] at h2
      obtain ⟨h3, post', rfl⟩ := (ih _ _ _ _ _ _).1 h2
      rw [List.length_append] at h3
      exact ⟨.cons _ _ _ _ _ _ _ _ _ _ h1' h3, post', by simp⟩
    · rintro ⟨h, post, rfl⟩
      cases h with
      | cons _ _ _ _ c cs y z k m h1 h2 =>
        refine ⟨c, y, k, (mem_elemTriesH T e (fun p hp => hb p (by simp [hp])) _ _ _ _ _ _).2 ⟨h1, z ++ post, by simp⟩,
          cs, z, m, (ih _ _ _ _ _ _).2 ⟨by rw [List.length_append]; exact h2, post, ?_⟩, rfl, rfl, rfl⟩
        rw [List.append_assoc, List.drop_left]

theorem sorts_seqH (hs : SaneDigits T.classes) (e : Expression) (he : ∀ x ∈ e, GoodElem x) (hb : AllBuiltin e) (g : Nat)
    (pre rest : List Char) :
    Sorts (fun a b : List Choice × Try => PreferredBy (SingleExpression.TriedBefore T.classes) e a.1 b.1) (seqTriesH T e g pre rest) := by
  induction e generalizing g pre rest with
  | nil => exact .single _
  | cons e es ih =>
    exact Sorts.flatMap (B1 := fun a b : CTry => e.TriedBefore T.classes a.1 b.1)
      (B2 := fun _ (a b : List Choice × Try) => PreferredBy (SingleExpression.TriedBefore T.classes) es a.1 b.1)
      (sorts_elemH T hs e (he e (by simp)) (fun p hp => hb p (by simp [hp])) _ _ _)
      (fun _ _ => ih (fun y hy => he y (by simp [hy])) (fun p hp => hb p (by simp [hp])) _ _ _)
      (fun _ _ _ _ h _ _ _ _ => .here _ _ _ _ _ _ h) (fun _ _ _ _ _ _ h => .there _ _ _ _ _ h)

/-! ## The whole regex -/

theorem hirTries_expr (e : Expression) (he : ∀ x ∈ e, GoodElem x) (hb : AllBuiltin e) (w : List Char) :
    Same ((translate T (exprAst bAst e) 1).1.tries [] w)
      (((seqTriesH T e 1 [] w).filter fun a => (w.drop a.2.1.length).isEmpty).map (·.2)) := by
  rw [exprAst, translate, translateL, translateL_append, tries_mkConcat, catTries, translate, Hir.tries]
  simp only [List.isEmpty_nil, if_true, andThen_nil, List.nil_append, List.length_nil, List.drop_zero]
  rw [catTries_append]
  refine ((seq_same T e he hb 1 [] w).andThen fun _ => .refl _).trans (.of_eq ?_)
  simp only [translateL, translate, catTries_single, Hir.tries]
  generalize seqTriesH T e 1 [] w = L
  induction L with
  | nil => rfl
  | cons a L ih =>
    simp only [andThen] at ih
    rw [List.map_cons, andThen, List.flatMap_cons, ih, List.filter_cons]
    by_cases h : (w.drop a.2.1.length).isEmpty = true <;> simp [h]

theorem hirTries_later (e : Expression) {pre : List Char} (hp : pre ≠ []) (rest : List Char) :
    (translate T (exprAst bAst e) 1).1.tries pre rest = [] := by
  rw [exprAst, translate, translateL, tries_mkConcat, catTries, translate, Hir.tries]
  simp [hp, andThen]

theorem hirFind_expr (e : Expression) (he : ∀ x ∈ e, GoodElem x) (hb : AllBuiltin e) (w : List Char) :
    (translate T (exprAst bAst e) 1).1.find w =
      ((seqTriesH T e 1 [] w).find? fun a => (w.drop a.2.1.length).isEmpty).map fun a => (0, a.2) := by
  unfold Hir.find
  rw [List.range_succ_eq_map, List.findSome?_cons]
  have h0 : ((translate T (exprAst bAst e) 1).1.tries (w.take 0) (w.drop 0)).head? =
      ((seqTriesH T e 1 [] w).find? fun a => (w.drop a.2.1.length).isEmpty).map (·.2) := by
    rw [List.take_zero, List.drop_zero, (hirTries_expr T e he hb w).head?, List.head?_map, List.head?_filter]
  rw [h0]
  cases hf : (seqTriesH T e 1 [] w).find? fun a => (w.drop a.2.1.length).isEmpty with
  | some a => rfl
  | none =>
    simp only [Option.map_none]
    rw [List.findSome?_eq_none_iff]
    intro i hi
    obtain ⟨j, hj, rfl⟩ := List.mem_map.1 hi
    have hj := List.mem_range.1 hj
    rw [hirTries_later]
    · rfl
    · intro hn
      have := congrArg List.length hn
      rw [List.length_take, List.length_nil] at this
      omega

end CE
