import Verif.Proof.Like
import Verif.Proof.HirPrint
import Verif.Proof.Ranges

/-! # The constructors of the HIR keep its meaning; renaming changes names only -/

namespace CE.Hir
open Spec Regex

/-! ## Lists -/

theorem toRes_append (a b : List Hir) : toRes (a ++ b) = toRes a ++ toRes b := by
  induction a with
  | nil => rfl
  | cons h a ih => simp [toRes, ih]

theorem toRes_map (a : List Hir) : toRes a = a.map toRe := by
  induction a with
  | nil => rfl
  | cons h a ih => simp [toRes, ih]

theorem indicesL_append (a b : List Hir) : indicesL (a ++ b) = indicesL a ++ indicesL b := by
  induction a with
  | nil => rfl
  | cons h a ih => simp [indicesL, ih]

theorem wfAll_append (a b : List Hir) : WfAll (a ++ b) ↔ WfAll a ∧ WfAll b := by
  induction a with
  | nil => simp [WfAll]
  | cons h a ih => simp [WfAll, ih, and_assoc]

theorem wfAll_iff (a : List Hir) : WfAll a ↔ ∀ h ∈ a, h.Wf := by
  induction a with
  | nil => simp [WfAll]
  | cons h a ih => simp [WfAll, ih]

mutual
theorem groups_length : ∀ h : Hir, h.toRe.groups.length = h.indices.length
  | .empty => rfl
  | .literal cs => by
    have : ((cs.map Re.lit).map Re.groups).flatten = [] := by
      induction cs with
      | nil => rfl
      | cons c u ih => simp [Re.groups]
    simp only [toRe, groups_catL, this, indices]; rfl
  | .cls _ => rfl
  | .look .start => rfl
  | .look .finish => rfl
  | .look (.mark _ _) => rfl
  | .repetition _ _ _ sub => groups_length sub
  | .capture _ _ sub => by simp [toRe, Re.groups, indices, groups_length sub]
  | .concat subs => by simp only [toRe, groups_catL, indices]; exact groups_lengths subs
  | .alternation subs => by simp only [toRe, groups_altL, indices]; exact groups_lengths subs
theorem groups_lengths : ∀ hs : List Hir, ((toRes hs).map Re.groups).flatten.length = (indicesL hs).length
  | [] => rfl
  | h :: hs => by
    simp only [toRes, indicesL, List.map_cons, List.flatten_cons, List.length_append, groups_length h, groups_lengths hs]
end

/-- The same regular expression up to the shape of the tree: groups, meaning and indices agree. -/
def SameCat (a b : List Hir) : Prop := (catL (toRes a)).groups = (catL (toRes b)).groups ∧
  Like (catL (toRes a)) (catL (toRes b)) ∧ indicesL a = indicesL b

theorem SameCat.refl (a : List Hir) : SameCat a a := ⟨rfl, Like.refl _, rfl⟩

theorem SameCat.trans {a b c : List Hir} (h : SameCat a b) (h' : SameCat b c) : SameCat a c :=
  ⟨h.1.trans h'.1, h.2.1.trans h'.2.1, h.2.2.trans h'.2.2⟩

theorem SameCat.append {a a' b b' : List Hir} (h : SameCat a a') (h' : SameCat b b') : SameCat (a ++ b) (a' ++ b') := by
  refine ⟨?_, ?_, ?_⟩
  · have h1 := h.1
    have h2 := h'.1
    rw [groups_catL, groups_catL] at h1 h2 ⊢
    simp only [toRes_append, List.map_append, List.flatten_append, h1, h2]
  · rw [toRes_append, toRes_append]; exact h.2.1.catL_append h'.2.1
  · rw [indicesL_append, indicesL_append, h.2.2, h'.2.2]

/-! ## Concatenations -/

theorem flatConcat_same : ∀ hs : List Hir, SameCat (flatConcat hs) hs
  | [] => .refl _
  | h :: hs => by
    have ih := flatConcat_same hs
    cases h with
    | concat subs =>
      have h1 : SameCat subs [.concat subs] := ⟨rfl, Like.refl _, by simp [indicesL, indices]⟩
      exact h1.append ih
    | empty =>
      have h1 : SameCat [] [.empty] := ⟨rfl, Like.refl _, rfl⟩
      exact h1.append ih
    | _ => exact (SameCat.refl [_]).append ih

theorem flatConcat_wf : ∀ hs : List Hir, WfAll hs → WfAll (flatConcat hs)
  | [], _ => trivial
  | h :: hs, hw => by
    have ih := flatConcat_wf hs hw.2
    cases h with
    | concat subs => exact (wfAll_append ..).2 ⟨hw.1, ih⟩
    | empty => exact ih
    | _ => exact ⟨hw.1, ih⟩

theorem same_lits (a b : List Char) : SameCat [.literal (a ++ b)] [.literal a, .literal b] := by
  have hg : ∀ u : List Char, (catL (u.map Re.lit)).groups = [] := by
    intro u
    rw [groups_catL]
    induction u with
    | nil => rfl
    | cons c u ih => simp [Re.groups]
  refine ⟨?_, ⟨?_, fun U g pre x post l => ?_⟩, rfl⟩
  · simp only [toRes, toRe, catL, Re.groups, hg]; rfl
  · simp only [toRes, toRe, catL, Re.groups, hg]; rfl
  · simp only [toRes, toRe, catL, Re.Match, hg, match_lits]
    constructor
    · rintro ⟨rfl, rfl⟩; exact ⟨a, b, [], [], rfl, rfl, ⟨rfl, rfl⟩, rfl, rfl⟩
    · rintro ⟨y, z, k, m, rfl, rfl, ⟨rfl, rfl⟩, rfl, rfl⟩; exact ⟨rfl, rfl⟩

theorem joinLits_same : ∀ hs : List Hir, SameCat (joinLits hs) hs
  | [] => .refl _
  | h :: hs => by
    have ih := joinLits_same hs
    rw [joinLits.eq_def]
    simp only []
    split
    · rename_i a b rest he
      rw [he] at ih
      have h1 : SameCat (.literal (a ++ b) :: rest) (.literal a :: .literal b :: rest) := (same_lits a b).append (.refl rest)
      exact h1.trans ((SameCat.refl [.literal a]).append ih)
    · exact (SameCat.refl [_]).append ih

theorem joinLits_wf : ∀ hs : List Hir, WfAll hs → WfAll (joinLits hs)
  | [], _ => trivial
  | h :: hs, hw => by
    have ih := joinLits_wf hs hw.2
    rw [joinLits.eq_def]
    simp only []
    split
    · rename_i a b rest he
      rw [he] at ih
      refine ⟨?_, ih.2⟩
      have : a ≠ [] := hw.1
      simp [Wf, this]
    · exact ⟨hw.1, ih⟩

theorem mkConcat_ok (hs : List Hir) : (mkConcat hs).toRe.groups = (catL (toRes hs)).groups ∧
    Like (mkConcat hs).toRe (catL (toRes hs)) ∧ (mkConcat hs).indices = indicesL hs := by
  have h := (joinLits_same (flatConcat hs)).trans (flatConcat_same hs)
  unfold mkConcat
  split
  · rename_i he; rw [he] at h; exact h
  · rename_i k he
    rw [he] at h
    exact ⟨h.1, h.2.1, by have := h.2.2; simpa [indicesL] using this⟩
  · exact h

theorem mkConcat_wf (hs : List Hir) (hw : WfAll hs) : (mkConcat hs).Wf := by
  have h := joinLits_wf _ (flatConcat_wf hs hw)
  unfold mkConcat
  split
  · trivial
  · rename_i k he; rw [he] at h; exact h.1
  · exact h

/-! ## Alternations -/

theorem flatAlternation_ne : ∀ hs : List Hir, hs ≠ [] → WfAll hs → flatAlternation hs ≠ []
  | [], h, _ => absurd rfl h
  | h :: hs, _, hw => by
    cases h with
    | alternation subs => simp [flatAlternation, hw.1.1]
    | _ => simp [flatAlternation]

theorem flatAlternation_wf : ∀ hs : List Hir, WfAll hs → WfAll (flatAlternation hs)
  | [], _ => trivial
  | h :: hs, hw => by
    have ih := flatAlternation_wf hs hw.2
    cases h with
    | alternation subs => exact (wfAll_append ..).2 ⟨hw.1.2, ih⟩
    | _ => exact ⟨hw.1, ih⟩

theorem flatAlternation_indices : ∀ hs : List Hir, indicesL (flatAlternation hs) = indicesL hs
  | [] => rfl
  | h :: hs => by
    have ih := flatAlternation_indices hs
    cases h with
    | alternation subs => simp [flatAlternation, indicesL_append, ih, indicesL, indices]
    | _ => simp [flatAlternation, ih, indicesL]

theorem toRes_ne {hs : List Hir} (h : hs ≠ []) : toRes hs ≠ [] := by
  cases hs with
  | nil => exact absurd rfl h
  | cons => simp [toRes]

theorem flatAlternation_like : ∀ hs : List Hir, WfAll hs →
    (altL (toRes (flatAlternation hs))).groups = (altL (toRes hs)).groups ∧
    Like (altL (toRes (flatAlternation hs))) (altL (toRes hs))
  | [], _ => ⟨rfl, Like.refl _⟩
  | h :: hs, hw => by
    have ih := flatAlternation_like hs hw.2
    have key : ∀ subs : List Hir, subs ≠ [] → flatAlternation (h :: hs) = subs ++ flatAlternation hs →
        (altL (toRes subs)).groups = h.toRe.groups → Like (altL (toRes subs)) h.toRe →
        (altL (toRes (flatAlternation (h :: hs)))).groups = (altL (toRes (h :: hs))).groups ∧
          Like (altL (toRes (flatAlternation (h :: hs)))) (altL (toRes (h :: hs))) := by
      intro subs hne he hg hl
      rw [he, toRes_append]
      have e2 : toRes (h :: hs) = [h.toRe] ++ toRes hs := rfl
      refine ⟨?_, ?_⟩
      · rw [groups_altL_append, e2, groups_altL_append, hg, ih.1]; rfl
      · by_cases hh : hs = []
        · subst hh
          simp only [flatAlternation, toRes, List.append_nil]
          exact hl
        · rw [e2]
          exact Like.altL_append (rs' := [h.toRe]) hl ih.2 (toRes_ne hne) (by simp)
            (toRes_ne (flatAlternation_ne hs hh hw.2)) (toRes_ne hh)
    cases h with
    | alternation subs => exact key subs hw.1.1 rfl rfl (Like.refl _)
    | _ => exact key [_] (by simp) rfl rfl (Like.refl _)

theorem mem_rangeItems {U : Classes} {rs : List (Char × Char)} (c : Char) :
    (∃ i ∈ rs.flatMap rangeItems, i.mem U c) ↔ Ranges.mem rs c = true := by
  simp only [Ranges.mem, List.any_eq_true, decide_eq_true_eq, List.mem_flatMap]
  have key : ∀ r : Char × Char, (∃ i ∈ rangeItems r, i.mem U c) ↔ r.1 ≤ c ∧ c ≤ r.2 := by
    rintro ⟨a, b⟩
    unfold rangeItems
    have ext : ∀ c d : Char, c = d ↔ c.toNat = d.toNat := fun c d => Char.toNat_inj.symm
    split
    · rename_i h
      simp only at h
      subst h
      simp only [List.mem_singleton, exists_eq_left, CItem.mem, Ranges.le_iff_toNat, ext]
      omega
    · split
      · rename_i h1 h2
        simp only at h1 h2
        simp only [List.mem_cons, List.not_mem_nil, or_false, exists_eq_or_imp, exists_eq_left, CItem.mem, Ranges.le_iff_toNat, ext]
        omega
      · simp only [List.mem_singleton, exists_eq_left, CItem.mem]
  constructor
  · rintro ⟨i, ⟨r, hr, hi⟩, hm⟩; exact ⟨r, hr, (key r).1 ⟨i, hi, hm⟩⟩
  · rintro ⟨r, hr, h⟩
    obtain ⟨i, hi, hm⟩ := (key r).2 h
    exact ⟨i, ⟨r, hr, hi⟩, hm⟩

theorem mem_classItems {U : Classes} {rs : List (Char × Char)} (c : Char) :
    (∃ i ∈ classItems rs, i.mem U c) ↔ Ranges.mem rs c = true := by
  cases rs with
  | nil =>
    simp only [classItems, List.mem_singleton, exists_eq_left, CItem.mem, Ranges.mem, List.any_nil]
    constructor
    · rintro ⟨rfl, h⟩; exact absurd h (by decide)
    · intro h; cases h
  | cons r rs => exact mem_rangeItems c

theorem cls_match {U : Classes} {rs : List (Char × Char)} {g : Nat} {pre x post : List Char} {l : List Cap} :
    (Re.cls ⟨false, classItems rs⟩).Match U g pre x post l ↔ (∃ c, Ranges.mem rs c = true ∧ x = [c]) ∧ l = [] := by
  simp only [Re.Match, Cls.mem, mem_classItems]

theorem mixedRanges_ok : ∀ (hs : List Hir) (rs : List (Char × Char)), mixedRanges hs = some rs → WfAll hs →
    (∀ r ∈ toRes hs, r.groups = []) ∧ indicesL hs = [] ∧ (∀ r ∈ rs, r.1 ≤ r.2) ∧
    ∀ (U : Classes) (g : Nat) (pre x post : List Char) (l : List Cap), (∃ r ∈ toRes hs, r.Match U g pre x post l) ↔
      (Re.cls ⟨false, classItems rs⟩).Match U g pre x post l
  | [], rs, h, _ => by
    cases h
    refine ⟨by simp [toRes], rfl, by simp, fun U g pre x post l => ?_⟩
    rw [cls_match]; simp [toRes, Ranges.mem]
  | h :: hs, rs, hc, hw => by
    have step : ∀ qs : List (Char × Char), (mixedRanges hs).map (qs ++ ·) = some rs → (∀ r ∈ qs, r.1 ≤ r.2) →
        h.toRe.groups = [] → h.indices = [] →
        (∀ (U : Classes) (g : Nat) (pre x post : List Char) (l : List Cap), h.toRe.Match U g pre x post l ↔
          (Re.cls ⟨false, classItems qs⟩).Match U g pre x post l) →
        (∀ r ∈ toRes (h :: hs), r.groups = []) ∧ indicesL (h :: hs) = [] ∧ (∀ r ∈ rs, r.1 ≤ r.2) ∧
          ∀ (U : Classes) (g : Nat) (pre x post : List Char) (l : List Cap), (∃ r ∈ toRes (h :: hs), r.Match U g pre x post l) ↔
            (Re.cls ⟨false, classItems rs⟩).Match U g pre x post l := by
      intro qs he hle hg hi hm
      cases hcr : mixedRanges hs with
      | none => rw [hcr] at he; cases he
      | some ts =>
        rw [hcr] at he
        cases he
        obtain ⟨i1, i2, i3, i5⟩ := mixedRanges_ok hs ts hcr hw.2
        refine ⟨by simpa [toRes] using ⟨hg, i1⟩, by simp [indicesL, hi, i2], ?_, fun U g pre x post l => ?_⟩
        · intro r hr
          rcases List.mem_append.1 hr with hr | hr
          · exact hle r hr
          · exact i3 r hr
        · have h2 := i5 U g pre x post l
          have h1 := hm U g pre x post l
          rw [cls_match] at h1 h2 ⊢
          simp only [toRes, List.mem_cons, exists_eq_or_imp, h1, h2, Ranges.mem, List.any_append, Bool.or_eq_true]
          constructor
          · rintro (⟨⟨c, hm, rfl⟩, rfl⟩ | ⟨⟨c, hm, rfl⟩, rfl⟩)
            · exact ⟨⟨c, .inl hm, rfl⟩, rfl⟩
            · exact ⟨⟨c, .inr hm, rfl⟩, rfl⟩
          · rintro ⟨⟨c, hm | hm, rfl⟩, rfl⟩
            · exact .inl ⟨⟨c, hm, rfl⟩, rfl⟩
            · exact .inr ⟨⟨c, hm, rfl⟩, rfl⟩
    have lit : ∀ c : Char, h = .literal [c] → ∀ (U : Classes) (g : Nat) (pre x post : List Char) (l : List Cap),
        h.toRe.Match U g pre x post l ↔ (Re.cls ⟨false, classItems [(c, c)]⟩).Match U g pre x post l := by
      rintro c rfl U g pre x post l
      simp [toRe, catL, Re.Match, Cls.mem, classItems, rangeItems, CItem.mem]
    unfold mixedRanges at hc
    split at hc
    · rename_i he; cases he
    · rename_i c hs' he
      cases he
      exact step [(c, c)] hc (by simp) rfl rfl (lit c rfl)
    · rename_i qs hs' he
      cases he
      exact step qs hc hw.1 rfl rfl (fun _ _ _ _ _ _ => Iff.rfl)
    · cases hc

theorem cls_like {rs qs : List (Char × Char)} (h : ∀ c, Ranges.mem rs c = true ↔ Ranges.mem qs c = true) :
    Like (.cls ⟨false, classItems rs⟩) (.cls ⟨false, classItems qs⟩) := by
  refine ⟨rfl, fun U g pre x post l => ?_⟩
  simp only [Re.Match, Cls.mem, mem_classItems, h]

theorem mkClass_like (rs : List (Char × Char)) : (mkClass rs).toRe.groups = [] ∧ (mkClass rs).indices = [] ∧
    Like (mkClass rs).toRe (.cls ⟨false, classItems rs⟩) := by
  unfold mkClass
  split
  · split
    · rename_i a b hab
      subst hab
      refine ⟨rfl, rfl, rfl, fun U g pre x post l => ?_⟩
      simp [toRe, catL, Re.Match, Cls.mem, classItems, rangeItems, CItem.mem]
    · exact ⟨rfl, rfl, Like.refl _⟩
  · exact ⟨rfl, rfl, Like.refl _⟩

theorem mkClass_wf {rs : List (Char × Char)} (h : ∀ r ∈ rs, r.1 ≤ r.2) : (mkClass rs).Wf := by
  unfold mkClass
  split
  · split
    · simp [Wf]
    · exact h
  · exact h

theorem commonPrefix_left : ∀ a b : List Hir, commonPrefix a b <+: a
  | [], _ => by simp [commonPrefix]
  | a :: as, [] => by simp [commonPrefix]
  | a :: as, b :: bs => by
    rw [commonPrefix]
    split
    · rename_i h; simpa using commonPrefix_left as bs
    · simp

theorem commonPrefix_right : ∀ a b : List Hir, commonPrefix a b <+: b
  | [], _ => by simp [commonPrefix]
  | a :: as, [] => by simp [commonPrefix]
  | a :: as, b :: bs => by
    rw [commonPrefix]
    split
    · rename_i h; subst h; simpa using commonPrefix_right as bs
    · simp

theorem foldl_prefix : ∀ (cs : List (List Hir)) (c : List Hir),
    cs.foldl commonPrefix c <+: c ∧ ∀ d ∈ cs, cs.foldl commonPrefix c <+: d
  | [], c => ⟨List.prefix_refl _, by simp⟩
  | d :: cs, c => by
    obtain ⟨h1, h2⟩ := foldl_prefix cs (commonPrefix c d)
    refine ⟨h1.trans (commonPrefix_left c d), ?_⟩
    intro x hx
    rcases List.mem_cons.1 hx with rfl | hx
    · exact h1.trans (commonPrefix_right c x)
    · exact h2 x hx

theorem concats_eq : ∀ (hs : List Hir) (cs : List (List Hir)), concats hs = some cs → hs = cs.map .concat
  | [], cs, h => by cases h; rfl
  | h :: hs, cs, hc => by
    unfold concats at hc
    split at hc
    · rename_i he; cases he
    · rename_i subs hs' he
      cases he
      cases hcc : concats hs with
      | none => rw [hcc] at hc; cases hc
      | some ds => rw [hcc] at hc; cases hc; rw [List.map_cons, ← concats_eq hs ds hcc]
    · cases hc

theorem indicesL_concats (cs : List (List Hir)) : indicesL (cs.map .concat) = (cs.map indicesL).flatten := by
  induction cs with
  | nil => rfl
  | cons c cs ih => simp [indicesL, indices, ih]

theorem indicesL_mkConcats (cs : List (List Hir)) : indicesL (cs.map mkConcat) = (cs.map indicesL).flatten := by
  induction cs with
  | nil => rfl
  | cons c cs ih => simp [indicesL, (mkConcat_ok c).2.2, ih]

theorem mkAlternationF_ok : ∀ (n : Nat) (subs : List Hir), subs ≠ [] → WfAll subs → (indicesL subs).Nodup →
    (mkAlternationF n subs).toRe.groups = (altL (toRes subs)).groups ∧ Like (mkAlternationF n subs).toRe (altL (toRes subs)) ∧
    (mkAlternationF n subs).Wf ∧ (mkAlternationF n subs).indices = indicesL subs
  | 0, subs, hne, hw, _ => ⟨rfl, Like.refl _, ⟨hne, hw⟩, rfl⟩
  | n + 1, subs, hne, hw, hi => by
    have f1 := flatAlternation_ne subs hne hw
    have f2 := flatAlternation_wf subs hw
    have f3 := flatAlternation_indices subs
    obtain ⟨f4, f5⟩ := flatAlternation_like subs hw
    rw [mkAlternationF]
    split
    · rename_i he; exact absurd he f1
    · rename_i h he
      rw [he] at f2 f3 f4 f5
      exact ⟨f4, f5, f2.1, by simpa [indicesL] using f3⟩
    · rename_i hs hlong he
      rw [← f3] at hi ⊢
      rw [← f4]
      have goal : ∀ k : Hir, (k.toRe.groups = (altL (toRes (flatAlternation subs))).groups ∧
          Like k.toRe (altL (toRes (flatAlternation subs))) ∧ k.Wf ∧ k.indices = indicesL (flatAlternation subs)) →
          k.toRe.groups = (altL (toRes (flatAlternation subs))).groups ∧ Like k.toRe (altL (toRes subs)) ∧ k.Wf ∧
            k.indices = indicesL (flatAlternation subs) := fun k hk => ⟨hk.1, hk.2.1.trans f5, hk.2.2⟩
      apply goal
      clear goal f4 f5 f3
      generalize flatAlternation subs = hs at *
      have plain : (alternation hs).toRe.groups = (altL (toRes hs)).groups ∧ Like (alternation hs).toRe (altL (toRes hs)) ∧
          (alternation hs).Wf ∧ (alternation hs).indices = indicesL hs := ⟨rfl, Like.refl _, ⟨f1, f2⟩, rfl⟩
      split
      · rename_i rs hr
        obtain ⟨c1, c2, c3, c5⟩ := mixedRanges_ok hs rs (charRanges_mixed hr) f2
        obtain ⟨m1, m2, m3'⟩ := mkClass_like (Ranges.canon rs)
        have m3 := m3'.trans (cls_like fun c => Ranges.mem_canon rs c c3)
        have hg : (altL (toRes hs)).groups = [] := by
          rw [groups_altL]
          simpa [List.flatten_eq_nil_iff] using c1
        refine ⟨by rw [m1, hg], m3.trans ⟨by rw [hg]; rfl, fun U g pre x post l => ?_⟩, mkClass_wf (Ranges.canon_canonical rs c3).valid, by rw [m2, c2]⟩
        rw [match_altL _ (toRes_ne f1) c1, c5]
      · split
        · exact plain
        · exact plain
        · rename_i c cs hcc
          have hcs := concats_eq hs _ hcc
          split
          · exact plain
          · rename_i p hp
            generalize hpp : cs.foldl commonPrefix c = p at *
            have hpre : ∀ d ∈ c :: cs, p <+: d := by
              have := foldl_prefix cs c
              rw [hpp] at this
              intro d hd
              rcases List.mem_cons.1 hd with rfl | hd
              · exact this.1
              · exact this.2 d hd
            have hsplit : ∀ d ∈ c :: cs, p ++ d.drop p.length = d := fun d hd => by
              obtain ⟨t, ht⟩ := hpre d hd
              rw [← ht]; simp
            have hlen : ∃ c' cs', cs = c' :: cs' := by
              cases cs with
              | nil => exact absurd hcs (fun h => he _ h)
              | cons c' cs' => exact ⟨_, _, rfl⟩
            -- the beginning occurs at least twice, hence has no groups
            have hpi : indicesL p = [] := by
              obtain ⟨c', cs', rfl⟩ := hlen
              rw [hcs, indicesL_concats] at hi
              have e1 := hsplit c (by simp)
              have e2 := hsplit c' (by simp)
              rw [← e1, ← e2] at hi
              simp only [List.map_cons, List.flatten_cons, indicesL_append, List.append_assoc] at hi
              cases hq : indicesL p with
              | nil => rfl
              | cons i is =>
                rw [hq] at hi
                simp at hi
            have hpg : (catL (toRes p)).groups = [] := by
              apply List.eq_nil_of_length_eq_zero
              rw [groups_catL, groups_lengths, hpi]; rfl
            let ds := (c :: cs).map fun xs => xs.drop p.length
            have hds : ds ≠ [] := by simp [ds]
            have hmap : (c :: cs).map (fun xs => mkConcat (xs.drop p.length)) = ds.map mkConcat := by
              simp [ds, Function.comp_def]
            have hback : hs = ds.map fun d => .concat (p ++ d) := by
              rw [hcs]
              simp only [ds, List.map_map]
              refine List.map_congr_left fun d hd => ?_
              simp [hsplit d hd]
            have hwc : ∀ d ∈ c :: cs, WfAll d := by
              intro d hd
              rw [hcs, wfAll_iff] at f2
              exact f2 (.concat d) (List.mem_map.2 ⟨d, hd, rfl⟩)
            have hwp : WfAll p := by
              have := hwc c (by simp)
              rw [← hsplit c (by simp), wfAll_append] at this
              exact this.1
            have hwd : ∀ d ∈ ds, WfAll d := by
              intro d hd
              obtain ⟨x, hx, rfl⟩ := List.mem_map.1 hd
              have := hwc x hx
              rw [← hsplit x hx, wfAll_append] at this
              exact this.2
            have hii : indicesL hs = indicesL (ds.map mkConcat) := by
              rw [hback, indicesL_mkConcats]
              have e : ds.map (fun d => .concat (p ++ d)) = (ds.map fun d => p ++ d).map Hir.concat := by simp [List.map_map, Function.comp_def]
              rw [e, indicesL_concats]
              simp [List.map_map, Function.comp_def, indicesL_append, hpi]
            obtain ⟨r1, r2, r3, r4⟩ := mkAlternationF_ok n (ds.map mkConcat) (by simpa using hds)
              (by rw [wfAll_iff]; intro h hh
                  obtain ⟨d, hd, rfl⟩ := List.mem_map.1 hh
                  exact mkConcat_wf d (hwd d hd)) (hii ▸ hi)
            rw [hmap]
            obtain ⟨m1, m2, m3⟩ := mkConcat_ok (p ++ [mkAlternationF n (ds.map mkConcat)])
            have e1 : altL (toRes hs) = altL ((ds.map toRes).map fun d => catL (toRes p ++ d)) := by
              rw [hback, toRes_map]
              simp [List.map_map, Function.comp_def, toRe, toRes_append]
            have e2 : Like (altL (toRes (ds.map mkConcat))) (altL ((ds.map toRes).map catL)) := by
              clear_value ds
              rw [toRes_map, List.map_map, List.map_map]
              exact Like.altL_map fun d _ => (mkConcat_ok d).2.1
            have e3 : (altL (toRes (ds.map mkConcat))).groups = (altL ((ds.map toRes).map catL)).groups := by
              rw [groups_altL, groups_altL, toRes_map]
              simp only [List.map_map, Function.comp_def]
              congr 1
              exact List.map_congr_left fun d _ => (mkConcat_ok d).1
            refine ⟨?_, ?_, mkConcat_wf _ ((wfAll_append ..).2 ⟨hwp, r3, trivial⟩), ?_⟩
            · rw [m1, toRes_append, groups_catL, List.map_append, List.flatten_append, ← groups_catL, hpg, e1]
              simp only [toRes, List.map_cons, List.map_nil, List.flatten_cons, List.flatten_nil, List.append_nil, List.nil_append, r1, e3]
              rw [groups_altL, groups_altL]
              congr 1
              clear_value ds
              rw [List.map_map, List.map_map, List.map_map, List.map_map]
              refine List.map_congr_left fun d' _ => ?_
              simp only [Function.comp_def]
              generalize toRes d' = d
              rw [groups_catL (toRes p ++ d), List.map_append, List.flatten_append, ← groups_catL (toRes p), hpg, ← groups_catL]
              rfl
            · refine m2.trans ?_
              rw [e1]
              refine Like.trans ?_ (Like.distribute hpg (ds.map toRes) (by simpa using hds)).symm
              rw [toRes_append]
              refine Like.catL_append (Like.refl _) ?_
              simp only [toRes, catL]
              exact r2.trans e2
            · rw [m3, indicesL_append, hpi, hii]
              simp [indicesL, r4]

/-! ## Renaming -/

theorem relabel_append (id : Nat) : ∀ (n : Nat) (a b : List (Option (List Char) × Bool)),
    relabel id n (a ++ b) = relabel id n a ++ relabel id (n + (a.filter (!·.2)).length) b
  | n, [], b => rfl
  | n, (x, false) :: a, b => by
    simp only [List.cons_append, relabel, relabel_append id (n + 1) a b]
    simp [Nat.add_comm, Nat.add_assoc]
  | n, (x, true) :: a, b => by
    simp only [List.cons_append, relabel, relabel_append id n a b]
    simp

theorem relabel_true (id n : Nat) (gs : List (Option (List Char))) : relabel id n (gs.map (·, true)) = gs := by
  induction gs with
  | nil => rfl
  | cons g gs ih => simp [relabel, ih]

theorem marked_catL (rs : List Re) : (catL rs).marked = (rs.map Re.marked).flatten := by
  induction rs with
  | nil => rfl
  | cons r rs ih =>
    cases rs with
    | nil => simp [catL]
    | cons s rs => rw [catL, Re.marked, ih]; simp; simp

theorem marked_altL (rs : List Re) : (altL rs).marked = (rs.map Re.marked).flatten := by
  induction rs with
  | nil => rfl
  | cons r rs ih =>
    cases rs with
    | nil => simp [altL]
    | cons s rs => rw [altL, Re.marked, ih]; simp; simp

theorem marked_lits (cs : List Char) : (catL (cs.map Re.lit)).marked = [] := by
  rw [marked_catL]
  induction cs with
  | nil => rfl
  | cons c u ih => simp [Re.marked]

/-- The number of groups that are renamed. -/
def topGroups (m : List (Option (List Char) × Bool)) : Nat := (m.filter (!·.2)).length

theorem topGroups_append (a b : List (Option (List Char) × Bool)) : topGroups (a ++ b) = topGroups a + topGroups b := by
  simp [topGroups]

theorem topGroups_true (gs : List (Option (List Char))) : topGroups (gs.map (·, true)) = 0 := by
  simp [topGroups]

/-- What renaming does. -/
def Renamed (id n : Nat) (h : Hir) (res : Hir × Nat) : Prop :=
  res.1.Wf ∧ res.1.indices = h.indices ∧ Like res.1.toRe h.toRe ∧ res.1.toRe.groups = relabel id n h.toRe.marked ∧
    res.2 = n + topGroups h.toRe.marked

def RenamedList (id n : Nat) (hs : List Hir) (res : List Hir × Nat) : Prop :=
  WfAll res.1 ∧ indicesL res.1 = indicesL hs ∧ Like (catL (toRes res.1)) (catL (toRes hs)) ∧
    Like (altL (toRes res.1)) (altL (toRes hs)) ∧ (res.1 = [] ↔ hs = []) ∧
    ((toRes res.1).map Re.groups).flatten = relabel id n ((toRes hs).map Re.marked).flatten ∧
    res.2 = n + topGroups ((toRes hs).map Re.marked).flatten

mutual
theorem rename_ok (id : Nat) : ∀ (h : Hir) (n : Nat), h.Wf → h.indices.Nodup → Renamed id n h (renameGroupsInner id h n)
  | .empty, n, _, _ => ⟨trivial, rfl, Like.refl _, rfl, rfl⟩
  | .literal cs, n, hw, _ => by
    have hne : cs ≠ [] := hw
    have e : mkLiteral cs = .literal cs := by simp [mkLiteral, hne]
    rw [renameGroupsInner, e]
    refine ⟨hw, rfl, Like.refl _, ?_, ?_⟩
    · simp only [toRe, marked_lits]
      have := groups_length (.literal cs)
      simpa [toRe, indices, relabel] using this
    · simp [toRe, marked_lits, topGroups]
  | .cls rs, n, hw, _ => by
    obtain ⟨m1, m2, m3⟩ := mkClass_like rs
    exact ⟨mkClass_wf hw, m2, m3, m1, rfl⟩
  | .look .start, n, _, _ => ⟨trivial, rfl, Like.refl _, rfl, rfl⟩
  | .look .finish, n, _, _ => ⟨trivial, rfl, Like.refl _, rfl, rfl⟩
  | .look (.mark _ _), n, _, _ => ⟨trivial, rfl, Like.refl _, rfl, rfl⟩
  | .repetition a b g sub, n, hw, _ => by
    rw [renameGroupsInner, hw.2.2.2]
    refine ⟨hw, rfl, Like.refl _, ?_, ?_⟩
    · simp only [toRe, Re.marked, relabel_true, Re.groups]
    · simp only [toRe, Re.marked, topGroups_true]; rfl
  | .capture i name sub, n, hw, hi => by
    obtain ⟨h1, h2, h3, h4, h5⟩ := rename_ok id sub (n + 1) hw.1 (by simp [indices] at hi; exact hi.2)
    rw [renameGroupsInner]
    refine ⟨⟨h1, fun k hk => by cases hk; exact validName_groupName id n⟩, by simp [indices, h2], Like.cap _ _ h3, ?_, ?_⟩
    · simp only [toRe, Re.groups, Re.marked, relabel, h4]; rfl
    · simp only [h5, toRe, Re.marked, topGroups]; simp; omega
  | .concat subs, n, hw, hi => by
    obtain ⟨h1, h2, h3, -, -, h6, h7⟩ := renames_ok id subs n hw hi
    rw [renameGroupsInner]
    obtain ⟨m1, m2, m3⟩ := mkConcat_ok (renameGroupsList id subs n).1
    refine ⟨mkConcat_wf _ h1, by rw [m3, h2]; rfl, m2.trans h3, ?_, ?_⟩
    · rw [m1, groups_catL, h6, toRe, marked_catL]
    · rw [h7, toRe, marked_catL]
  | .alternation subs, n, hw, hi => by
    obtain ⟨h1, h2, -, h4, h5, h6, h7⟩ := renames_ok id subs n hw.2 hi
    rw [renameGroupsInner]
    obtain ⟨m1, m2, m3, m4⟩ := mkAlternationF_ok (sizes (renameGroupsList id subs n).1 + 1) (renameGroupsList id subs n).1
      (fun h => hw.1 (h5.1 h)) h1 (h2 ▸ hi)
    refine ⟨m3, m4.trans h2, m2.trans h4, ?_, ?_⟩
    · rw [groups_altL, h6] at m1
      rw [toRe, marked_altL]; exact m1
    · rw [h7, toRe, marked_altL]
theorem renames_ok (id : Nat) : ∀ (hs : List Hir) (n : Nat), WfAll hs → (indicesL hs).Nodup →
    RenamedList id n hs (renameGroupsList id hs n)
  | [], n, _, _ => ⟨trivial, rfl, Like.refl _, Like.refl _, by rfl, rfl, rfl⟩
  | h :: hs, n, hw, hi => by
    rw [indicesL, List.nodup_append] at hi
    obtain ⟨a1, a2, a3, a4, a5⟩ := rename_ok id h n hw.1 hi.1
    obtain ⟨b1, b2, b3, b4, b5, b6, b7⟩ := renames_ok id hs (renameGroupsInner id h n).2 hw.2 hi.2.1
    rw [renameGroupsList]
    refine ⟨⟨a1, b1⟩, by simp [indicesL, a2, b2], Like.catL_cons a3 b3, Like.altL_cons a3 b4 ?_, by simp, ?_, ?_⟩
    · constructor
      · intro h0
        have : (renameGroupsList id hs (renameGroupsInner id h n).2).1 = [] := by
          cases hq : (renameGroupsList id hs (renameGroupsInner id h n).2).1 with
          | nil => rfl
          | cons x xs => rw [hq] at h0; simp [toRes] at h0
        rw [b5.1 this]; rfl
      · intro h
        have : hs = [] := by
          cases hs with
          | nil => rfl
          | cons x xs => simp [toRes] at h
        rw [b5.2 this]; rfl
    · simp only [toRes, List.map_cons, List.flatten_cons, a4, b6, relabel_append]
      rw [a5]; rfl
    · simp only [toRes, List.map_cons, List.flatten_cons, topGroups_append]
      rw [b7, a5, Nat.add_assoc]
end

mutual
/-- `has_capture_groups` finds the groups outside repetitions. -/
theorem hasCaptureGroups_eq : ∀ h : Hir, h.hasCaptureGroups = h.outerGroup
  | .empty => rfl
  | .literal cs => by simp [hasCaptureGroups, outerGroup, toRe, marked_lits]
  | .cls _ => rfl
  | .look .start => rfl
  | .look .finish => rfl
  | .look (.mark _ _) => rfl
  | .repetition .. => by simp [hasCaptureGroups, outerGroup, toRe, Re.marked]
  | .capture .. => by simp [hasCaptureGroups, outerGroup, toRe, Re.marked]
  | .concat hs => by rw [hasCaptureGroups, outerGroup, toRe, marked_catL, anyCaptureGroups_eq hs]
  | .alternation hs => by rw [hasCaptureGroups, outerGroup, toRe, marked_altL, anyCaptureGroups_eq hs]
theorem anyCaptureGroups_eq : ∀ hs : List Hir, anyCaptureGroups hs = ((toRes hs).map Re.marked).flatten.any (! ·.2)
  | [] => rfl
  | h :: hs => by
    rw [anyCaptureGroups, hasCaptureGroups_eq h, anyCaptureGroups_eq hs]
    simp only [toRes, List.map_cons, List.flatten_cons, List.any_append, outerGroup]
end

end CE.Hir
