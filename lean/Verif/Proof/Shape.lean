import Verif.Proof.HirRename

/-! # The shape of what the constructors of the HIR return -/

namespace CE.Hir
open Spec Regex

def isConcat : Hir → Bool
  | .concat _ => true
  | _ => false

mutual
/-- Concatenations have at least two children, none of them empty or a concatenation; alternations at least two. -/
def Flat : Hir → Prop
  | .concat subs => 2 ≤ subs.length ∧ (∀ s ∈ subs, s ≠ .empty ∧ s.isConcat = false) ∧ FlatAll subs
  | .alternation subs => 2 ≤ subs.length ∧ FlatAll subs
  | _ => True
def FlatAll : List Hir → Prop
  | [] => True
  | h :: hs => h.Flat ∧ FlatAll hs
end

theorem flatAll_iff (hs : List Hir) : FlatAll hs ↔ ∀ h ∈ hs, h.Flat := by
  induction hs with
  | nil => simp [FlatAll]
  | cons h hs ih => simp [FlatAll, ih]

/-! ## Lengths -/

/-- The maximal length of a match is zero. -/
abbrev Light (h : Hir) : Prop := h.maxLen = some 0

theorem sumLen_zero (hs : List Hir) : sumLen hs = some 0 ↔ ∀ h ∈ hs, h.Light := by
  induction hs with
  | nil => simp [sumLen]
  | cons h hs ih =>
    simp only [sumLen, List.mem_cons, forall_eq_or_imp, ← ih, Light]
    cases h.maxLen <;> cases sumLen hs <;> simp

theorem maxLens_zero (hs : List Hir) : maxLens hs = some 0 ↔ ∀ h ∈ hs, h.Light := by
  induction hs with
  | nil => simp [maxLens]
  | cons h hs ih =>
    simp only [maxLens, List.mem_cons, forall_eq_or_imp, ← ih, Light]
    cases h.maxLen <;> cases maxLens hs <;> simp

theorem light_concat (hs : List Hir) : (Hir.concat hs).Light ↔ ∀ h ∈ hs, h.Light := sumLen_zero hs
theorem light_alternation (hs : List Hir) : (Hir.alternation hs).Light ↔ ∀ h ∈ hs, h.Light := maxLens_zero hs

theorem blen_pos {cs : List Char} (h : cs ≠ []) : blen cs ≠ 0 := by
  cases cs with
  | nil => exact absurd rfl h
  | cons c cs =>
    have := c.utf8Size_pos
    simp [blen]; omega

theorem light_literal (cs : List Char) : (Hir.literal cs).Light ↔ cs = [] := by
  constructor
  · intro h
    by_cases hc : cs = []
    · exact hc
    · exact absurd (Option.some.inj h) (blen_pos hc)
  · rintro rfl; rfl

theorem light_cls {rs : List (Char × Char)} : ¬ (Hir.cls rs).Light := by
  intro hl
  have hm : (rs.map fun r => r.2.utf8Size).max? = some 0 := hl
  have := (List.max?_eq_some_iff.1 hm).1
  obtain ⟨r, -, hr⟩ := List.mem_map.1 this
  have := r.2.utf8Size_pos
  omega

theorem light_mkClass {rs : List (Char × Char)} : ¬ (mkClass rs).Light := by
  unfold mkClass
  split
  · split
    · rw [light_literal]; simp
    · exact light_cls
  · exact light_cls

/-! ## Concatenations -/

theorem flatConcat_mem : ∀ {hs : List Hir}, FlatAll hs → ∀ k ∈ flatConcat hs, k ≠ .empty ∧ k.isConcat = false ∧ k.Flat
  | [], _, _, h => by cases h
  | h :: hs, hf, k, hk => by
    have ih := flatConcat_mem hf.2 k
    have other : h ≠ .empty → h.isConcat = false → k ∈ h :: flatConcat hs → k ≠ .empty ∧ k.isConcat = false ∧ k.Flat := by
      intro h1 h2 hk
      rcases List.mem_cons.1 hk with rfl | hk
      · exact ⟨h1, h2, hf.1⟩
      · exact ih hk
    cases h with
    | concat subs =>
      rcases List.mem_append.1 hk with hk | hk
      · exact ⟨(hf.1.2.1 k hk).1, (hf.1.2.1 k hk).2, (flatAll_iff _).1 hf.1.2.2 k hk⟩
      · exact ih hk
    | empty => exact ih hk
    | _ => exact other (by simp) rfl hk

theorem joinLits_mem : ∀ {hs : List Hir}, ∀ k ∈ joinLits hs, k ∈ hs ∨ ∃ cs, k = .literal cs
  | [], _, h => by cases h
  | h :: hs, k, hk => by
    have ih := @joinLits_mem hs k
    rw [joinLits.eq_def] at hk
    simp only [] at hk
    split at hk
    · rename_i a b rest he
      rw [he] at ih
      rcases List.mem_cons.1 hk with rfl | hk
      · exact .inr ⟨_, rfl⟩
      · rcases ih (by simp [hk]) with h' | h'
        · exact .inl (by simp [h'])
        · exact .inr h'
    · rcases List.mem_cons.1 hk with rfl | hk
      · exact .inl (by simp)
      · rcases ih hk with h' | h'
        · exact .inl (by simp [h'])
        · exact .inr h'

theorem joinLits_ne {hs : List Hir} (h : hs ≠ []) : joinLits hs ≠ [] := by
  cases hs with
  | nil => exact absurd rfl h
  | cons h hs =>
    rw [joinLits.eq_def]
    simp only []
    split <;> simp

theorem joinLits_single {hs : List Hir} {k : Hir} (h : joinLits hs = [k]) : hs = [k] ∨ ∃ cs, k = .literal cs := by
  cases hs with
  | nil => cases h
  | cons x hs =>
    rw [joinLits.eq_def] at h
    simp only [] at h
    split at h
    · cases h; exact .inr ⟨_, rfl⟩
    · rw [List.cons.injEq] at h
      left
      by_cases hh : hs = []
      · rw [hh, h.1]
      · exact absurd h.2 (joinLits_ne hh)

theorem light_joinLits : ∀ hs : List Hir, (∀ k ∈ joinLits hs, k.Light) ↔ ∀ k ∈ hs, k.Light
  | [] => Iff.rfl
  | h :: hs => by
    have ih := light_joinLits hs
    rw [joinLits.eq_def]
    simp only []
    split
    · rename_i a b rest he
      rw [he] at ih
      simp only [List.mem_cons, forall_eq_or_imp] at ih ⊢
      rw [← ih]
      simp only [light_literal, List.append_eq_nil_iff, and_assoc]
    · simp only [List.mem_cons, forall_eq_or_imp, ih]

theorem light_flatConcat : ∀ hs : List Hir, (∀ k ∈ flatConcat hs, k.Light) ↔ ∀ k ∈ hs, k.Light
  | [] => Iff.rfl
  | h :: hs => by
    have ih := light_flatConcat hs
    cases h with
    | concat subs =>
      simp only [flatConcat, List.mem_append, List.mem_cons, or_imp, forall_and, ih, forall_eq, light_concat]
    | empty =>
      simp only [flatConcat, List.mem_cons, forall_eq_or_imp, ih]
      exact ⟨fun h => ⟨rfl, h⟩, fun h => h.2⟩
    | _ => simp only [flatConcat, List.mem_cons, forall_eq_or_imp, ih]

theorem light_mkConcat (hs : List Hir) : (mkConcat hs).Light ↔ ∀ k ∈ hs, k.Light := by
  rw [← light_flatConcat, ← light_joinLits]
  unfold mkConcat
  split
  · rename_i he; rw [he]; simp; rfl
  · rename_i h he; rw [he]; simp
  · exact light_concat _

theorem mkConcat_flat {hs : List Hir} (hf : FlatAll hs) : (mkConcat hs).Flat := by
  have key : ∀ k ∈ joinLits (flatConcat hs), k ≠ .empty ∧ k.isConcat = false ∧ k.Flat := by
    intro k hk
    rcases joinLits_mem k hk with h | ⟨cs, rfl⟩
    · exact flatConcat_mem hf k h
    · exact ⟨by simp, rfl, trivial⟩
  unfold mkConcat
  split
  · trivial
  · rename_i h he; rw [he] at key; exact (key h (by simp)).2.2
  · rename_i h1 h2
    refine ⟨?_, fun s hs => ⟨(key s hs).1, (key s hs).2.1⟩, (flatAll_iff _).2 fun s hs => (key s hs).2.2⟩
    match hj : joinLits (flatConcat hs) with
    | [] => exact absurd hj h1
    | [h] => exact absurd hj (h2 h)
    | _ :: _ :: _ => simp

theorem flatConcat_nil {hs : List Hir} (hf : FlatAll hs) : flatConcat hs = [] ↔ ∀ h ∈ hs, h = .empty := by
  induction hs with
  | nil => simp [flatConcat]
  | cons h hs ih =>
    have ih := ih hf.2
    cases h with
    | concat subs =>
      have := hf.1.1
      simp only [flatConcat, List.append_eq_nil_iff, List.mem_cons, forall_eq_or_imp]
      constructor
      · rintro ⟨rfl, -⟩; simp at this
      · rintro ⟨h, -⟩; cases h
    | empty => simp [flatConcat, ih]
    | _ => simp [flatConcat]

theorem mkConcat_empty {hs : List Hir} (hf : FlatAll hs) : mkConcat hs = .empty ↔ ∀ h ∈ hs, h = .empty := by
  rw [← flatConcat_nil hf]
  constructor
  · intro h
    unfold mkConcat at h
    split at h
    · rename_i he
      by_cases hn : flatConcat hs = []
      · exact hn
      · exact absurd he (joinLits_ne hn)
    · rename_i k he
      subst h
      rcases joinLits_mem (hs := flatConcat hs) .empty (by simp [he]) with h | ⟨cs, h⟩
      · exact absurd rfl (flatConcat_mem hf _ h).1
      · cases h
    · cases h
  · intro h; simp [mkConcat, h, joinLits]

/-- An eager repetition and otherwise nothing. -/
def oneEager : List Hir → Bool
  | [] => false
  | h :: hs => if h = .empty then oneEager hs else h.eager && hs.all (· = .empty)

theorem flatConcat_rep {hs : List Hir} (hf : FlatAll hs) : (∃ k, flatConcat hs = [k] ∧ k.eager = true) ↔ oneEager hs = true := by
  induction hs with
  | nil => simp [flatConcat, oneEager]
  | cons h hs ih =>
    have ih := ih hf.2
    have hn := flatConcat_nil hf.2
    have other : h ≠ .empty → ((∃ k, h :: flatConcat hs = [k] ∧ k.eager = true) ↔ oneEager (h :: hs) = true) := by
      intro hne
      simp only [oneEager, hne, if_false, Bool.and_eq_true, List.all_eq_true, decide_eq_true_eq, ← hn]
      constructor
      · rintro ⟨k, he, hk⟩; simp at he; exact ⟨he.1 ▸ hk, he.2⟩
      · rintro ⟨h1, h2⟩; exact ⟨h, by rw [h2], h1⟩
    cases h with
    | concat subs =>
      have := hf.1.1
      simp only [flatConcat, oneEager]
      constructor
      · rintro ⟨k, he, hk⟩
        have := congrArg List.length he
        simp at this
        omega
      · intro h; simp [eager] at h
    | empty => simpa [flatConcat, oneEager] using ih
    | _ => exact other (by simp)

theorem mkConcat_eager {hs : List Hir} (hf : FlatAll hs) : (mkConcat hs).eager = oneEager hs := by
  rw [Bool.eq_iff_iff, ← flatConcat_rep hf]
  unfold mkConcat
  constructor
  · intro h
    split at h
    · cases h
    · rename_i k he
      rcases joinLits_single he with h' | ⟨cs, rfl⟩
      · exact ⟨k, h', h⟩
      · cases h
    · cases h
  · rintro ⟨k, he, hk⟩
    have : joinLits (flatConcat hs) = [k] := by
      rw [he, joinLits.eq_def]
      simp only []
      split
      · rename_i h; simp [joinLits] at h
      · rfl
    rw [this]
    exact hk

/-- At least two children which are not empty. -/
theorem mkConcat_two {hs : List Hir} {a b : Hir} {l m : List Hir} (he : hs = l ++ a :: m ++ [b]) (hf : FlatAll hs) (ha : a ≠ .empty)
    (hb : b ≠ .empty) : mkConcat hs ≠ .empty ∧ (mkConcat hs).eager = false := by
  refine ⟨fun h => ha ((mkConcat_empty hf).1 h a (by simp [he])), ?_⟩
  rw [mkConcat_eager hf, he]
  have : ∀ l : List Hir, oneEager (l ++ a :: m ++ [b]) = false := by
    intro l
    induction l with
    | nil => simp [oneEager, ha, hb]
    | cons x l ih =>
      simp only [List.cons_append] at ih ⊢
      rw [oneEager]
      split
      · exact ih
      · simp [ha]
  exact this l

/-! ## Alternations -/

theorem flatAlternation_flat {hs : List Hir} (hf : FlatAll hs) : FlatAll (flatAlternation hs) ∧
    hs.length ≤ (flatAlternation hs).length := by
  induction hs with
  | nil => exact ⟨trivial, Nat.le_refl _⟩
  | cons h hs ih =>
    obtain ⟨i1, i2⟩ := ih hf.2
    cases h with
    | alternation subs =>
      have := hf.1.1
      refine ⟨(flatAll_iff _).2 fun k hk => ?_, ?_⟩
      · rcases List.mem_append.1 hk with hk | hk
        · exact (flatAll_iff _).1 hf.1.2 k hk
        · exact (flatAll_iff _).1 i1 k hk
      · simp [flatAlternation]; omega
    | _ => exact ⟨⟨hf.1, i1⟩, by simp [flatAlternation]; exact i2⟩

theorem light_flatAlternation : ∀ hs : List Hir, (∀ k ∈ flatAlternation hs, k.Light) ↔ ∀ k ∈ hs, k.Light
  | [] => Iff.rfl
  | h :: hs => by
    have ih := light_flatAlternation hs
    cases h with
    | alternation subs =>
      simp only [flatAlternation, List.mem_append, List.mem_cons, or_imp, forall_and, ih, forall_eq, light_alternation]
    | _ => simp only [flatAlternation, List.mem_cons, forall_eq_or_imp, ih]

theorem charRanges_heavy {hs : List Hir} {rs : List (Char × Char)} (h : charRanges hs = some rs) (hne : hs ≠ []) :
    ¬ ∀ k ∈ hs, k.Light := by
  cases hs with
  | nil => exact absurd rfl hne
  | cons x hs =>
    intro hl
    have := hl x (by simp)
    have h := charRanges_mixed h
    unfold mixedRanges at h
    split at h
    · rename_i he; cases he
    · rename_i c hs' he
      cases he
      rw [light_literal] at this; cases this
    · rename_i qs hs' he
      cases he
      exact light_cls this
    · cases h

theorem mkClass_shape {rs : List (Char × Char)} : (mkClass rs).Flat ∧ mkClass rs ≠ .empty ∧ (mkClass rs).eager = false ∧
    (mkClass rs).isConcat = false := by
  unfold mkClass
  split
  · split
    · exact ⟨trivial, by simp, rfl, rfl⟩
    · exact ⟨trivial, by simp, rfl, rfl⟩
  · exact ⟨trivial, by simp, rfl, rfl⟩

theorem mkAlternationF_shape : ∀ (n : Nat) (subs : List Hir), 2 ≤ subs.length → WfAll subs → FlatAll subs →
    (mkAlternationF n subs).Flat ∧ mkAlternationF n subs ≠ .empty ∧ (mkAlternationF n subs).eager = false ∧
    ((mkAlternationF n subs).Light ↔ ∀ k ∈ subs, k.Light)
  | 0, subs, h2, _, hf => ⟨⟨h2, hf⟩, by simp [mkAlternationF], rfl, light_alternation subs⟩
  | n + 1, subs, h2, hw, hf => by
    obtain ⟨f1, f2⟩ := flatAlternation_flat hf
    have f3 := light_flatAlternation subs
    have f4 := flatAlternation_wf subs hw
    have hlen : 2 ≤ (flatAlternation subs).length := by omega
    rw [← f3, mkAlternationF]
    clear f2 f3
    generalize flatAlternation subs = hs at *
    have plain : (Hir.alternation hs).Flat ∧ Hir.alternation hs ≠ .empty ∧ (Hir.alternation hs).eager = false ∧
      ((Hir.alternation hs).Light ↔ ∀ k ∈ hs, k.Light) := ⟨⟨hlen, f1⟩, by simp, rfl, light_alternation hs⟩
    have hne : hs ≠ [] := by rintro rfl; simp at hlen
    split
    · simp at hlen
    · simp at hlen
    · split
      · rename_i rs hr
        obtain ⟨s1, s2, s3, -⟩ := @mkClass_shape (Ranges.canon rs)
        refine ⟨s1, s2, s3, ?_⟩
        have h1 := charRanges_heavy hr hne
        have h2 := @light_mkClass (Ranges.canon rs)
        exact ⟨fun h => absurd h h2, fun h => absurd h h1⟩
      · split
        · exact plain
        · exact plain
        · rename_i c cs hcc
          have hcs := concats_eq hs _ hcc
          split
          · exact plain
          · rename_i p hp
            generalize hpp : cs.foldl commonPrefix c = p at *
            have hpre : ∀ d ∈ c :: cs, p <+: d := by
              have := foldl_prefix cs c
              rw [hpp] at this
              intro d hd
              rcases List.mem_cons.1 hd with rfl | hd
              · exact this.1
              · exact this.2 d hd
            have hsplit : ∀ d ∈ c :: cs, p ++ d.drop p.length = d := fun d hd => by
              obtain ⟨t, ht⟩ := hpre d hd
              rw [← ht]; simp
            have hfc : ∀ d ∈ c :: cs, (Hir.concat d).Flat := fun d hd => (flatAll_iff _).1 f1 _ (by rw [hcs]; exact List.mem_map.2 ⟨d, hd, rfl⟩)
            have hwc : ∀ d ∈ c :: cs, WfAll d := fun d hd => (wfAll_iff _).1 f4 (.concat d) (by rw [hcs]; exact List.mem_map.2 ⟨d, hd, rfl⟩)
            have hfd : ∀ d ∈ c :: cs, FlatAll (d.drop p.length) := fun d hd => (flatAll_iff _).2 fun k hk =>
              (flatAll_iff _).1 (hfc d hd).2.2 k (List.mem_of_mem_drop hk)
            have hwd : ∀ d ∈ c :: cs, WfAll (d.drop p.length) := fun d hd => (wfAll_iff _).2 fun k hk =>
              (wfAll_iff _).1 (hwc d hd) k (List.mem_of_mem_drop hk)
            have hpc : ∀ k ∈ p, k ∈ c := fun k hk => (hpre c (by simp)).subset hk
            obtain ⟨r1, r2, r3, r4⟩ := mkAlternationF_shape n ((c :: cs).map fun xs => mkConcat (xs.drop p.length))
              (by rw [hcs] at hlen; simpa using hlen)
              ((wfAll_iff _).2 fun k hk => by
                obtain ⟨d, hd, rfl⟩ := List.mem_map.1 hk
                exact mkConcat_wf _ (hwd d hd))
              ((flatAll_iff _).2 fun k hk => by
                obtain ⟨d, hd, rfl⟩ := List.mem_map.1 hk
                exact mkConcat_flat (hfd d hd))
            generalize mkAlternationF n ((c :: cs).map fun xs => mkConcat (xs.drop p.length)) = X at *
            have hfX : FlatAll (p ++ [X]) := (flatAll_iff _).2 fun k hk => by
              rcases List.mem_append.1 hk with hk | hk
              · exact (flatAll_iff _).1 (hfc c (by simp)).2.2 k (hpc k hk)
              · simp at hk; exact hk ▸ r1
            obtain ⟨a, p', rfl⟩ : ∃ a p', p = a :: p' := by
              cases p with
              | nil => exact absurd rfl hp
              | cons a p' => exact ⟨a, p', rfl⟩
            obtain ⟨m1, m2⟩ := mkConcat_two (hs := a :: p' ++ [X]) (l := []) (m := p') rfl hfX ((hfc c (by simp)).2.1 a (hpc a (by simp))).1 r2
            refine ⟨mkConcat_flat hfX, m1, m2, ?_⟩
            rw [light_mkConcat, hcs]
            simp only [List.mem_append, List.mem_singleton, or_imp, forall_and, forall_eq, r4]
            constructor
            · rintro ⟨h1, h2⟩ k hk
              obtain ⟨d, hd, rfl⟩ := List.mem_map.1 hk
              rw [light_concat]
              intro x hx
              rw [← hsplit d hd] at hx
              rcases List.mem_append.1 hx with hx | hx
              · exact h1 x hx
              · exact (light_mkConcat _).1 (h2 _ (List.mem_map.2 ⟨d, hd, rfl⟩)) x hx
            · intro h
              refine ⟨fun k hk => (light_concat _).1 (h _ (List.mem_map.2 ⟨c, by simp, rfl⟩)) k (hpc k hk), fun k hk => ?_⟩
              obtain ⟨d, hd, rfl⟩ := List.mem_map.1 hk
              rw [light_mkConcat]
              exact fun x hx => (light_concat _).1 (h _ (List.mem_map.2 ⟨d, hd, rfl⟩)) x (List.mem_of_mem_drop hx)

end CE.Hir
