import Verif.Proof.Renumber
import Verif.Proof.Lift
import Verif.Spec.Steady

/-! # The HIRs which the smart constructors keep as they are -/

namespace CE.Ranges

theorem insert_first {a b : Char} : ∀ {rs : List (Char × Char)}, (∀ r ∈ rs, ord b + 1 < ord r.1) → insert a b rs = (a, b) :: rs
  | [], _ => rfl
  | (c, d) :: rs, h => by rw [insert, if_pos (h (c, d) (by simp))]

end CE.Ranges

namespace CE.Hir
open Regex Spec

/-- No alternation. -/
def isAlternation : Hir → Bool
  | .alternation _ => true
  | _ => false

/-- Children of a concatenation: nothing to flatten, to drop or to join. -/
def NormalCat (subs : List Hir) : Prop :=
  2 ≤ subs.length ∧ (∀ s ∈ subs, s ≠ .empty ∧ s.isConcat = false) ∧ ∀ l s t r, subs ≠ l ++ .literal s :: .literal t :: r

/-- Children of an alternation: nothing to flatten, to join or to move out. -/
def NormalAlt (subs : List Hir) : Prop :=
  2 ≤ subs.length ∧ (∀ s ∈ subs, s.isAlternation = false) ∧ charRanges subs = none ∧
    ∀ c cs, concats subs = some (c :: cs) → cs.foldl commonPrefix c = []

mutual
/-- The smart constructors keep the HIR as it is; an exact number of repetitions is greedy; word boundaries are those of `W`. -/
def Normal (W : List (Char × Char)) : Hir → Prop
  | .empty => True
  | .literal cs => cs ≠ []
  | .cls rs => Ranges.Canonical rs ∧ ∀ a, rs ≠ [(a, a)]
  | .look (.mark _ t) => t = W
  | .look _ => True
  | .repetition m n g sub => Normal W sub ∧ mkRepetition m n g sub = .repetition m n g sub ∧ (n = some m → g = true)
  | .capture _ _ sub => Normal W sub
  | .concat subs => NormalCat subs ∧ AllNormal W subs
  | .alternation subs => NormalAlt subs ∧ AllNormal W subs
def AllNormal (W : List (Char × Char)) : List Hir → Prop
  | [] => True
  | h :: hs => Normal W h ∧ AllNormal W hs
end

variable {W : List (Char × Char)}

theorem allNormal_iff (hs : List Hir) : AllNormal W hs ↔ ∀ h ∈ hs, h.Normal W := by
  induction hs with
  | nil => simp [AllNormal]
  | cons h hs ih => simp [AllNormal, ih]

theorem mkClass_normal {rs : List (Char × Char)} (h : Ranges.Canonical rs) : (mkClass rs).Normal W := by
  unfold mkClass
  split
  · rename_i a b
    split
    · simp [Normal]
    · rename_i hab
      refine ⟨h, fun c hc => hab ?_⟩
      simp only [List.cons.injEq, Prod.mk.injEq, and_true] at hc
      rw [hc.1, hc.2]
  · rename_i hne
    refine ⟨h, fun c hc => hne _ _ hc⟩

theorem mkClass_id {rs : List (Char × Char)} (h : ∀ a, rs ≠ [(a, a)]) : mkClass rs = .cls rs := by
  unfold mkClass
  split
  · rename_i a b
    rw [if_neg (fun hab => h a (by rw [hab]))]
  · rfl

/-! ## Concatenation -/

theorem flatConcat_id : ∀ {hs : List Hir}, (∀ s ∈ hs, s ≠ .empty ∧ s.isConcat = false) → flatConcat hs = hs
  | [], _ => rfl
  | h :: hs, hc => by
    have ih := flatConcat_id fun s hs => hc s (List.mem_cons_of_mem _ hs)
    have := hc h (by simp)
    cases h <;> simp [isConcat] at this <;> simp [flatConcat, ih]

theorem joinLits_id : ∀ {hs : List Hir}, (∀ l s t r, hs ≠ l ++ .literal s :: .literal t :: r) → joinLits hs = hs
  | [], _ => rfl
  | h :: hs, hc => by
    have ih := joinLits_id (hs := hs) fun l s t r he => hc (h :: l) s t r (by rw [he]; rfl)
    rw [joinLits.eq_def]
    simp only [ih]
    split
    · exact absurd rfl (hc [] _ _ _)
    · rfl

theorem mkConcat_id {hs : List Hir} (h : NormalCat hs) : mkConcat hs = .concat hs := by
  unfold mkConcat
  rw [flatConcat_id h.2.1, joinLits_id h.2.2]
  have := h.1
  match hs, this with
  | _ :: _ :: _, _ => rfl

theorem joinLits_apart : ∀ (hs : List Hir) (l : List Hir) (s t : List Char) (r : List Hir),
    joinLits hs ≠ l ++ .literal s :: .literal t :: r
  | [], l, s, t, r => by simp [joinLits]
  | h :: hs, l, s, t, r => by
    have ih := joinLits_apart hs
    rw [joinLits.eq_def]
    simp only []
    split
    · rename_i a b rest he
      rw [he] at ih
      intro hc
      cases l with
      | nil =>
        simp only [List.nil_append, List.cons.injEq] at hc
        exact ih [] b t r (by rw [hc.2]; rfl)
      | cons x l =>
        simp only [List.cons_append, List.cons.injEq] at hc
        exact ih (.literal b :: l) s t r (by rw [hc.2]; rfl)
    · rename_i hne
      intro hc
      cases l with
      | nil =>
        simp only [List.nil_append, List.cons.injEq] at hc
        exact hne _ _ _ hc.1 hc.2
      | cons x l =>
        simp only [List.cons_append, List.cons.injEq] at hc
        exact ih l s t r hc.2

theorem flatConcat_normal : ∀ {hs : List Hir}, AllNormal W hs → ∀ k ∈ flatConcat hs, k.Normal W ∧ k ≠ .empty ∧ k.isConcat = false
  | [], _, k, hk => by cases hk
  | h :: hs, hn, k, hk => by
    have ih := flatConcat_normal hn.2 k
    cases h with
    | concat subs =>
      rw [flatConcat, List.mem_append] at hk
      exact hk.elim (fun hk => ⟨(allNormal_iff _).1 hn.1.2 k hk, hn.1.1.2.1 k hk⟩) ih
    | empty => exact ih hk
    | _ =>
      simp only [flatConcat, List.mem_cons] at hk
      rcases hk with rfl | hk
      · exact ⟨hn.1, by simp, rfl⟩
      · exact ih hk

theorem joinLits_normal {hs : List Hir} (hn : ∀ k ∈ hs, k.Normal W ∧ k ≠ .empty ∧ k.isConcat = false) :
    ∀ k ∈ joinLits hs, k.Normal W ∧ k ≠ .empty ∧ k.isConcat = false := by
  induction hs with
  | nil => intro k hk; cases hk
  | cons h hs ih =>
    have ih := ih fun k hk => hn k (List.mem_cons_of_mem _ hk)
    have hh := hn h (by simp)
    rw [joinLits.eq_def]
    simp only []
    split
    · rename_i a b rest he
      intro k hk
      rcases List.mem_cons.1 hk with rfl | hk
      · refine ⟨?_, by simp, rfl⟩
        have : a ≠ [] := hh.1
        simp [Normal, this]
      · exact ih k (by rw [he]; exact List.mem_cons_of_mem _ hk)
    · intro k hk
      rcases List.mem_cons.1 hk with rfl | hk
      · exact hh
      · exact ih k hk

theorem mkConcat_normal {hs : List Hir} (hn : AllNormal W hs) : (mkConcat hs).Normal W := by
  have h1 := joinLits_normal (flatConcat_normal hn)
  have h2 := joinLits_apart (flatConcat hs)
  unfold mkConcat
  split
  · trivial
  · rename_i k he
    exact (h1 k (by rw [he]; simp)).1
  · rename_i ks hne1 hne2
    have h3 : 2 ≤ (joinLits (flatConcat hs)).length := by
      match joinLits (flatConcat hs), hne1, hne2 with
      | [], h, _ => exact absurd rfl (h)
      | [k], _, h => exact absurd rfl (h k)
      | _ :: _ :: _, _, _ => simp
    exact ⟨⟨h3, fun s hs => (h1 s hs).2, h2⟩, (allNormal_iff _).2 fun s hs => (h1 s hs).1⟩

/-! ## Sizes -/

theorem size_pos (h : Hir) : 1 ≤ h.size := by cases h <;> simp [size]

theorem sizes_append (a b : List Hir) : sizes (a ++ b) = sizes a + sizes b := by
  induction a with
  | nil => simp [sizes]
  | cons h a ih => simp [sizes, ih]; omega

theorem sizes_flatConcat : ∀ hs : List Hir, sizes (flatConcat hs) ≤ sizes hs
  | [] => Nat.le_refl _
  | h :: hs => by
    have ih := sizes_flatConcat hs
    cases h <;> simp only [flatConcat, sizes, sizes_append, size] <;> omega

theorem sizes_joinLits : ∀ hs : List Hir, sizes (joinLits hs) ≤ sizes hs
  | [] => Nat.le_refl _
  | h :: hs => by
    have ih := sizes_joinLits hs
    rw [joinLits.eq_def]
    simp only []
    split
    · rename_i he
      rw [he] at ih
      simp only [sizes, size] at ih ⊢
      omega
    · simp only [sizes]; omega

theorem size_mkConcat (hs : List Hir) : (mkConcat hs).size ≤ sizes hs + 1 := by
  have h := Nat.le_trans (sizes_joinLits (flatConcat hs)) (sizes_flatConcat hs)
  unfold mkConcat
  split
  · simp [size]
  · rename_i he; rw [he] at h; simp only [sizes] at h; omega
  · simp only [size]; omega

theorem sizes_flatAlternation : ∀ hs : List Hir, sizes (flatAlternation hs) ≤ sizes hs
  | [] => Nat.le_refl _
  | h :: hs => by
    have ih := sizes_flatAlternation hs
    cases h <;> simp only [flatAlternation, sizes, sizes_append, size] <;> omega

theorem sizes_drop (xs : List Hir) (k : Nat) (hk : 1 ≤ k) (hx : xs ≠ []) : sizes (xs.drop k) < sizes xs := by
  have := List.take_append_drop k xs
  have h2 := sizes_append (xs.take k) (xs.drop k)
  rw [this] at h2
  cases xs with
  | nil => exact absurd rfl hx
  | cons x xs =>
    obtain ⟨k, rfl⟩ := Nat.exists_eq_add_of_le hk
    have hp := size_pos x
    rw [Nat.add_comm 1 k, List.take_succ_cons] at h2
    have h3 : sizes (x :: xs.take k) = x.size + sizes (xs.take k) := rfl
    rw [Nat.add_comm 1 k]
    omega

theorem sizes_rests (k : Nat) (hk : 1 ≤ k) : ∀ (cs : List (List Hir)), (∀ c ∈ cs, c ≠ []) →
    sizes (cs.map fun xs => mkConcat (xs.drop k)) + cs.length ≤ sizes (cs.map .concat)
  | [], _ => Nat.le_refl _
  | c :: cs, h => by
    have ih := sizes_rests k hk cs fun c hc => h c (List.mem_cons_of_mem _ hc)
    have h1 := size_mkConcat (c.drop k)
    have h2 := sizes_drop c k hk (h c (by simp))
    simp only [List.map_cons, sizes, size, List.length_cons]
    omega

/-! ## Alternation -/

theorem flatAlternation_id' {hs : List Hir} (h : ∀ s ∈ hs, s.isAlternation = false) : flatAlternation hs = hs := by
  refine flatAlternation_id fun s hs ks he => ?_
  have := h s hs
  rw [he] at this
  cases this

theorem mkAlternation_id {hs : List Hir} (h : NormalAlt hs) : mkAlternation hs = .alternation hs := by
  obtain ⟨h1, h2, h3, h4⟩ := h
  rw [mkAlternation, mkAlternationF, flatAlternation_id' h2]
  match hs, h1 with
  | a :: b :: hs, _ =>
    simp only [h3]
    split
    · rfl
    · rfl
    · rename_i c cs hc
      rw [h4 c cs hc]

theorem flatAlternation_normal : ∀ {hs : List Hir}, AllNormal W hs → ∀ k ∈ flatAlternation hs, k.Normal W ∧ k.isAlternation = false
  | [], _, k, hk => by cases hk
  | h :: hs, hn, k, hk => by
    have ih := flatAlternation_normal hn.2 k
    cases h with
    | alternation subs =>
      rw [flatAlternation, List.mem_append] at hk
      exact hk.elim (fun hk => ⟨(allNormal_iff _).1 hn.1.2 k hk, hn.1.1.2.1 k hk⟩) ih
    | _ =>
      simp only [flatAlternation, List.mem_cons] at hk
      rcases hk with rfl | hk
      · exact ⟨hn.1, rfl⟩
      · exact ih hk

theorem mixedRanges_valid : ∀ {hs : List Hir} {rs : List (Char × Char)}, (∀ h ∈ hs, h.Normal W) → mixedRanges hs = some rs →
    ∀ r ∈ rs, r.1 ≤ r.2
  | [], rs, _, h => by cases h; simp
  | k :: hs, rs, hn, h => by
    have hk := hn k (by simp)
    unfold mixedRanges at h
    split at h
    · rename_i he; cases he
    · rename_i c hs' he
      cases he
      obtain ⟨ts, h1, rfl⟩ := Option.map_eq_some_iff.1 h
      intro r hr
      rcases List.mem_cons.1 hr with rfl | hr
      · exact Char.le_refl _
      · exact mixedRanges_valid (fun x hx => hn x (List.mem_cons_of_mem _ hx)) h1 r hr
    · rename_i qs hs' he
      cases he
      obtain ⟨ts, h1, rfl⟩ := Option.map_eq_some_iff.1 h
      intro r hr
      rcases List.mem_append.1 hr with hr | hr
      · exact hk.1.valid r hr
      · exact mixedRanges_valid (fun x hx => hn x (List.mem_cons_of_mem _ hx)) h1 r hr
    · cases h

theorem mkAlternationF_normal : ∀ (n : Nat) (hs : List Hir), sizes hs < n → AllNormal W hs → (mkAlternationF n hs).Normal W
  | 0, _, h, _ => absurd h (Nat.not_lt_zero _)
  | n + 1, hs, hlt, hn => by
    have h1 := flatAlternation_normal hn
    have h2 := sizes_flatAlternation hs
    rw [mkAlternationF]
    generalize flatAlternation hs = ks at h1 h2
    split
    · exact ⟨trivial, by simp⟩
    · exact (h1 _ (by simp)).1
    · rename_i hne1 hne2
      have hlen : 2 ≤ ks.length := by
        match ks, hne1, hne2 with
        | [], h, _ => exact absurd rfl h
        | [k], _, h => exact absurd rfl (h k)
        | _ :: _ :: _, _, _ => simp
      have hall : AllNormal W ks := (allNormal_iff _).2 fun s hs => (h1 s hs).1
      split
      · rename_i rs hr
        exact mkClass_normal (Ranges.canon_canonical rs (mixedRanges_valid (fun s hs => (h1 s hs).1) (charRanges_mixed hr)))
      · rename_i hr
        split
        · rename_i hc
          exact ⟨⟨hlen, fun s hs => (h1 s hs).2, hr, fun c cs h => by rw [hc] at h; cases h⟩, hall⟩
        · rename_i hc
          exact ⟨⟨hlen, fun s hs => (h1 s hs).2, hr, fun c cs h => by rw [hc] at h; cases h⟩, hall⟩
        · rename_i c cs hc
          split
          · rename_i hp
            refine ⟨⟨hlen, fun s hs => (h1 s hs).2, hr, fun c' cs' h => ?_⟩, hall⟩
            rw [hc] at h
            cases h
            exact hp
          · rename_i hp
            obtain ⟨p1, p2⟩ := foldl_prefix cs c
            generalize cs.foldl commonPrefix c = p at hp p1 p2 ⊢
            have hk : 1 ≤ p.length := by
              cases p with
              | nil => exact absurd rfl hp
              | cons => simp
            have hkc := concats_eq ks _ hc
            have hpre : ∀ d ∈ c :: cs, p <+: d := by
              intro d hd
              rcases List.mem_cons.1 hd with rfl | hd
              · exact p1
              · exact p2 d hd
            have hne : ∀ d ∈ c :: cs, d ≠ [] := by
              rintro d hd rfl
              have := List.prefix_nil.1 (hpre [] hd)
              rw [this] at hk
              simp at hk
            have hd : ∀ d ∈ c :: cs, AllNormal W d := by
              intro d hd
              have : Hir.concat d ∈ ks := by rw [hkc]; exact List.mem_map_of_mem hd
              exact (h1 _ this).1.2
            have hrest : AllNormal W ((c :: cs).map fun xs => mkConcat (xs.drop p.length)) := by
              rw [allNormal_iff]
              intro x hx
              obtain ⟨d, hd', rfl⟩ := List.mem_map.1 hx
              refine mkConcat_normal ?_
              rw [allNormal_iff]
              intro y hy
              exact (allNormal_iff _).1 (hd d hd') y (List.mem_of_mem_drop hy)
            have hs1 := sizes_rests p.length hk (c :: cs) hne
            have hs2 : sizes ((c :: cs).map fun xs => mkConcat (xs.drop p.length)) < n := by
              have : sizes ((c :: cs).map .concat) = sizes ks := by rw [hkc]
              rw [List.length_cons] at hs1
              omega
            refine mkConcat_normal ?_
            rw [allNormal_iff]
            intro x hx
            rcases List.mem_append.1 hx with hx | hx
            · obtain ⟨t, ht⟩ := p1
              exact (allNormal_iff _).1 (hd c (by simp)) x (by rw [← ht]; simp [hx])
            · rw [List.mem_singleton.1 hx]
              exact mkAlternationF_normal n _ hs2 hrest

theorem mkAlternation_normal {hs : List Hir} (hn : AllNormal W hs) : (mkAlternation hs).Normal W :=
  mkAlternationF_normal _ _ (Nat.lt_succ_self _) hn

end CE.Hir

namespace CE
open Regex Hir

/-! ## Translation -/

variable (T : Tables) {W : List (Char × Char)}

theorem Tables.cls_canonical {k : Cls} (hk : ∀ i ∈ k.items, i.Valid) : Ranges.Canonical (T.cls k) := by
  have h : Ranges.Canonical (Ranges.canon (k.items.flatMap T.item)) := by
    refine Ranges.canon_canonical _ fun r hr => ?_
    obtain ⟨i, hi, hr⟩ := List.mem_flatMap.1 hr
    exact T.item_valid (hk i hi) r hr
  unfold Tables.cls
  simp only []
  split
  · exact Ranges.negate_canonical h
  · exact h

theorem mkRepetition_normal {m : Nat} {n : Option Nat} {g : Bool} {h : Hir} (hn : h.Normal W) (hg : n = some m → 2 ≤ m → g = true) :
    (mkRepetition m n g h).Normal W := by
  by_cases hl : h.maxLen = some 0
  · obtain ⟨j, k, hj, hk, e⟩ : ∃ j k, (j = 0 ∨ j = 1) ∧ (k = 0 ∨ k = 1) ∧ mkRepetition m n g h = mkRepetition j (some k) g h := by
      have hj : Nat.min m 1 = 0 ∨ Nat.min m 1 = 1 := by show min m 1 = 0 ∨ min m 1 = 1; omega
      cases n with
      | none => exact ⟨_, 1, hj, .inr rfl, by unfold mkRepetition; simp only [if_pos hl]; simp [Nat.min_assoc]⟩
      | some n =>
        exact ⟨_, Nat.min n 1, hj, by show min n 1 = 0 ∨ min n 1 = 1; omega, by unfold mkRepetition; simp only [if_pos hl]; simp [Nat.min_assoc]⟩
    rw [e]
    rcases hj with rfl | rfl <;> rcases hk with rfl | rfl
    · simp [mkRepetition, hl, Normal]
    · have e1 : mkRepetition 0 (some 1) g h = .repetition 0 (some 1) g h := by simp [mkRepetition, hl]
      rw [e1]
      exact ⟨hn, e1, by simp⟩
    · have e1 : mkRepetition 1 (some 0) g h = .repetition 1 (some 0) g h := by simp [mkRepetition, hl]
      rw [e1]
      exact ⟨hn, e1, by simp⟩
    · have e1 : mkRepetition 1 (some 1) g h = h := by simp [mkRepetition, hl]
      rw [e1]
      exact hn
  · unfold mkRepetition
    simp only [if_neg hl]
    split
    · trivial
    · split
      · exact hn
      · rename_i h0 h1
        refine ⟨hn, ?_, fun he => hg he ?_⟩
        · unfold mkRepetition
          simp only [if_neg hl, if_neg h0, if_neg h1]
        · subst he
          simp only [Option.some.injEq, and_self] at h0 h1
          omega

mutual
theorem translate_normal : ∀ (a : Ast) (i : Nat), a.Valid → a.Steady → (translate T a i).1.Normal T.word
  | .empty, _, _, _ => trivial
  | .lit _, _, _, _ => by simp [translate, mkLiteral, Normal]
  | .dot, _, _, _ => mkClass_normal (rs := dotRanges) (by
      refine ⟨by decide, by decide, by decide, by simp, trivial⟩)
  | .cls k, _, hv, _ => mkClass_normal (T.cls_canonical hv)
  | .bol, _, _, _ => trivial
  | .eol, _, _, _ => trivial
  | .mark _, _, _, _ => rfl
  | .cap n a, i, hv, hs => translate_normal a (i + 1) hv.2 hs
  | .group a, i, hv, hs => translate_normal a i hv hs
  | .concat as, i, hv, hs => mkConcat_normal (translateL_normal as i hv hs)
  | .alt as, i, hv, hs => mkAlternation_normal (translateL_normal as i hv.2 hs)
  | .rep a m n g, i, hv, hs => mkRepetition_normal (translate_normal a i hv.1 hs.1) hs.2
theorem translateL_normal : ∀ (as : List Ast) (i : Nat), Ast.AllValid as → Ast.AllSteady as → AllNormal T.word (translateL T as i).1
  | [], _, _, _ => trivial
  | a :: as, i, hv, hs => ⟨translate_normal a i hv.1 hs.1, translateL_normal as _ hv.2 hs.2⟩
end

/-! ## Names -/

end CE

namespace CE.Hir
open Regex Spec

variable {W : List (Char × Char)}

mutual
/-- Without the names of the groups. -/
def nameless : Hir → Hir
  | .empty => .empty
  | .literal cs => .literal cs
  | .cls rs => .cls rs
  | .look l => .look l
  | .repetition m n g sub => .repetition m n g (nameless sub)
  | .capture i _ sub => .capture i none (nameless sub)
  | .concat subs => .concat (namelessL subs)
  | .alternation subs => .alternation (namelessL subs)
def namelessL : List Hir → List Hir
  | [] => []
  | h :: hs => nameless h :: namelessL hs
end

theorem namelessL_map (hs : List Hir) : namelessL hs = hs.map nameless := by
  induction hs with
  | nil => rfl
  | cons h hs ih => simp [namelessL, ih]

mutual
theorem tries_nameless : ∀ (h : Hir) (pre rest : List Char), h.nameless.tries pre rest = h.tries pre rest
  | .empty, _, _ => rfl
  | .literal _, _, _ => rfl
  | .cls _, _, _ => rfl
  | .look _, _, _ => rfl
  | .repetition m n g sub, pre, rest => by
    simp only [nameless, tries]
    rw [show (fun p q => sub.nameless.tries p q) = fun p q => sub.tries p q from funext fun p => funext fun q => tries_nameless sub p q]
  | .capture i name sub, pre, rest => by simp only [nameless, tries, tries_nameless sub]
  | .concat subs, pre, rest => by simp only [nameless, tries, catTries_nameless subs]
  | .alternation subs, pre, rest => by simp only [nameless, tries, altTries_nameless subs]
theorem catTries_nameless : ∀ (hs : List Hir) (pre rest : List Char), catTries (namelessL hs) pre rest = catTries hs pre rest
  | [], _, _ => rfl
  | h :: hs, pre, rest => by simp only [namelessL, catTries, tries_nameless h, catTries_nameless hs]
theorem altTries_nameless : ∀ (hs : List Hir) (pre rest : List Char), altTries (namelessL hs) pre rest = altTries hs pre rest
  | [], _, _ => rfl
  | h :: hs, pre, rest => by simp only [namelessL, altTries, tries_nameless h, altTries_nameless hs]
end

theorem tries_of_nameless {h k : Hir} (he : h.nameless = k.nameless) (pre rest : List Char) : h.tries pre rest = k.tries pre rest := by
  rw [← tries_nameless, he, tries_nameless]

mutual
theorem indices_nameless : ∀ h : Hir, h.nameless.indices = h.indices
  | .empty => rfl
  | .literal _ => rfl
  | .cls _ => rfl
  | .look _ => rfl
  | .repetition m n g sub => by simp only [nameless, indices, indices_nameless sub]
  | .capture i name sub => by simp only [nameless, indices, indices_nameless sub]
  | .concat subs => by simp only [nameless, indices, indicesL_nameless subs]
  | .alternation subs => by simp only [nameless, indices, indicesL_nameless subs]
theorem indicesL_nameless : ∀ hs : List Hir, indicesL (namelessL hs) = indicesL hs
  | [] => rfl
  | h :: hs => by simp only [namelessL, indicesL, indices_nameless h, indicesL_nameless hs]
end

mutual
theorem nameless_id : ∀ h : Hir, h.indices = [] → h.nameless = h
  | .empty, _ => rfl
  | .literal _, _ => rfl
  | .cls _, _ => rfl
  | .look _, _ => rfl
  | .repetition m n g sub, hi => by simp only [nameless, nameless_id sub hi]
  | .capture i name sub, hi => by simp [indices] at hi
  | .concat subs, hi => by simp only [nameless, namelessL_id subs hi]
  | .alternation subs, hi => by simp only [nameless, namelessL_id subs hi]
theorem namelessL_id : ∀ hs : List Hir, indicesL hs = [] → namelessL hs = hs
  | [], _ => rfl
  | h :: hs, hi => by
    simp only [indicesL, List.append_eq_nil_iff] at hi
    simp only [namelessL, nameless_id h hi.1, namelessL_id hs hi.2]
end

theorem empty_nameless {h : Hir} : h.nameless = .empty ↔ h = .empty := by cases h <;> simp [nameless]
theorem isConcat_nameless (h : Hir) : h.nameless.isConcat = h.isConcat := by cases h <;> rfl
theorem isAlternation_nameless (h : Hir) : h.nameless.isAlternation = h.isAlternation := by cases h <;> rfl
theorem literal_nameless {h : Hir} {cs : List Char} : h.nameless = .literal cs ↔ h = .literal cs := by cases h <;> simp [nameless]
theorem isSingleton_nameless (h : Hir) : h.nameless.isSingleton = h.isSingleton := by cases h <;> rfl
theorem isCls_nameless (h : Hir) : h.nameless.isCls = h.isCls := by cases h <;> rfl

theorem normalCat_nameless (hs : List Hir) : NormalCat (hs.map nameless) ↔ NormalCat hs := by
  unfold NormalCat
  refine and_congr (by simp) (and_congr ?_ ?_)
  · simp only [List.mem_map, forall_exists_index, and_imp, forall_apply_eq_imp_iff₂, isConcat_nameless, ne_eq, empty_nameless]
  · constructor
    · intro h l s t r he
      exact h (l.map nameless) s t (r.map nameless) (by rw [he]; simp [nameless])
    · intro h l s t r he
      obtain ⟨l', r', rfl, -, he⟩ := List.map_eq_append_iff.1 he
      obtain ⟨x, r2, rfl, hx, he⟩ := List.map_eq_cons_iff.1 he
      obtain ⟨y, r3, rfl, hy, he⟩ := List.map_eq_cons_iff.1 he
      rw [literal_nameless] at hx hy
      subst hx hy
      exact h _ _ _ _ rfl

theorem mixedRanges_nameless : ∀ hs : List Hir, mixedRanges (hs.map nameless) = mixedRanges hs
  | [] => rfl
  | h :: hs => by
    have ih := mixedRanges_nameless hs
    rw [List.map_cons]
    cases h with
    | literal a =>
      match a with
      | [] => rfl
      | [c] => simp only [nameless, mixedRanges, ih]
      | _ :: _ :: _ => rfl
    | cls rs => simp only [nameless, mixedRanges, ih]
    | _ => rfl

theorem charRanges_nameless (hs : List Hir) : charRanges (hs.map nameless) = charRanges hs := by
  unfold charRanges
  rw [mixedRanges_nameless, List.all_map, List.all_map]
  simp only [Function.comp_def, isSingleton_nameless, isCls_nameless]

theorem concats_renamed : ∀ {hs ks : List Hir} {cs : List (List Hir)}, ks.map nameless = hs.map nameless → concats ks = some cs →
    ∃ cs', concats hs = some cs' ∧ cs'.map (List.map nameless) = cs.map (List.map nameless)
  | [], ks, cs, he, hc => by
    cases ks with
    | nil => exact ⟨[], rfl, by cases hc; rfl⟩
    | cons k ks => simp at he
  | h :: hs, ks, cs, he, hc => by
    cases ks with
    | nil => simp at he
    | cons k ks =>
      simp only [List.map_cons, List.cons.injEq] at he
      cases k with
      | concat ls =>
        obtain ⟨he1, he2⟩ := he
        simp only [concats] at hc
        cases hcc : concats ks with
        | none => rw [hcc] at hc; simp at hc
        | some ds =>
          rw [hcc] at hc
          simp only [Option.map_some, Option.some.injEq] at hc
          subst hc
          obtain ⟨ds', e1, e2⟩ := concats_renamed he2 hcc
          cases h with
          | concat ls' =>
            simp only [nameless, Hir.concat.injEq, namelessL_map] at he1
            exact ⟨ls' :: ds', by simp [concats, e1], by simp [e2, he1]⟩
          | _ => simp [nameless] at he1
      | _ => simp [concats] at hc

/-- The names do not matter for whether something is moved out of an alternation, since all groups have different numbers. -/
theorem normalAlt_renamed {hs ks : List Hir} (he : ks.map nameless = hs.map nameless) (hi : (indicesL hs).Nodup) (h : NormalAlt hs) :
    NormalAlt ks := by
  obtain ⟨h1, h2, h3, h4⟩ := h
  have hlen : ks.length = hs.length := by simpa using congrArg List.length he
  refine ⟨by omega, fun s hs' => ?_, ?_, fun c cs hc => ?_⟩
  · have : s.nameless ∈ hs.map nameless := by rw [← he]; exact List.mem_map_of_mem hs'
    obtain ⟨t, ht, hst⟩ := List.mem_map.1 this
    rw [← isAlternation_nameless, ← hst, isAlternation_nameless]
    exact h2 t ht
  · rw [← charRanges_nameless, he, charRanges_nameless, h3]
  · cases hp : cs.foldl commonPrefix c with
    | nil => rfl
    | cons p ps =>
      exfalso
      obtain ⟨p1, p2⟩ := foldl_prefix cs c
      rw [hp] at p1 p2
      have hkc := concats_eq ks _ hc
      have hpre : ∀ d ∈ c :: cs, ∃ t, d = p :: t := by
        intro d hd
        have : (p :: ps) <+: d := by
          rcases List.mem_cons.1 hd with rfl | hd
          · exact p1
          · exact p2 d hd
        obtain ⟨t, rfl⟩ := this
        exact ⟨ps ++ t, rfl⟩
      have hki : (indicesL ks).Nodup := by
        rw [← indicesL_nameless, namelessL_map, he, ← namelessL_map, indicesL_nameless]
        exact hi
      have hpi : p.indices = [] := by
        cases cs with
        | nil => rw [hkc] at hlen; simp at hlen; omega
        | cons d cs =>
          obtain ⟨t, rfl⟩ := hpre c (by simp)
          obtain ⟨u, rfl⟩ := hpre d (by simp)
          rw [hkc] at hki
          simp only [List.map_cons, indicesL, indices, List.append_assoc] at hki
          rw [List.nodup_append] at hki
          cases hpi : p.indices with
          | nil => rfl
          | cons i is =>
            exact absurd rfl (hki.2.2 i (by rw [hpi]; simp) i (by rw [hpi]; simp))
      -- the same before renaming
      obtain ⟨c', cs', hc', hcc⟩ : ∃ c' cs', concats hs = some (c' :: cs') ∧ ((c' :: cs').map (List.map nameless)) = (c :: cs).map (List.map nameless) := by
        obtain ⟨cs', e1, e2⟩ := concats_renamed (hs := hs) (ks := ks) he hc
        cases cs' with
        | nil => simp at e2
        | cons c' cs' => exact ⟨c', cs', e1, e2⟩
      have hpre' : ∀ d ∈ c' :: cs', [p] <+: d := by
        intro d hd
        have : d.map nameless ∈ (c :: cs).map (List.map nameless) := by rw [← hcc]; exact List.mem_map_of_mem hd
        obtain ⟨d', hd', hdd⟩ := List.mem_map.1 this
        obtain ⟨t, rfl⟩ := hpre d' hd'
        rw [List.map_cons] at hdd
        obtain ⟨q, u, rfl, hq, -⟩ := List.map_eq_cons_iff.1 hdd.symm
        have hqi : q.indices = [] := by rw [← indices_nameless, hq, indices_nameless, hpi]
        rw [nameless_id q hqi, nameless_id p hpi] at hq
        exact ⟨u, by rw [hq]; rfl⟩
      have := foldl_max (cs := cs') (hpre' c' (by simp)) fun d hd => hpre' d (by simp [hd])
      rw [h4 c' cs' hc'] at this
      simp at this

/-! ## Renaming -/

mutual
theorem rename_normal (id : Nat) : ∀ (h : Hir) (n : Nat), h.Normal W → h.indices.Nodup →
    (renameGroupsInner id h n).1.Normal W ∧ (renameGroupsInner id h n).1.nameless = h.nameless
  | .empty, _, _, _ => ⟨trivial, rfl⟩
  | .literal cs, _, hn, _ => by
    have : mkLiteral cs = .literal cs := by
      unfold mkLiteral
      have : cs ≠ [] := hn
      simp [this]
    rw [renameGroupsInner, this]
    exact ⟨hn, rfl⟩
  | .cls rs, _, hn, _ => by
    rw [renameGroupsInner, mkClass_id hn.2]
    exact ⟨hn, rfl⟩
  | .look _, _, hn, _ => ⟨hn, rfl⟩
  | .repetition a b g s, _, hn, _ => by
    rw [renameGroupsInner, hn.2.1]
    exact ⟨hn, rfl⟩
  | .capture i name s, n, hn, hi => by
    have hi : (i :: s.indices).Nodup := hi
    have ih := rename_normal id s (n + 1) hn (List.nodup_cons.1 hi).2
    simp only [renameGroupsInner]
    exact ⟨ih.1, by simp only [nameless, ih.2]⟩
  | .concat subs, n, hn, hi => by
    have ih := renames_normal id subs n hn.2 hi
    have hc : NormalCat (renameGroupsList id subs n).1 := by
      rw [← normalCat_nameless, ih.2, normalCat_nameless]
      exact hn.1
    simp only [renameGroupsInner]
    rw [mkConcat_id hc]
    exact ⟨⟨hc, ih.1⟩, by simp only [nameless, namelessL_map, ih.2]⟩
  | .alternation subs, n, hn, hi => by
    have ih := renames_normal id subs n hn.2 hi
    have hc : NormalAlt (renameGroupsList id subs n).1 := normalAlt_renamed ih.2 hi hn.1
    simp only [renameGroupsInner]
    rw [mkAlternation_id hc]
    exact ⟨⟨hc, ih.1⟩, by simp only [nameless, namelessL_map, ih.2]⟩
theorem renames_normal (id : Nat) : ∀ (hs : List Hir) (n : Nat), AllNormal W hs → (indicesL hs).Nodup →
    AllNormal W (renameGroupsList id hs n).1 ∧ (renameGroupsList id hs n).1.map nameless = hs.map nameless
  | [], _, _, _ => ⟨trivial, rfl⟩
  | h :: hs, n, hn, hi => by
    simp only [indicesL, List.nodup_append] at hi
    have h1 := rename_normal id h n hn.1 hi.1
    have h2 := renames_normal id hs (renameGroupsInner id h n).2 hn.2 hi.2.1
    simp only [renameGroupsList]
    exact ⟨⟨h1.1, h2.1⟩, by simp only [List.map_cons, h1.2, h2.2]⟩
end

end CE.Hir
