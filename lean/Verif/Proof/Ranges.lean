import Verif.Model.Ranges

/-! # Lists of ranges as sets of characters -/

namespace CE.Ranges

theorem valid_toNat (c : Char) : c.toNat < 0xD800 ∨ (0xDFFF < c.toNat ∧ c.toNat < 0x110000) := c.valid

theorem le_iff_toNat (c d : Char) : c ≤ d ↔ c.toNat ≤ d.toNat := by
  simp only [Char.le_def, UInt32.le_iff_toNat_le]; rfl

theorem ord_lt (c : Char) : ord c < total := by
  have := valid_toNat c
  unfold ord total
  split <;> omega

theorem le_iff (c d : Char) : c ≤ d ↔ ord c ≤ ord d := by
  have h1 := valid_toNat c
  have h2 := valid_toNat d
  rw [le_iff_toNat]
  unfold ord
  split <;> split <;> omega

theorem ord_chr {n : Nat} (h : n < total) : ord (chr n) = n := by
  unfold total at h
  unfold chr
  have hv : Nat.isValidChar (if n < 0xD800 then n else n + 0x800) := by
    unfold Nat.isValidChar
    split <;> omega
  have : (Char.ofNat (if n < 0xD800 then n else n + 0x800)).toNat = if n < 0xD800 then n else n + 0x800 := by
    simp only [Char.ofNat, dif_pos hv]
    rfl
  unfold ord
  rw [this]
  split
  · rfl
  · split <;> omega

theorem mem_iff (rs : List (Char × Char)) (c : Char) : mem rs c = true ↔ ∃ r ∈ rs, ord r.1 ≤ ord c ∧ ord c ≤ ord r.2 := by
  simp [mem, le_iff]

/-- Sorted, valid, and with gaps between the ranges. -/
def Canonical : List (Char × Char) → Prop
  | [] => True
  | (a, b) :: rs => ord a ≤ ord b ∧ (∀ r ∈ rs, ord b + 1 < ord r.1) ∧ Canonical rs

theorem Canonical.valid : ∀ {rs : List (Char × Char)}, Canonical rs → ∀ r ∈ rs, r.1 ≤ r.2
  | [], _, _, h => by cases h
  | (a, b) :: rs, h, r, hr => by
    rcases List.mem_cons.1 hr with rfl | hr
    · exact (le_iff _ _).2 h.1
    · exact h.2.2.valid r hr

theorem insert_start (a b : Char) : ∀ (rs : List (Char × Char)), ∀ r ∈ insert a b rs, ord a ≤ ord r.1 ∨ ∃ q ∈ rs, ord q.1 ≤ ord r.1 := by
  intro rs
  induction rs generalizing a b with
  | nil => intro r hr; simp [insert] at hr; subst hr; simp
  | cons q rs ih =>
    obtain ⟨c, d⟩ := q
    intro r hr
    rw [insert] at hr
    split at hr
    · rcases List.mem_cons.1 hr with rfl | hr
      · exact .inl (Nat.le_refl _)
      · exact .inr ⟨r, hr, Nat.le_refl _⟩
    · split at hr
      · rcases List.mem_cons.1 hr with rfl | hr
        · exact .inr ⟨_, List.mem_cons_self .., Nat.le_refl _⟩
        · rcases ih a b r hr with h | ⟨q, hq, h⟩
          · exact .inl h
          · exact .inr ⟨q, List.mem_cons_of_mem _ hq, h⟩
      · rcases ih _ _ r hr with h | ⟨q, hq, h⟩
        · split at h
          · exact .inl h
          · exact .inr ⟨_, List.mem_cons_self .., h⟩
        · exact .inr ⟨q, List.mem_cons_of_mem _ hq, h⟩

theorem insert_canonical : ∀ (rs : List (Char × Char)) (a b : Char), ord a ≤ ord b → Canonical rs → Canonical (insert a b rs)
  | [], a, b, h, _ => ⟨h, by simp, trivial⟩
  | (c, d) :: rs, a, b, h, hc => by
    rw [insert]
    split
    · rename_i h1
      refine ⟨h, ?_, hc⟩
      intro r hr
      rcases List.mem_cons.1 hr with rfl | hr
      · exact h1
      · have := hc.2.1 r hr
        have := hc.1
        omega
    · split
      · rename_i h2
        refine ⟨hc.1, ?_, insert_canonical rs a b h hc.2.2⟩
        intro r hr
        rcases insert_start a b rs r hr with h3 | ⟨q, hq, h3⟩
        · omega
        · have := hc.2.1 q hq; omega
      · refine insert_canonical rs _ _ ?_ hc.2.2
        have := hc.1
        simp only [le_iff]
        split <;> split <;> omega

theorem mem_insert : ∀ (rs : List (Char × Char)) (a b c : Char), ord a ≤ ord b → Canonical rs →
    (mem (insert a b rs) c = true ↔ (a ≤ c ∧ c ≤ b) ∨ mem rs c = true)
  | [], a, b, c, _, _ => by simp [insert, mem]
  | (p, q) :: rs, a, b, c, h, hc => by
    rw [insert]
    have cons : ∀ (x y : Char) (l : List (Char × Char)), mem ((x, y) :: l) c = true ↔ (x ≤ c ∧ c ≤ y) ∨ mem l c = true := by
      simp [mem]
    have hpq := hc.1
    split
    · rw [cons]
    · split
      · rw [cons, mem_insert rs a b c h hc.2.2, cons]
        constructor
        · rintro (h | h | h)
          · exact .inr (.inl h)
          · exact .inl h
          · exact .inr (.inr h)
        · rintro (h | h | h)
          · exact .inr (.inl h)
          · exact .inl h
          · exact .inr (.inr h)
      · rw [mem_insert rs _ _ c (by simp only [le_iff]; split <;> split <;> omega) hc.2.2, cons, ← or_assoc]
        have : ((if a ≤ p then a else p) ≤ c ∧ c ≤ (if b ≤ q then q else b)) ↔ (a ≤ c ∧ c ≤ b) ∨ (p ≤ c ∧ c ≤ q) := by
          simp only [le_iff]
          split <;> split <;> omega
        rw [this]

theorem canon_canonical : ∀ (rs : List (Char × Char)), (∀ r ∈ rs, r.1 ≤ r.2) → Canonical (canon rs)
  | [], _ => trivial
  | (a, b) :: rs, h => insert_canonical _ _ _ ((le_iff _ _).1 (h (a, b) (by simp)))
      (canon_canonical rs fun r hr => h r (by simp [hr]))

theorem mem_canon : ∀ (rs : List (Char × Char)) (c : Char), (∀ r ∈ rs, r.1 ≤ r.2) → (mem (canon rs) c = true ↔ mem rs c = true)
  | [], _, _ => Iff.rfl
  | (a, b) :: rs, c, h => by
    have h' : ∀ r ∈ rs, r.1 ≤ r.2 := fun r hr => h r (by simp [hr])
    rw [canon, mem_insert _ _ _ _ ((le_iff _ _).1 (h (a, b) (by simp))) (canon_canonical rs h'), mem_canon rs c h']
    simp [mem]

theorem insert_ne (a b : Char) : ∀ rs, insert a b rs ≠ [] := by
  intro rs
  induction rs generalizing a b with
  | nil => simp [insert]
  | cons q rs ih =>
    obtain ⟨c, d⟩ := q
    rw [insert]
    split
    · simp
    · split
      · simp
      · exact ih _ _

theorem canon_ne {rs : List (Char × Char)} (h : rs ≠ []) : canon rs ≠ [] := by
  match rs, h with
  | (a, b) :: rs, _ => exact insert_ne a b _

theorem gaps_valid : ∀ (rs : List (Char × Char)) (n : Nat), ∀ r ∈ gaps n rs, r.1 ≤ r.2
  | [], n, r, h => by
    rw [gaps] at h
    split at h
    · rename_i hn
      simp at h
      subst h
      rw [le_iff, ord_chr hn, ord_chr (by unfold total; omega)]
      omega
    · cases h
  | (a, b) :: rs, n, r, h => by
    rw [gaps] at h
    split at h
    · rename_i hn
      have := ord_lt a
      rcases List.mem_cons.1 h with rfl | h
      · rw [le_iff, ord_chr (by omega), ord_chr (by omega)]
        omega
      · exact gaps_valid rs _ r h
    · exact gaps_valid rs _ r h

theorem mem_gaps : ∀ (rs : List (Char × Char)) (n : Nat) (c : Char), Canonical rs → (∀ r ∈ rs, n ≤ ord r.1) →
    (mem (gaps n rs) c = true ↔ n ≤ ord c ∧ ¬ mem rs c = true)
  | [], n, c, _, _ => by
    have := ord_lt c
    rw [gaps]
    split
    · rename_i h
      simp only [mem, List.any_cons, List.any_nil, Bool.or_false, decide_eq_true_eq, le_iff, ord_chr h,
        ord_chr (show total - 1 < total by unfold total; omega)]
      simp; omega
    · simp [mem]; omega
  | (a, b) :: rs, n, c, hc, hn => by
    have cons : ∀ (x y : Char) (l : List (Char × Char)), mem ((x, y) :: l) c = true ↔ (ord x ≤ ord c ∧ ord c ≤ ord y) ∨ mem l c = true := by
      simp [mem, le_iff]
    have ih := mem_gaps rs (ord b + 1) c hc.2.2 fun r hr => by have := hc.2.1 r hr; omega
    have ha := ord_lt a
    have hna : n ≤ ord a := hn (a, b) (by simp)
    have hab := hc.1
    have later : mem rs c = true → ord b + 1 < ord c := by
      intro h
      obtain ⟨r, hr, h1, -⟩ := (mem_iff _ _).1 h
      have := hc.2.1 r hr
      omega
    rw [gaps, cons]
    split
    · rw [cons, ih, ord_chr (by omega), ord_chr (by omega)]
      constructor
      · rintro (h | h)
        · refine ⟨h.1, ?_⟩
          rintro (h' | h')
          · omega
          · have := later h'; omega
        · refine ⟨by omega, ?_⟩
          rintro (h' | h')
          · omega
          · exact h.2 h'
      · rintro ⟨h1, h2⟩
        by_cases h3 : ord c < ord a
        · left; omega
        · right
          refine ⟨?_, fun h => h2 (.inr h)⟩
          have : ¬ (ord a ≤ ord c ∧ ord c ≤ ord b) := fun h => h2 (.inl h)
          omega
    · rw [ih]
      constructor
      · rintro ⟨h1, h2⟩
        refine ⟨by omega, ?_⟩
        rintro (h' | h')
        · omega
        · exact h2 h'
      · rintro ⟨h1, h2⟩
        refine ⟨?_, fun h => h2 (.inr h)⟩
        have : ¬ (ord a ≤ ord c ∧ ord c ≤ ord b) := fun h => h2 (.inl h)
        omega

theorem mem_negate {rs : List (Char × Char)} (h : Canonical rs) (c : Char) : mem (negate rs) c = true ↔ ¬ mem rs c = true := by
  rw [negate, mem_gaps rs 0 c h fun _ _ => Nat.zero_le _]
  simp

theorem negate_valid (rs : List (Char × Char)) : ∀ r ∈ negate rs, r.1 ≤ r.2 := gaps_valid rs 0

theorem gaps_first : ∀ (rs : List (Char × Char)) (n : Nat), ∀ r ∈ gaps n rs, Canonical rs → (∀ q ∈ rs, n ≤ ord q.1) → n ≤ ord r.1
  | [], n, r, h, _, _ => by
    rw [gaps] at h
    split at h
    · rename_i hn
      simp at h; subst h
      rw [ord_chr hn]
      exact Nat.le_refl _
    · cases h
  | (a, b) :: rs, n, r, h, hc, hn => by
    have ih := gaps_first rs (ord b + 1) r
    have ha := hn (a, b) (by simp)
    have hb : n ≤ ord b + 1 := by have := hc.1; simp only at ha; omega
    rw [gaps] at h
    have tail : r ∈ gaps (ord b + 1) rs → n ≤ ord r.1 := fun h => Nat.le_trans hb (ih h hc.2.2 fun q hq => by
      have := hc.2.1 q hq; omega)
    split at h
    · rename_i hlt
      rcases List.mem_cons.1 h with rfl | h
      · have := ord_lt a
        rw [ord_chr (by omega)]
        exact Nat.le_refl _
      · exact tail h
    · exact tail h

theorem gaps_canonical : ∀ (rs : List (Char × Char)) (n : Nat), Canonical rs → (∀ q ∈ rs, n ≤ ord q.1) → Canonical (gaps n rs)
  | [], n, _, _ => by
    rw [gaps]
    split
    · rename_i hn
      refine ⟨?_, by simp, trivial⟩
      rw [ord_chr hn, ord_chr (by unfold total; omega)]
      omega
    · trivial
  | (a, b) :: rs, n, hc, hn => by
    have hq : ∀ q ∈ rs, ord b + 1 ≤ ord q.1 := fun q hq => by have := hc.2.1 q hq; omega
    have ih := gaps_canonical rs (ord b + 1) hc.2.2 hq
    rw [gaps]
    split
    · rename_i hlt
      have := ord_lt a
      refine ⟨?_, fun r hr => ?_, ih⟩
      · rw [ord_chr (by omega), ord_chr (by omega)]; omega
      · have := gaps_first rs _ r hr hc.2.2 hq
        have := hc.1
        rw [ord_chr (by omega)]
        omega
    · exact ih

theorem negate_canonical {rs : List (Char × Char)} (h : Canonical rs) : Canonical (negate rs) :=
  gaps_canonical rs 0 h fun _ _ => Nat.zero_le _

theorem mem_append (rs qs : List (Char × Char)) (c : Char) : mem (rs ++ qs) c = true ↔ mem rs c = true ∨ mem qs c = true := by
  simp [mem]

theorem append_valid {rs qs : List (Char × Char)} (hr : ∀ r ∈ rs, r.1 ≤ r.2) (hq : ∀ r ∈ qs, r.1 ≤ r.2) :
    ∀ r ∈ rs ++ qs, r.1 ≤ r.2 := by
  intro r h
  rcases List.mem_append.1 h with h | h
  · exact hr r h
  · exact hq r h

theorem inter_canonical (rs qs : List (Char × Char)) : Canonical (inter rs qs) :=
  negate_canonical (canon_canonical _ (append_valid (negate_valid rs) (negate_valid qs)))

theorem mem_inter {rs qs : List (Char × Char)} (hr : Canonical rs) (hq : Canonical qs) (c : Char) :
    mem (inter rs qs) c = true ↔ mem rs c = true ∧ mem qs c = true := by
  have hv := append_valid (negate_valid rs) (negate_valid qs)
  rw [inter, mem_negate (canon_canonical _ hv), mem_canon _ _ hv, mem_append, mem_negate hr, mem_negate hq]
  cases mem rs c <;> cases mem qs c <;> simp

theorem mem_diff {rs qs : List (Char × Char)} (hr : Canonical rs) (hq : Canonical qs) (c : Char) :
    mem (diff rs qs) c = true ↔ mem rs c = true ∧ ¬ mem qs c = true := by
  rw [diff, mem_inter hr (negate_canonical hq), mem_negate hq]

theorem mem_symm {rs qs : List (Char × Char)} (hr : Canonical rs) (hq : Canonical qs) (c : Char) :
    mem (symm rs qs) c = true ↔ ¬ (mem rs c = true ↔ mem qs c = true) := by
  have hv := append_valid hr.valid hq.valid
  rw [symm, mem_diff (canon_canonical _ hv) (inter_canonical _ _), mem_canon _ _ hv, mem_append, mem_inter hr hq]
  cases mem rs c <;> cases mem qs c <;> simp

theorem ne_nil_of_mem {rs : List (Char × Char)} {c : Char} (h : mem rs c = true) : rs ≠ [] := by
  rintro rfl
  simp [mem] at h

end CE.Ranges
