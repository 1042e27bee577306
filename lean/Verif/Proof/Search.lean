import Verif.Model.RegexSearch
import Verif.Proof.RegexSem

/-! # The matches that are tried are all matches -/

namespace CE.Regex

variable {T : Tests}

/-- The expression cannot match the empty text (sufficient condition). -/
def Re.nonEmpty : Re → Bool
  | .lit _ => true
  | .dot => true
  | .cls _ => true
  | .cap _ r => r.nonEmpty
  | .cat a b => a.nonEmpty || b.nonEmpty
  | .alt a b => a.nonEmpty && b.nonEmpty
  | .rep r m _ _ => decide (0 < m) && r.nonEmpty
  | _ => false

/-- No repeated expression can match the empty text. -/
def Re.solid : Re → Bool
  | .cap _ r => r.solid
  | .cat a b => a.solid && b.solid
  | .alt a b => a.solid && b.solid
  | .rep r _ _ _ => r.nonEmpty && r.solid
  | _ => true

theorem test_cls (k : Cls) (c : Char) : k.test T c = true ↔ k.mem T.classes c := by
  have hi : ∀ (i : CItem) (c : Char), i.test T c = true ↔ i.mem T.classes c := by
    intro i
    induction i with
    | single a => intro c; simp [CItem.test, CItem.mem]
    | range a b => intro c; simp [CItem.test, CItem.mem]
    | perl neg p => intro c; cases neg <;> cases p <;> simp [CItem.test, CItem.mem, Perl.test, Perl.mem, Tests.classes]
    | ascii neg rs => intro c; cases neg <;> simp [CItem.test, CItem.mem]
    | void => intro c; simp [CItem.test, CItem.mem]
    | nested neg i ih => intro c; cases neg <;> simp [CItem.test, CItem.mem, ← ih]
    | union i j hi hj => intro c; simp [CItem.test, CItem.mem, ← hi, ← hj]
    | op k i j hi hj => intro c; cases k <;> simp [CItem.test, CItem.mem, ← hi, ← hj]
    | fold neg i ih =>
      intro c
      have : (i.test T c || T.folds.any fun p => p.2 == c && i.test T p.1) = true ↔
          (i.mem T.classes c ∨ ∃ d, T.classes.fold d c ∧ i.mem T.classes d) := by
        rw [Bool.or_eq_true, ih, List.any_eq_true]
        refine or_congr Iff.rfl ?_
        constructor
        · rintro ⟨⟨a, b⟩, h1, h2⟩
          simp only [Bool.and_eq_true, beq_iff_eq] at h2
          obtain ⟨rfl, h2⟩ := h2
          exact ⟨a, h1, (ih a).1 h2⟩
        · rintro ⟨d, h1, h2⟩
          exact ⟨(d, c), h1, by simpa using (ih d).2 h2⟩
      cases neg with
      | false => rw [CItem.mem, ← this, CItem.test]; generalize (_ || _) = b; revert b; decide
      | true => rw [CItem.mem, ← this, CItem.test]; generalize (_ || _) = b; revert b; decide
  unfold Cls.test Cls.mem
  cases k.neg with
  | false => simp [hi]
  | true => simp [← Bool.not_eq_true, hi]

theorem mem_oneChar {q : Char → Bool} {rest x : List Char} {l : List Cap} :
    (x, l) ∈ oneChar q rest ↔ ∃ c post, rest = x ++ post ∧ q c = true ∧ x = [c] ∧ l = [] := by
  unfold oneChar
  split
  · rename_i c r
    by_cases h : q c = true
    · simp only [h, if_true, List.mem_singleton, Prod.mk.injEq]
      constructor
      · rintro ⟨rfl, rfl⟩; exact ⟨c, r, rfl, h, rfl, rfl⟩
      · rintro ⟨d, post, h1, -, rfl, rfl⟩
        simp at h1; simp [h1]
    · simp only [h, Bool.false_eq_true, if_false, List.not_mem_nil, false_iff]
      rintro ⟨d, post, h1, h2, rfl, -⟩
      simp at h1; rw [h1.1] at h; exact h h2
  · simp only [List.not_mem_nil, false_iff]
    rintro ⟨d, post, h1, -, rfl, -⟩
    simp at h1

theorem mem_andThen {L : List Try} {f : List Char → List Try} {x : List Char} {l : List Cap} :
    (x, l) ∈ andThen L f ↔ ∃ y z k m, x = y ++ z ∧ l = k ++ m ∧ (y, k) ∈ L ∧ (z, m) ∈ f y := by
  unfold andThen
  simp only [List.mem_flatMap, List.mem_map, Prod.exists, Prod.mk.injEq]
  constructor
  · rintro ⟨y, k, h1, z, m, h2, rfl, rfl⟩; exact ⟨y, z, k, m, rfl, rfl, h1, h2⟩
  · rintro ⟨y, z, k, m, rfl, rfl, h1, h2⟩; exact ⟨y, k, h1, z, m, h2, rfl, rfl⟩

theorem nonEmpty_sound {U : Classes} : ∀ (r : Re), r.nonEmpty = true → ∀ g pre post l, ¬ r.Match U g pre [] post l
  | .lit _, _, _, _, _, _, h => by simp [Re.Match] at h
  | .dot, _, _, _, _, _, h => by simp [Re.Match] at h
  | .cls _, _, _, _, _, _, h => by simp [Re.Match] at h
  | .cap _ r, hr, g, pre, post, l, h => by
    obtain ⟨k, h, -⟩ := h
    exact nonEmpty_sound r hr _ _ _ _ h
  | .cat a b, hr, g, pre, post, l, h => by
    obtain ⟨y, z, k, m, h1, -, h2, h3⟩ := h
    obtain ⟨rfl, rfl⟩ := List.append_eq_nil_iff.1 h1.symm
    rcases Bool.or_eq_true_iff.1 hr with hr | hr
    · exact nonEmpty_sound a hr _ _ _ _ h2
    · exact nonEmpty_sound b hr _ _ _ _ h3
  | .alt a b, hr, g, pre, post, l, h => by
    obtain ⟨ha, hb⟩ := (Bool.and_eq_true_iff ..).1 hr
    rcases h with h | h
    · exact nonEmpty_sound a ha _ _ _ _ h
    · exact nonEmpty_sound b hb _ _ _ _ h
  | .rep r m n _, hr, g, pre, post, l, h => by
    obtain ⟨hm, hr⟩ := (Bool.and_eq_true_iff ..).1 hr
    have hm : 0 < m := by simpa using hm
    have h : Repeats (r.Match U g) m n pre [] post l := h
    generalize hx : ([] : List Char) = x at h
    cases h with
    | done => simp at hm
    | more m n pre x y post l k hn h1 h2 =>
      obtain ⟨rfl, rfl⟩ := List.append_eq_nil_iff.1 hx.symm
      exact nonEmpty_sound r hr _ _ _ _ h1

/-- What `repTries` yields. -/
theorem mem_repTries {body : List Char → List Char → List Try} {P : Matches} {greedy : Bool}
    (hb : ∀ pre rest x l, (x, l) ∈ body pre rest ↔ ∃ post, rest = x ++ post ∧ P pre x post l)
    (he : ∀ pre post l, ¬ P pre [] post l) (fuel : Nat) : ∀ (m : Nat) (n : Option Nat) (pre rest x : List Char) (l : List Cap),
      m + rest.length ≤ fuel →
      ((x, l) ∈ repTries body greedy fuel m n pre rest ↔ ∃ post, rest = x ++ post ∧ Repeats P m n pre x post l) := by
  induction fuel with
  | zero =>
    intro m n pre rest x l hf
    have hm : m = 0 := by omega
    have hr : rest = [] := List.eq_nil_of_length_eq_zero (by omega)
    subst hm hr
    simp only [repTries, if_true, List.mem_singleton, Prod.mk.injEq]
    constructor
    · rintro ⟨rfl, rfl⟩; exact ⟨[], rfl, .done _ _ _⟩
    · rintro ⟨post, h1, h2⟩
      obtain ⟨rfl, rfl⟩ := List.append_eq_nil_iff.1 h1.symm
      generalize hx : ([] : List Char) = x at h2
      cases h2 with
      | done => exact ⟨rfl, rfl⟩
      | more m n pre x y post l k hn h1 h2 =>
        obtain ⟨rfl, rfl⟩ := List.append_eq_nil_iff.1 hx.symm
        exact absurd h1 (he _ _ _)
  | succ fuel ih =>
    intro m n pre rest x l hf
    have hmem : (x, l) ∈ repTries body greedy (fuel + 1) m n pre rest ↔ (n ≠ some 0 ∧ ∃ y z k j, x = y ++ z ∧ l = k ++ j ∧
        (y, k) ∈ body pre rest ∧ (z, j) ∈ repTries body greedy fuel (m - 1) (n.map (· - 1)) (pre ++ y) (rest.drop y.length)) ∨
        (m = 0 ∧ x = [] ∧ l = []) := by
      have h1 : (x, l) ∈ repTries body greedy (fuel + 1) m n pre rest ↔
          (x, l) ∈ (if n = some 0 then [] else
            andThen ((body pre rest).filter fun a => m != 0 || !a.1.isEmpty) fun x =>
              repTries body greedy fuel (m - 1) (n.map (· - 1)) (pre ++ x) (rest.drop x.length)) ∨
          (x, l) ∈ (if m = 0 then [([], [])] else [] : List Try) := by
        rw [repTries]
        cases greedy <;> simp [or_comm]
      rw [h1]
      refine or_congr ?_ ?_
      · by_cases hn : n = some 0
        · simp [hn]
        · rw [if_neg hn, mem_andThen]
          simp only [ne_eq, hn, not_false_iff, true_and]
          constructor
          · rintro ⟨y, z, k, j, e1, e2, h3, h4⟩
            exact ⟨y, z, k, j, e1, e2, (List.mem_filter.1 h3).1, h4⟩
          · rintro ⟨y, z, k, j, e1, e2, h3, h4⟩
            refine ⟨y, z, k, j, e1, e2, List.mem_filter.2 ⟨h3, ?_⟩, h4⟩
            obtain ⟨post, -, h5⟩ := (hb _ _ _ _).1 h3
            cases y with
            | nil => exact absurd h5 (he _ _ _)
            | cons c y => simp
      · by_cases hm : m = 0 <;> simp [hm]
    rw [hmem]
    constructor
    · rintro (⟨hn, y, z, k, j, rfl, rfl, h3, h4⟩ | ⟨rfl, rfl, rfl⟩)
      · obtain ⟨post, rfl, h5⟩ := (hb _ _ _ _).1 h3
        have hy : y ≠ [] := by rintro rfl; exact he _ _ _ h5
        have hyl := List.length_pos_iff.2 hy
        rw [List.drop_left] at h4
        obtain ⟨post', rfl, h6⟩ := (ih _ _ _ _ _ _ (by simp at hf; omega)).1 h4
        exact ⟨post', by simp, .more _ _ _ _ _ _ _ _ hn h5 h6⟩
      · exact ⟨rest, rfl, .done _ _ _⟩
    · rintro ⟨post, rfl, h⟩
      cases h with
      | done => exact .inr ⟨rfl, rfl, rfl⟩
      | more m n pre y z post k j hn h1 h2 =>
        refine .inl ⟨hn, y, z, k, j, rfl, rfl, (hb _ _ _ _).2 ⟨z ++ post, by simp, h1⟩, ?_⟩
        have hy : y ≠ [] := by rintro rfl; exact he _ _ _ h1
        have hyl := List.length_pos_iff.2 hy
        rw [List.append_assoc, List.drop_left]
        exact (ih _ _ _ _ _ _ (by simp at hf ⊢; omega)).2 ⟨post, rfl, h2⟩

theorem boundary_iff (pre rest : List Char) : isBoundary T.word pre rest = true ↔ Boundary T.classes pre rest := by
  have h : ∀ o : Option Char, (∃ c, o = some c ∧ T.classes.word c) ↔ o.any T.word = true := by
    rintro (_ | c) <;> simp [Tests.classes]
  unfold isBoundary Boundary
  rw [h, h, bne_iff_ne, ne_eq, Bool.eq_iff_iff]

theorem mark_test (k : Mark) (pre rest : List Char) : k.test T.word pre rest = true ↔ k.Holds T.classes pre rest := by
  have h : ∀ o : Option Char, (o.all (· == '\n')) = true ↔ o = none ∨ o = some '\n' := by
    rintro (_ | c) <;> simp
  cases k with
  | word => exact boundary_iff pre rest
  | nonWord => simp only [Mark.test, Mark.Holds, ← boundary_iff, Bool.not_eq_true, Bool.not_eq_eq_eq_not, Bool.not_true]
  | lineStart => simp only [Mark.test, Mark.Holds, h, List.getLast?_eq_none_iff]
  | lineEnd => simp only [Mark.test, Mark.Holds, h, List.head?_eq_none_iff]

/-- The matches that are tried are exactly the matches. -/
theorem mem_tries : ∀ (r : Re), r.solid = true → ∀ g pre rest x l,
    (x, l) ∈ r.tries T g pre rest ↔ ∃ post, rest = x ++ post ∧ r.Match T.classes g pre x post l
  | .empty, _, g, pre, rest, x, l => by
    simp only [Re.tries, Re.Match, List.mem_singleton, Prod.mk.injEq]
    constructor
    · rintro ⟨rfl, rfl⟩; exact ⟨rest, rfl, rfl, rfl⟩
    · rintro ⟨_, _, h⟩; exact h
  | .lit c, _, g, pre, rest, x, l => by
    simp only [Re.tries, Re.Match, mem_oneChar, beq_iff_eq]
    constructor
    · rintro ⟨_, post, h1, rfl, rfl, rfl⟩; exact ⟨post, h1, rfl, rfl⟩
    · rintro ⟨post, h1, rfl, rfl⟩; exact ⟨c, post, h1, rfl, rfl, rfl⟩
  | .dot, _, g, pre, rest, x, l => by
    simp only [Re.tries, Re.Match, mem_oneChar, bne_iff_ne]
    constructor
    · rintro ⟨c, post, h1, h2, rfl, rfl⟩; exact ⟨post, h1, ⟨c, h2, rfl⟩, rfl⟩
    · rintro ⟨post, h1, ⟨c, h2, rfl⟩, rfl⟩; exact ⟨c, post, h1, h2, rfl, rfl⟩
  | .cls k, _, g, pre, rest, x, l => by
    simp only [Re.tries, Re.Match, mem_oneChar, test_cls]
    constructor
    · rintro ⟨c, post, h1, h2, rfl, rfl⟩; exact ⟨post, h1, ⟨c, h2, rfl⟩, rfl⟩
    · rintro ⟨post, h1, ⟨c, h2, rfl⟩, rfl⟩; exact ⟨c, post, h1, h2, rfl, rfl⟩
  | .bol, _, g, pre, rest, x, l => by
    simp only [Re.tries, Re.Match]
    constructor
    · intro h
      split at h
      · rename_i hp
        simp only [List.mem_singleton, Prod.mk.injEq] at h
        exact ⟨rest, by simp [h.1], by simpa using hp, h⟩
      · simp at h
    · rintro ⟨post, -, rfl, rfl, rfl⟩; simp
  | .eol, _, g, pre, rest, x, l => by
    simp only [Re.tries, Re.Match]
    constructor
    · intro h
      split at h
      · rename_i hp
        simp only [List.mem_singleton, Prod.mk.injEq] at h
        exact ⟨[], by simpa [h.1] using hp, rfl, h⟩
      · simp at h
    · rintro ⟨post, rfl, rfl, rfl, rfl⟩; simp
  | .mark k, _, g, pre, rest, x, l => by
    simp only [Re.tries, Re.Match]
    constructor
    · intro h
      split at h
      · rename_i hp
        simp only [List.mem_singleton, Prod.mk.injEq] at h
        exact ⟨rest, by simp [h.1], by simpa [h.1] using (mark_test ..).1 hp, h⟩
      · simp at h
    · rintro ⟨post, rfl, h, rfl, rfl⟩
      rw [if_pos ((mark_test ..).2 (by simpa using h))]; simp
  | .cap n r, hs, g, pre, rest, x, l => by
    simp only [Re.tries, Re.Match, List.mem_map, Prod.exists, Prod.mk.injEq]
    constructor
    · rintro ⟨y, k, h, rfl, rfl⟩
      obtain ⟨post, h1, h2⟩ := (mem_tries r hs _ _ _ _ _).1 h
      exact ⟨post, h1, k, h2, rfl⟩
    · rintro ⟨post, h1, k, h2, rfl⟩
      exact ⟨x, k, (mem_tries r hs _ _ _ _ _).2 ⟨post, h1, h2⟩, rfl, rfl⟩
  | .cat a b, hs, g, pre, rest, x, l => by
    obtain ⟨ha, hb⟩ := (Bool.and_eq_true_iff ..).1 hs
    simp only [Re.tries, Re.Match, mem_andThen]
    constructor
    · rintro ⟨y, z, k, m, rfl, rfl, h1, h2⟩
      obtain ⟨post, rfl, h3⟩ := (mem_tries a ha _ _ _ _ _).1 h1
      rw [List.drop_left] at h2
      obtain ⟨post', rfl, h4⟩ := (mem_tries b hb _ _ _ _ _).1 h2
      exact ⟨post', by simp, y, z, k, m, rfl, rfl, h3, h4⟩
    · rintro ⟨post, rfl, y, z, k, m, rfl, rfl, h3, h4⟩
      refine ⟨y, z, k, m, rfl, rfl, (mem_tries a ha _ _ _ _ _).2 ⟨_, by simp, h3⟩, ?_⟩
      rw [List.append_assoc, List.drop_left]
      exact (mem_tries b hb _ _ _ _ _).2 ⟨post, rfl, h4⟩
  | .alt a b, hs, g, pre, rest, x, l => by
    obtain ⟨ha, hb⟩ := (Bool.and_eq_true_iff ..).1 hs
    simp only [Re.tries, Re.Match, List.mem_append, mem_tries a ha, mem_tries b hb]
    constructor
    · rintro (⟨post, h1, h2⟩ | ⟨post, h1, h2⟩)
      · exact ⟨post, h1, .inl h2⟩
      · exact ⟨post, h1, .inr h2⟩
    · rintro ⟨post, h1, h2 | h2⟩
      · exact .inl ⟨post, h1, h2⟩
      · exact .inr ⟨post, h1, h2⟩
  | .rep r m n greedy, hs, g, pre, rest, x, l => by
    obtain ⟨hr, hs⟩ := (Bool.and_eq_true_iff ..).1 hs
    rw [Re.tries]
    exact mem_repTries (fun pre rest x l => mem_tries r hs g pre rest x l)
      (fun pre post l => nonEmpty_sound r hr g pre post l) _ _ _ _ _ _ _ (Nat.le_refl _)

/-- What is returned is a match; and if nothing is returned there is none. -/
theorem find_some {r : Re} (hs : r.solid = true) {w x : List Char} {i : Nat} {l : List Cap}
    (h : r.find T w = some (i, x, l)) : ∃ pre post, pre.length = i ∧ r.Finds T.classes w pre x post l := by
  obtain ⟨j, hj, h⟩ := List.exists_of_findSome?_eq_some h
  obtain ⟨a, ha, h⟩ := Option.map_eq_some_iff.1 h
  obtain ⟨rfl, rfl⟩ := Prod.mk.inj h
  obtain ⟨post, h1, h2⟩ := (mem_tries r hs _ _ _ _ _).1 (List.mem_of_mem_head? ha)
  refine ⟨w.take j, post, ?_, ?_, h2⟩
  · have := List.mem_range.1 hj
    simp; omega
  · rw [List.append_assoc, ← h1, List.take_append_drop]

theorem find_none {r : Re} (hs : r.solid = true) {w : List Char} (h : r.find T w = none) : ¬ r.IsMatch T.classes w := by
  rintro ⟨pre, x, post, l, rfl, hm⟩
  have := List.findSome?_eq_none_iff.1 h pre.length (List.mem_range.2 (by simp; omega))
  simp only [Option.map_eq_none_iff, List.head?_eq_none_iff, List.append_assoc, List.take_left, List.drop_left] at this
  have hx := (mem_tries (T := T) r hs 1 pre (x ++ post) x l).2 ⟨post, rfl, hm⟩
  rw [this] at hx; cases hx

end CE.Regex
