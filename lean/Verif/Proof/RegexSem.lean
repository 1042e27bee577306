import Verif.Spec.Lang

/-! # Lemmas on matching -/

namespace CE.Regex
open CE.Spec

variable {U : Classes}

theorem groups_catL (rs : List Re) : (catL rs).groups = (rs.map Re.groups).flatten := by
  induction rs with
  | nil => rfl
  | cons r rs ih =>
    cases rs with
    | nil => simp [catL]
    | cons s rs => rw [catL, Re.groups, ih]; simp; simp

theorem groups_altL (rs : List Re) : (altL rs).groups = (rs.map Re.groups).flatten := by
  induction rs with
  | nil => rfl
  | cons r rs ih =>
    cases rs with
    | nil => simp [altL]
    | cons s rs => rw [altL, Re.groups, ih]; simp; simp

/-- `catL` is a concatenation also when the list has no or one item. -/
theorem match_catL_cons (r : Re) (rs : List Re) (g : Nat) (pre x post : List Char) (l : List Cap) :
    (catL (r :: rs)).Match U g pre x post l ↔ ∃ y z k m, x = y ++ z ∧ l = k ++ m ∧
      r.Match U g pre y (z ++ post) k ∧ (catL rs).Match U (g + r.groups.length) (pre ++ y) z post m := by
  cases rs with
  | nil =>
    simp only [catL, Re.Match]
    constructor
    · intro h; exact ⟨x, [], l, [], by simp, by simp, by simpa using h, rfl, rfl⟩
    · rintro ⟨y, z, k, m, rfl, rfl, h, rfl, rfl⟩; simpa using h
  | cons s rs => rfl

theorem match_catL_append (rs qs : List Re) (g : Nat) (pre x post : List Char) (l : List Cap) :
    (catL (rs ++ qs)).Match U g pre x post l ↔ ∃ y z k m, x = y ++ z ∧ l = k ++ m ∧
      (catL rs).Match U g pre y (z ++ post) k ∧
        (catL qs).Match U (g + (catL rs).groups.length) (pre ++ y) z post m := by
  induction rs generalizing g pre x l with
  | nil =>
    simp only [List.nil_append, catL, Re.Match, Re.groups]
    constructor
    · intro h; exact ⟨[], x, [], l, by simp, by simp, ⟨rfl, rfl⟩, by simpa using h⟩
    · rintro ⟨y, z, k, m, rfl, rfl, ⟨rfl, rfl⟩, h⟩; simpa using h
  | cons r rs ih =>
    rw [List.cons_append, match_catL_cons]
    have hg : (catL (r :: rs)).groups.length = r.groups.length + (catL rs).groups.length := by
      simp [groups_catL]
    rw [hg]
    constructor
    · rintro ⟨y, z, k, m, rfl, rfl, h1, h2⟩
      obtain ⟨y', z', k', m', rfl, rfl, h3, h4⟩ := (ih _ _ _ _).1 h2
      refine ⟨y ++ y', z', k ++ k', m', by simp, by simp, ?_, by simpa [Nat.add_assoc] using h4⟩
      exact (match_catL_cons ..).2 ⟨y, y', k, k', rfl, rfl, by simpa using h1, h3⟩
    · rintro ⟨y, z, k, m, rfl, rfl, h1, h2⟩
      obtain ⟨y', z', k', m', rfl, rfl, h3, h4⟩ := (match_catL_cons ..).1 h1
      refine ⟨y', z' ++ z, k', m' ++ m, by simp, by simp, by simpa using h3, ?_⟩
      exact (ih _ _ _ _).2 ⟨z', z, m', m, rfl, rfl, h4, by simpa [Nat.add_assoc] using h2⟩

theorem match_lits (u : List Char) (g : Nat) (pre x post : List Char) (l : List Cap) :
    (catL (u.map .lit)).Match U g pre x post l ↔ x = u ∧ l = [] := by
  induction u generalizing g pre x l with
  | nil => rfl
  | cons c u ih =>
    rw [List.map_cons, match_catL_cons]
    constructor
    · rintro ⟨y, z, k, m, rfl, rfl, ⟨rfl, rfl⟩, h⟩
      obtain ⟨rfl, rfl⟩ := (ih _ _ _ _).1 h
      exact ⟨rfl, rfl⟩
    · rintro ⟨rfl, rfl⟩
      exact ⟨[c], u, [], [], rfl, rfl, ⟨rfl, rfl⟩, (ih _ _ _ _).2 ⟨rfl, rfl⟩⟩

/-- An alternation without groups. -/
theorem match_altL (rs : List Re) (hne : rs ≠ []) (hg : ∀ r ∈ rs, r.groups = []) (g : Nat) (pre x post : List Char)
    (l : List Cap) : (altL rs).Match U g pre x post l ↔ ∃ r ∈ rs, r.Match U g pre x post l := by
  induction rs with
  | nil => exact absurd rfl hne
  | cons r rs ih =>
    cases rs with
    | nil => simp [altL]
    | cons s rs =>
      rw [altL, Re.Match, hg r (by simp), List.length_nil, Nat.add_zero,
        ih (by simp) (fun q hq => hg q (by simp [hq]))]
      · simp
      · simp

theorem repeats_quest (P : Matches) (pre x post : List Char) (l : List Cap) :
    Repeats P 0 (some 1) pre x post l ↔ (x = [] ∧ l = []) ∨ P pre x post l := by
  constructor
  · generalize hn : some 1 = n
    intro h
    cases h with
    | done => exact .inl ⟨rfl, rfl⟩
    | more m n pre x y post l k hne h1 h2 =>
      subst hn
      generalize hm : Option.map (fun x => x - 1) (some 1) = n' at h2
      generalize hz : 0 - 1 = m' at h2
      cases h2 with
      | done => exact .inr (by simpa using h1)
      | more _ _ _ _ _ _ _ _ hne' => subst hm; simp at hne'
  · rintro (⟨rfl, rfl⟩ | h)
    · exact .done _ _ _
    · have := Repeats.more (P := P) 0 (some 1) pre x [] post l [] (by simp) (by simpa using h) (.done _ _ _)
      simpa using this

theorem repeats_single {Q : Char → Prop} {P : Matches} (hP : ∀ pre x post l, P pre x post l ↔ (∃ c, Q c ∧ x = [c]) ∧ l = [])
    (m : Nat) (pre x post : List Char) (l : List Cap) :
    Repeats P m none pre x post l ↔ m ≤ x.length ∧ (∀ c ∈ x, Q c) ∧ l = [] := by
  constructor
  · generalize hn : none = n
    intro h
    induction h with
    | done => simp
    | more m n pre x y post l k hne h1 h2 ih =>
      subst hn
      obtain ⟨⟨c, hc, rfl⟩, rfl⟩ := (hP _ _ _ _).1 h1
      obtain ⟨i1, i2, rfl⟩ := ih rfl
      refine ⟨by simp; omega, ?_, rfl⟩
      intro d hd
      rcases List.mem_cons.1 hd with rfl | hd
      · exact hc
      · exact i2 d hd
  · rintro ⟨h1, h2, rfl⟩
    induction x generalizing m pre with
    | nil =>
      have : m = 0 := by simpa using h1
      subst this
      exact .done _ _ _
    | cons c x ih =>
      have := Repeats.more (P := P) m none pre [c] x post [] [] (by simp) ((hP _ _ _ _).2 ⟨⟨c, h2 c (by simp), rfl⟩, rfl⟩)
        (ih (m - 1) _ (by simp at h1; omega) (fun d hd => h2 d (by simp [hd])))
      simpa using this

theorem match_cls (k : Cls) (g : Nat) : ∀ pre x post l, (Re.cls k).Match U g pre x post l ↔ (∃ c, k.mem U c ∧ x = [c]) ∧ l = [] :=
  fun _ _ _ _ => Iff.rfl

end CE.Regex
