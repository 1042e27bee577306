import Verif.Proof.CustomExpr
import Verif.Spec.Reported

/-! # The search finds a match exactly if there is one -/

namespace CE
open Spec Regex Hir

/-! ## The matched texts of a HIR -/

namespace Hir

/-- The HIR takes `x` between `pre` and `post`. -/
def Takes (h : Hir) (pre x post : List Char) : Prop := ∃ l, (x, l) ∈ h.tries pre (x ++ post)

def TakesAll (hs : List Hir) (pre x post : List Char) : Prop := ∃ l, (x, l) ∈ catTries hs pre (x ++ post)

theorem takes_iff (h : Hir) (pre rest x : List Char) : (∃ l, (x, l) ∈ h.tries pre rest) ↔ ∃ post, rest = x ++ post ∧ h.Takes pre x post := by
  constructor
  · rintro ⟨l, hl⟩
    obtain ⟨post, rfl⟩ := tries_prefix h pre rest _ hl
    exact ⟨post, rfl, l, hl⟩
  · rintro ⟨post, rfl, hl⟩; exact hl

theorem takesAll_nil (pre x post : List Char) : TakesAll [] pre x post ↔ x = [] := by
  simp [TakesAll, catTries]

theorem takesAll_cons (h : Hir) (hs : List Hir) (pre x post : List Char) :
    TakesAll (h :: hs) pre x post ↔ ∃ y z, x = y ++ z ∧ h.Takes pre y (z ++ post) ∧ TakesAll hs (pre ++ y) z post := by
  simp only [TakesAll, catTries, andThen, List.mem_flatMap, List.mem_map]
  constructor
  · rintro ⟨l, a, ha, b, hb, he⟩
    obtain ⟨post', hp⟩ := tries_prefix h _ _ a ha
    rw [hp, List.drop_left] at hb
    cases he
    obtain ⟨post'', hp'⟩ := catTries_begins hs _ _ b hb
    have hp' : b.1 ++ post'' = post' := hp'
    rw [← hp', ← List.append_assoc] at hp
    obtain rfl := List.append_cancel_left hp
    refine ⟨a.1, b.1, rfl, ⟨a.2, ?_⟩, b.2, ?_⟩
    · rw [← List.append_assoc]; exact ha
    · rw [hp']; exact hb
  · rintro ⟨y, z, rfl, ⟨k, hk⟩, m, hm⟩
    refine ⟨k ++ m, (y, k), ?_, (z, m), ?_, rfl⟩
    · rw [List.append_assoc]; exact hk
    · rw [List.append_assoc, List.drop_left]; exact hm

theorem takesAll_append (hs ks : List Hir) (pre x post : List Char) :
    TakesAll (hs ++ ks) pre x post ↔ ∃ y z, x = y ++ z ∧ TakesAll hs pre y (z ++ post) ∧ TakesAll ks (pre ++ y) z post := by
  induction hs generalizing pre x with
  | nil =>
    simp only [List.nil_append, takesAll_nil]
    constructor
    · intro h; exact ⟨[], x, rfl, rfl, by simpa using h⟩
    · rintro ⟨_, z, rfl, rfl, h⟩; simpa using h
  | cons h hs ih =>
    simp only [List.cons_append, takesAll_cons, ih]
    constructor
    · rintro ⟨y, z, rfl, h1, u, v, rfl, h2, h3⟩
      exact ⟨y ++ u, v, by simp, ⟨y, u, rfl, by simpa using h1, h2⟩, by simpa using h3⟩
    · rintro ⟨y, z, rfl, ⟨u, v, rfl, h1, h2⟩, h3⟩
      exact ⟨u, v ++ z, by simp, by simpa using h1, v, z, rfl, h2, by simpa using h3⟩

theorem takesAll_single (h : Hir) (pre x post : List Char) : TakesAll [h] pre x post ↔ h.Takes pre x post := by
  simp only [TakesAll, catTries_single, Takes]

theorem takes_mkConcat (hs : List Hir) (pre x post : List Char) : (mkConcat hs).Takes pre x post ↔ TakesAll hs pre x post := by
  simp only [Takes, TakesAll, tries_mkConcat]

theorem mem_altTries (hs : List Hir) (pre rest : List Char) (a : Try) :
    a ∈ altTries hs pre rest ↔ ∃ h ∈ hs, a ∈ h.tries pre rest := by
  induction hs with
  | nil => simp [altTries]
  | cons h hs ih => simp [altTries, ih]

theorem mem_alternation (hs : List Hir) (pre rest : List Char) (a : Try) :
    a ∈ (Hir.alternation hs).tries pre rest ↔ ∃ h ∈ hs, a ∈ h.tries pre rest := mem_altTries hs pre rest a

theorem takes_oneChar (p : Char → Bool) (x post : List Char) :
    (∃ l, (x, l) ∈ oneChar p (x ++ post)) ↔ ∃ c, p c = true ∧ x = [c] := by
  constructor
  · rintro ⟨l, hl⟩
    generalize hr : x ++ post = rest at hl
    cases rest with
    | nil => cases hl
    | cons c rest =>
      simp only [oneChar] at hl
      split at hl
      · rename_i hp
        rw [List.mem_singleton, Prod.mk.injEq] at hl
        exact ⟨c, hp, hl.1⟩
      · cases hl
  · rintro ⟨c, hp, rfl⟩
    exact ⟨[], by simp [oneChar, hp]⟩

theorem oneChar_nil {p : Char → Bool} {rest x : List Char} {l : List Cap} (h : (x, l) ∈ oneChar p rest) : l = [] := by
  cases rest with
  | nil => cases h
  | cons c rest =>
    simp only [oneChar] at h
    split at h
    · rw [List.mem_singleton, Prod.mk.injEq] at h; exact h.2
    · cases h

theorem _root_.CE.Same.mem {α : Type} [DecidableEq α] {l m : List α} (h : Same l m) (a : α) : a ∈ l ↔ a ∈ m := by
  have := h (fun b => b == a)
  have key : ∀ l : List α, a ∈ l ↔ (l.find? fun b => b == a).isSome = true := fun l => by
    rw [List.find?_isSome]; simp
  rw [key, key, this]

/-! ### Repetitions -/

/-- Between `m` and `n` consecutive texts. -/
inductive RepT (P : List Char → List Char → List Char → Prop) : Nat → Option Nat → List Char → List Char → List Char → Prop
  | done (n pre post) : RepT P 0 n pre [] post
  | more (m n pre x y post) : n ≠ some 0 → P pre x (y ++ post) → RepT P (m - 1) (n.map (· - 1)) (pre ++ x) y post →
      RepT P m n pre (x ++ y) post

/-- The same where no text beyond the required ones is empty. -/
inductive RepN (P : List Char → List Char → List Char → Prop) : Nat → Option Nat → List Char → List Char → List Char → Prop
  | done (n pre post) : RepN P 0 n pre [] post
  | more (m n pre x y post) : n ≠ some 0 → (m ≠ 0 ∨ x ≠ []) → P pre x (y ++ post) →
      RepN P (m - 1) (n.map (· - 1)) (pre ++ x) y post → RepN P m n pre (x ++ y) post

variable {P : List Char → List Char → List Char → Prop}

theorem RepN.grow {m : Nat} {n : Option Nat} {pre x post : List Char} (h : RepN P m n pre x post) :
    ∀ n' : Option Nat, (∀ k, n' = some k → ∃ j, n = some j ∧ j ≤ k) → RepN P m n' pre x post := by
  induction h with
  | done => intros; exact .done _ _ _
  | more m n pre x y post h0 h1 h2 _ ih =>
    intro n' hn
    refine .more _ _ _ _ _ _ ?_ h1 h2 (ih _ ?_)
    · intro e
      obtain ⟨j, rfl, hj⟩ := hn 0 e
      exact h0 (by rw [Nat.le_zero.1 hj])
    · intro k hk
      obtain ⟨k', rfl, rfl⟩ := Option.map_eq_some_iff.1 hk
      obtain ⟨j, rfl, hj⟩ := hn k' rfl
      exact ⟨j - 1, rfl, by omega⟩

theorem RepT.norm {m : Nat} {n : Option Nat} {pre x post : List Char} (h : RepT P m n pre x post) : RepN P m n pre x post := by
  induction h with
  | done => exact .done _ _ _
  | more m n pre x y post h0 h1 _ ih =>
    by_cases hc : m ≠ 0 ∨ x ≠ []
    · exact .more _ _ _ _ _ _ h0 hc h1 ih
    · rw [not_or, Classical.not_not, Classical.not_not] at hc
      obtain ⟨rfl, rfl⟩ := hc
      rw [List.append_nil] at ih
      refine ih.grow n fun k hk => ?_
      subst hk
      exact ⟨k - 1, rfl, by omega⟩

theorem repTries_repeats {body : List Char → List Char → List Try} (hb : ∀ pre rest, Begins rest (body pre rest)) (g : Bool) :
    ∀ (fuel m : Nat) (n : Option Nat) (pre x post : List Char) (l : List Cap), (x, l) ∈ repTries body g fuel m n pre (x ++ post) →
      Repeats (fun pre x post l => (x, l) ∈ body pre (x ++ post)) m n pre x post l
  | 0, m, n, pre, x, post, l, h => by
    rw [repTries] at h
    split at h
    · rename_i hm
      subst hm
      rw [List.mem_singleton, Prod.mk.injEq] at h
      rw [h.1, h.2]
      exact .done _ _ _
    · cases h
  | fuel + 1, m, n, pre, x, post, l, h => by
    replace h : (x, l) ∈ (if n = some 0 then [] else Regex.andThen ((body pre (x ++ post)).filter fun a => m != 0 || !a.1.isEmpty) fun y =>
        repTries body g fuel (m - 1) (n.map (· - 1)) (pre ++ y) ((x ++ post).drop y.length)) ∨
        (x, l) ∈ (if m = 0 then [(([], []) : Try)] else []) := by
      unfold repTries at h
      simp only [] at h
      split at h
      · exact List.mem_append.1 h
      · exact (List.mem_append.1 h).symm
    rcases h with h | h
    · split at h
      · cases h
      · rename_i hn
        simp only [andThen, List.mem_flatMap, List.mem_map, List.mem_filter] at h
        obtain ⟨a, ⟨ha, -⟩, b, hb1, he⟩ := h
        obtain ⟨post', hp⟩ := hb _ _ a ha
        have hp : a.1 ++ post' = x ++ post := hp
        rw [← hp, List.drop_left] at hb1
        cases he
        obtain ⟨post'', hp'⟩ := Begins.repTries hb g _ _ _ _ _ b hb1
        have hp' : b.1 ++ post'' = post' := hp'
        rw [← hp', ← List.append_assoc] at hp
        obtain rfl := List.append_cancel_left hp
        refine .more _ _ _ _ _ _ _ _ hn ?_ (repTries_repeats hb g fuel _ _ _ _ _ b.2 ?_)
        · show (a.1, a.2) ∈ _
          rw [← List.append_assoc]; exact ha
        · rw [hp']; exact hb1
    · split at h
      · rename_i hm
        subst hm
        rw [List.mem_singleton, Prod.mk.injEq] at h
        rw [h.1, h.2]
        exact .done _ _ _
      · cases h

theorem repT_iff {Q : Matches} (h : ∀ pre x post, P pre x post ↔ ∃ l, Q pre x post l)
    (m : Nat) (n : Option Nat) (pre x post : List Char) : RepT P m n pre x post ↔ ∃ l, Repeats Q m n pre x post l := by
  constructor
  · intro hr
    induction hr with
    | done n pre post => exact ⟨[], .done _ _ _⟩
    | more m n pre x y post h0 h1 _ ih =>
      obtain ⟨l, hl⟩ := (h _ _ _).1 h1
      obtain ⟨k, hk⟩ := ih
      exact ⟨l ++ k, .more _ _ _ _ _ _ _ _ h0 hl hk⟩
  · rintro ⟨l, hr⟩
    induction hr with
    | done n pre post => exact .done _ _ _
    | more m n pre x y post l k h0 h1 _ ih => exact .more _ _ _ _ _ _ h0 ((h _ _ _).2 ⟨l, h1⟩) ih

theorem repTries_takes {body : List Char → List Char → List Try} (g : Bool) {m : Nat} {n : Option Nat} {pre x post : List Char}
    (h : RepN (fun pre x post => ∃ l, (x, l) ∈ body pre (x ++ post)) m n pre x post) :
    ∀ fuel, m + x.length ≤ fuel → ∃ l, (x, l) ∈ repTries body g fuel m n pre (x ++ post) := by
  induction h with
  | done n pre post =>
    intro fuel _
    refine ⟨[], ?_⟩
    cases fuel with
    | zero => simp [repTries]
    | succ fuel =>
      unfold repTries
      simp only []
      split <;> simp
  | more m n pre x y post h0 h1 h2 _ ih =>
    intro fuel hf
    obtain ⟨k, hk⟩ := h2
    have hpos : 1 ≤ m + x.length := by
      rcases h1 with h1 | h1
      · omega
      · have := List.length_pos_iff.2 h1; omega
    rw [List.length_append] at hf
    cases fuel with
    | zero => omega
    | succ fuel =>
      obtain ⟨l, hl⟩ := ih fuel (by omega)
      refine ⟨k ++ l, ?_⟩
      have : (x ++ y, k ++ l) ∈ Regex.andThen ((body pre (x ++ y ++ post)).filter fun a => m != 0 || !a.1.isEmpty) fun z =>
          repTries body g fuel (m - 1) (n.map (· - 1)) (pre ++ z) ((x ++ y ++ post).drop z.length) := by
        simp only [andThen, List.mem_flatMap, List.mem_map, List.mem_filter]
        refine ⟨(x, k), ⟨by rw [List.append_assoc]; exact hk, ?_⟩, (y, l), ?_, rfl⟩
        · rcases h1 with h1 | h1 <;> simp [h1]
        · rw [List.append_assoc, List.drop_left]; exact hl
      unfold repTries
      simp only [if_neg h0]
      split
      · exact List.mem_append_left _ this
      · exact List.mem_append_right _ this

theorem takes_rep (h : Hir) (g : Bool) (m : Nat) (n : Option Nat) (pre x post : List Char) :
    (∃ l, (x, l) ∈ repTries (fun p q => h.tries p q) g (m + (x ++ post).length) m n pre (x ++ post)) ↔ RepT h.Takes m n pre x post := by
  constructor
  · rintro ⟨l, hl⟩
    exact (repT_iff (fun _ _ _ => Iff.rfl) _ _ _ _ _).2 ⟨l, repTries_repeats (fun p q => tries_begins h p q) g _ _ _ _ _ _ l hl⟩
  · intro hr
    exact repTries_takes g hr.norm _ (by simp)

/-! ### What matches only the empty text -/

mutual
theorem light_takes : ∀ (h : Hir), h.Light → ∀ pre rest, ∀ a ∈ h.tries pre rest, a.1 = []
  | .empty, _, _, _, a, ha => by rw [List.mem_singleton.1 ha]
  | .literal cs, hl, pre, rest, a, ha => by
    obtain rfl := (light_literal cs).1 hl
    simp [tries] at ha
    rw [ha]
  | .cls rs, hl, _, _, _, _ => absurd hl light_cls
  | .look .start, _, pre, rest, a, ha => by
    rw [tries] at ha
    split at ha
    · rw [List.mem_singleton.1 ha]
    · cases ha
  | .look .finish, _, pre, rest, a, ha => by
    rw [tries] at ha
    split at ha
    · rw [List.mem_singleton.1 ha]
    · cases ha
  | .look (.mark _ _), _, pre, rest, a, ha => by
    rw [tries] at ha
    split at ha
    · rw [List.mem_singleton.1 ha]
    · cases ha
  | .repetition m n g sub, hl, pre, rest, a, ha => by
    have key : RepT sub.Takes m n pre a.1 (rest.drop a.1.length) := by
      obtain ⟨post, hp⟩ := tries_prefix _ _ _ a ha
      rw [hp, List.drop_left]
      rw [← takes_rep sub g]
      exact ⟨a.2, by rw [← hp]; exact ha⟩
    replace hl : (match n, sub.maxLen with | some n, some k => some (k * n) | _, _ => none) = some 0 := hl
    cases n with
    | none => simp at hl
    | some k =>
      cases hm : sub.maxLen with
      | none => rw [hm] at hl; simp at hl
      | some j =>
        rw [hm] at hl
        simp only [Option.some.injEq, Nat.mul_eq_zero] at hl
        rcases hl with rfl | rfl
        · have hs := light_takes sub hm
          clear ha
          generalize a.1 = x at key
          generalize rest.drop x.length = post at key
          clear hm
          generalize some k = n at key
          induction key with
          | done => rfl
          | more m n pre x y post _ h2 _ ih =>
            obtain ⟨l, hl⟩ := h2
            have := hs _ _ _ hl
            simp only at this
            rw [this, ih]; rfl
        · generalize hn : some 0 = n at key
          generalize a.1 = x at key
          cases key with
          | done => rfl
          | more _ _ _ _ _ _ h0 => exact absurd hn.symm h0
  | .capture i name sub, hl, pre, rest, a, ha => by
    simp only [tries, List.mem_map] at ha
    obtain ⟨b, hb, rfl⟩ := ha
    exact light_takes sub hl pre rest b hb
  | .concat subs, hl, pre, rest, a, ha => light_cat subs ((light_concat subs).1 hl) pre rest a ha
  | .alternation subs, hl, pre, rest, a, ha => light_alt subs ((light_alternation subs).1 hl) pre rest a ha
theorem light_cat : ∀ (hs : List Hir), (∀ h ∈ hs, h.Light) → ∀ pre rest, ∀ a ∈ catTries hs pre rest, a.1 = []
  | [], _, _, _, a, ha => by rw [List.mem_singleton.1 ha]
  | h :: hs, hl, pre, rest, a, ha => by
    simp only [catTries, andThen, List.mem_flatMap, List.mem_map] at ha
    obtain ⟨b, hb, c, hc, rfl⟩ := ha
    have h1 := light_takes h (hl h (by simp)) _ _ b hb
    have h2 := light_cat hs (fun k hk => hl k (by simp [hk])) _ _ c hc
    simp [h1, h2]
theorem light_alt : ∀ (hs : List Hir), (∀ h ∈ hs, h.Light) → ∀ pre rest, ∀ a ∈ altTries hs pre rest, a.1 = []
  | [], _, _, _, a, ha => by cases ha
  | h :: hs, hl, pre, rest, a, ha => by
    rw [altTries, List.mem_append] at ha
    rcases ha with ha | ha
    · exact light_takes h (hl h (by simp)) _ _ a ha
    · exact light_alt hs (fun k hk => hl k (by simp [hk])) _ _ a ha
end

theorem RepT.empties (hP : ∀ pre x post, P pre x post → x = []) {m : Nat} {n : Option Nat} {pre x post : List Char}
    (h : RepT P m n pre x post) : x = [] ∧ (m ≠ 0 → P pre [] post) := by
  induction h with
  | done => exact ⟨rfl, fun h => absurd rfl h⟩
  | more m n pre x y post _ h2 _ ih =>
    obtain rfl := hP _ _ _ h2
    obtain ⟨rfl, -⟩ := ih
    exact ⟨rfl, fun _ => h2⟩

theorem RepT.of_empty {pre post : List Char} (hP : P pre [] post) : ∀ (m : Nat) (n : Option Nat), (∀ k, n = some k → m ≤ k) → RepT P m n pre [] post
  | 0, n, _ => .done _ _ _
  | m + 1, n, h => .more (m + 1) n pre [] [] post (fun e => by have := h 0 e; omega) hP (by
      rw [List.append_nil]
      exact RepT.of_empty hP m _ fun k hk => by
        obtain ⟨k', rfl, rfl⟩ := Option.map_eq_some_iff.1 hk
        have := h k' rfl
        omega)

theorem takes_mkRepetition (h : Hir) (g : Bool) (m : Nat) (n : Option Nat) (hmn : ∀ k, n = some k → m ≤ k) (pre x post : List Char) :
    (mkRepetition m n g h).Takes pre x post ↔ RepT h.Takes m n pre x post := by
  by_cases hl : h.Light
  · have hP : ∀ pre x post, h.Takes pre x post → x = [] := by
      rintro pre x post ⟨l, hl'⟩; exact light_takes h hl _ _ _ hl'
    have e : RepT h.Takes m n pre x post ↔ x = [] ∧ (m ≠ 0 → h.Takes pre [] post) := by
      refine ⟨RepT.empties hP, ?_⟩
      rintro ⟨rfl, h2⟩
      by_cases hm : m = 0
      · subst hm; exact .done _ _ _
      · exact .of_empty (h2 hm) m n hmn
    rw [e]
    have hn1 : ∃ b, (b = 0 → m = 0) ∧ b ≤ 1 ∧ mkRepetition m n g h =
        if m.min 1 = 0 ∧ b = 0 then .empty else if m.min 1 = 1 ∧ b = 1 then h else .repetition (m.min 1) (some b) g h := by
      cases n with
      | none => exact ⟨1, by simp, by simp, by unfold mkRepetition; rw [if_pos hl]; simp⟩
      | some k =>
        refine ⟨k.min 1, fun hk => ?_, Nat.min_le_right _ _, by unfold mkRepetition; rw [if_pos hl]; simp⟩
        have := hmn k rfl
        have hk : min k 1 = 0 := hk
        omega
    obtain ⟨b, hb0, hb1, hmk⟩ := hn1
    rw [hmk]
    by_cases hm : m = 0
    · subst hm
      have h01 : Nat.min 0 1 = 0 := rfl
      rw [h01]
      split
      · simp [Takes, tries]
      · rw [if_neg (by simp), Takes]
        simp only [tries]
        rw [takes_rep]
        constructor
        · intro hr; exact ⟨(hr.empties hP).1, fun h => absurd rfl h⟩
        · rintro ⟨rfl, -⟩; exact .done _ _ _
    · have hm1 : m.min 1 = 1 := Nat.min_eq_right (by omega)
      rw [hm1, if_neg (by simp), if_pos ⟨rfl, by omega⟩]
      constructor
      · intro ht
        obtain rfl := hP _ _ _ ht
        exact ⟨rfl, fun _ => ht⟩
      · rintro ⟨rfl, h2⟩; exact h2 hm
  · rw [Takes, tries_mkRepetition hl, takes_rep]

/-! ### Alternations -/

mutual
/-- No literal is empty, ranges and counts are in order, group names are valid. -/
def Tidy : Hir → Prop
  | .literal cs => cs ≠ []
  | .cls rs => ∀ r ∈ rs, r.1 ≤ r.2
  | .repetition m n _ sub => sub.Tidy ∧ ∀ k, n = some k → m ≤ k
  | .capture _ name sub => sub.Tidy ∧ ∀ x, name = some x → ValidName x
  | .concat subs => TidyAll subs
  | .alternation subs => TidyAll subs
  | _ => True
def TidyAll : List Hir → Prop
  | [] => True
  | h :: hs => h.Tidy ∧ TidyAll hs
end

theorem tidyAll_iff (hs : List Hir) : TidyAll hs ↔ ∀ h ∈ hs, h.Tidy := by
  induction hs with
  | nil => simp [TidyAll]
  | cons h hs ih => simp [TidyAll, ih]

theorem tidy_mkClass {rs : List (Char × Char)} (h : ∀ r ∈ rs, r.1 ≤ r.2) : (mkClass rs).Tidy := by
  unfold mkClass
  split
  · split
    · simp [Tidy]
    · exact h
  · exact h

theorem tidy_mkRepetition {m : Nat} {n : Option Nat} {g : Bool} {h : Hir} (ht : h.Tidy) (hmn : ∀ k, n = some k → m ≤ k) :
    (mkRepetition m n g h).Tidy := by
  unfold mkRepetition
  generalize hq : (if h.maxLen = some 0 then _ else (m, n)) = q
  have hab : ∀ k, q.2 = some k → q.1 ≤ k := by
    subst hq
    split
    · rintro k hk
      cases n with
      | none => cases hk; exact Nat.min_le_right _ _
      | some j =>
        cases hk
        have := hmn j rfl
        show min m 1 ≤ min j 1
        omega
    · exact hmn
  obtain ⟨a, b⟩ := q
  show Tidy (if a = 0 ∧ b = some 0 then .empty else if a = 1 ∧ b = some 1 then h else .repetition a b g h)
  split
  · trivial
  · split
    · exact ht
    · exact ⟨ht, hab⟩

theorem tidy_flatConcat : ∀ {hs : List Hir}, TidyAll hs → TidyAll (flatConcat hs)
  | [], _ => trivial
  | h :: hs, ht => by
    have ih := tidy_flatConcat ht.2
    cases h with
    | concat subs =>
      rw [flatConcat, tidyAll_iff]
      intro k hk
      rcases List.mem_append.1 hk with hk | hk
      · exact (tidyAll_iff _).1 ht.1 k hk
      · exact (tidyAll_iff _).1 ih k hk
    | empty => exact ih
    | _ => exact ⟨ht.1, ih⟩

theorem tidy_joinLits : ∀ {hs : List Hir}, TidyAll hs → TidyAll (joinLits hs)
  | [], _ => trivial
  | h :: hs, ht => by
    have ih := tidy_joinLits ht.2
    rw [joinLits.eq_def]
    simp only []
    split
    · rename_i hj; rw [hj] at ih; exact ⟨by have := ih.1; simp [Tidy] at this ⊢; simp [this], ih.2⟩
    · exact ⟨ht.1, ih⟩

theorem tidy_mkConcat {hs : List Hir} (ht : TidyAll hs) : (mkConcat hs).Tidy := by
  have := tidy_joinLits (tidy_flatConcat ht)
  unfold mkConcat
  split
  · trivial
  · rename_i he; rw [he] at this; exact this.1
  · exact this

theorem tidy_flatAlternation : ∀ {hs : List Hir}, TidyAll hs → TidyAll (flatAlternation hs)
  | [], _ => trivial
  | h :: hs, ht => by
    have ih := tidy_flatAlternation ht.2
    cases h with
    | alternation subs =>
      rw [flatAlternation, tidyAll_iff]
      intro k hk
      rcases List.mem_append.1 hk with hk | hk
      · exact (tidyAll_iff _).1 ht.1 k hk
      · exact (tidyAll_iff _).1 ih k hk
    | _ => exact ⟨ht.1, ih⟩

theorem tidy_mixedRanges : ∀ (hs : List Hir) (rs : List (Char × Char)), TidyAll hs → mixedRanges hs = some rs → ∀ r ∈ rs, r.1 ≤ r.2
  | [], rs, _, h => by cases h; simp
  | h :: hs, rs, ht, hm => by
    unfold mixedRanges at hm
    split at hm
    · rename_i he; cases he
    · rename_i c hs' he
      cases he
      obtain ⟨rs', hr, rfl⟩ := Option.map_eq_some_iff.1 hm
      intro r hr'
      rcases List.mem_cons.1 hr' with rfl | hr'
      · exact Char.le_refl _
      · exact tidy_mixedRanges _ _ ht.2 hr r hr'
    · rename_i k hs' he
      cases he
      obtain ⟨rs', hr, rfl⟩ := Option.map_eq_some_iff.1 hm
      intro r hr'
      rcases List.mem_append.1 hr' with hr' | hr'
      · exact ht.1 r hr'
      · exact tidy_mixedRanges _ _ ht.2 hr r hr'
    · cases hm

theorem mem_mkAlternationF : ∀ (n : Nat) (hs : List Hir), TidyAll hs → (mkAlternationF n hs).Tidy ∧
    ∀ pre rest a, a ∈ (mkAlternationF n hs).tries pre rest ↔ ∃ h ∈ hs, a ∈ h.tries pre rest
  | 0, hs, ht => ⟨ht, fun pre rest a => mem_alternation hs pre rest a⟩
  | n + 1, hs, ht => by
    have flat : ∀ pre rest a, (∃ h ∈ flatAlternation hs, a ∈ h.tries pre rest) ↔ ∃ h ∈ hs, a ∈ h.tries pre rest := by
      intro pre rest a
      rw [← mem_altTries, altTries_flat, mem_altTries]
    have htf := tidy_flatAlternation ht
    simp only [← flat]
    rw [mkAlternationF]
    generalize flatAlternation hs = ks at *
    split
    · refine ⟨by simp [Tidy], fun pre rest a => ?_⟩
      cases rest <;> simp [tries, oneChar, Ranges.mem]
    · exact ⟨htf.1, fun pre rest a => by simp⟩
    · split
      · rename_i rs hr
        have hv := tidy_mixedRanges _ _ htf (charRanges_mixed hr)
        refine ⟨tidy_mkClass (Ranges.canon_canonical rs hv).valid, fun pre rest a => ?_⟩
        rw [tries_mkClass, oneChar_congr (q := Ranges.mem rs) fun c => by
          rw [Bool.eq_iff_iff, Ranges.mem_canon rs c hv]]
        rw [(same_mixedRanges ks rs (charRanges_mixed hr) pre rest).mem, mem_altTries]
      · split
        · exact ⟨htf, fun pre rest a => mem_alternation _ pre rest a⟩
        · exact ⟨htf, fun pre rest a => mem_alternation _ pre rest a⟩
        · rename_i c cs hc
          have hcc := concats_eq _ _ hc
          split
          · exact ⟨htf, fun pre rest a => mem_alternation _ pre rest a⟩
          · have hpre : ∀ d ∈ c :: cs, cs.foldl commonPrefix c <+: d := by
              intro d hd
              rcases List.mem_cons.1 hd with rfl | hd
              · exact (foldl_prefix cs d).1
              · exact (foldl_prefix cs c).2 d hd
            generalize hpe : cs.foldl commonPrefix c = p at *
            have htd : ∀ d ∈ c :: cs, TidyAll d := by
              intro d hd
              rw [hcc, tidyAll_iff] at htf
              exact htf (.concat d) (List.mem_map.2 ⟨d, hd, rfl⟩)
            have htr : TidyAll ((c :: cs).map fun xs => mkConcat (xs.drop p.length)) := by
              rw [tidyAll_iff]
              intro k hk
              obtain ⟨d, hd, rfl⟩ := List.mem_map.1 hk
              refine tidy_mkConcat ((tidyAll_iff _).2 fun k hk => ?_)
              exact (tidyAll_iff _).1 (htd d hd) k (List.mem_of_mem_drop hk)
            obtain ⟨i1, i2⟩ := mem_mkAlternationF n _ htr
            constructor
            · refine tidy_mkConcat ((tidyAll_iff _).2 fun k hk => ?_)
              rcases List.mem_append.1 hk with hk | hk
              · have := (hpre c (by simp)).subset hk
                exact (tidyAll_iff _).1 (htd c (by simp)) k this
              · rw [List.mem_singleton.1 hk]; exact i1
            · intro pre rest a
              rw [tries_mkConcat, catTries_append, hcc]
              simp only [catTries_single, andThen, List.mem_flatMap, List.mem_map, i2]
              constructor
              · rintro ⟨b, h1, d, ⟨k, ⟨e, he, rfl⟩, h2⟩, rfl⟩
                refine ⟨.concat e, ⟨e, he, rfl⟩, ?_⟩
                obtain ⟨r, rfl⟩ := hpre e he
                rw [tries_mkConcat, List.drop_left] at h2
                rw [tries, catTries_append]
                simp only [andThen, List.mem_flatMap, List.mem_map]
                exact ⟨b, h1, d, h2, rfl⟩
              · rintro ⟨k, ⟨e, he, rfl⟩, h2⟩
                obtain ⟨r, rfl⟩ := hpre e he
                rw [tries, catTries_append] at h2
                simp only [andThen, List.mem_flatMap, List.mem_map] at h2
                obtain ⟨b, h1, d, h2, rfl⟩ := h2
                refine ⟨b, h1, d, ⟨_, ⟨_, he, rfl⟩, ?_⟩, rfl⟩
                rw [tries_mkConcat, List.drop_left]
                exact h2

theorem takes_mkAlternation {hs : List Hir} (ht : TidyAll hs) (pre x post : List Char) :
    (mkAlternation hs).Takes pre x post ↔ ∃ h ∈ hs, h.Takes pre x post := by
  simp only [Takes, mkAlternation, (mem_mkAlternationF _ hs ht).2]
  constructor
  · rintro ⟨l, h, hh, hl⟩; exact ⟨h, hh, l, hl⟩
  · rintro ⟨h, hh, l, hl⟩; exact ⟨l, h, hh, hl⟩

theorem takes_mkClass (rs : List (Char × Char)) (pre x post : List Char) :
    (mkClass rs).Takes pre x post ↔ ∃ c, Ranges.mem rs c = true ∧ x = [c] := by
  rw [Takes, tries_mkClass, takes_oneChar]

end Hir

/-! ## Translated regexes -/

variable (T : Tables)

mutual
theorem translate_tidy : ∀ (a : Ast) (i : Nat), a.Valid → (translate T a i).1.Tidy
  | .empty, _, _ => trivial
  | .lit c, _, _ => by simp [translate, mkLiteral, Tidy]
  | .dot, _, _ => tidy_mkClass (rs := dotRanges) (by decide)
  | .cls k, _, hv => tidy_mkClass (T.cls_ok hv).1
  | .bol, _, _ => trivial
  | .eol, _, _ => trivial
  | .mark _, _, _ => trivial
  | .cap n a, i, hv => ⟨translate_tidy a (i + 1) hv.2, hv.1⟩
  | .group a, i, hv => translate_tidy a i hv
  | .concat as, i, hv => tidy_mkConcat (translateL_tidy as i hv)
  | .alt as, i, hv => (mem_mkAlternationF _ _ (translateL_tidy as i hv.2)).1
  | .rep a m n g, i, hv => tidy_mkRepetition (translate_tidy a i hv.1) hv.2
theorem translateL_tidy : ∀ (as : List Ast) (i : Nat), Ast.AllValid as → TidyAll (translateL T as i).1
  | [], _, _ => trivial
  | a :: as, i, hv => ⟨translate_tidy a i hv.1, translateL_tidy as _ hv.2⟩
end

mutual
theorem translate_takes : ∀ (a : Ast) (i g : Nat), a.Valid → ∀ pre x post,
    (translate T a i).1.Takes pre x post ↔ ∃ l, a.toRe.Match T.classes g pre x post l
  | .empty, i, g, _, pre, x, post => by simp [translate, Takes, tries, Ast.toRe, Re.Match]
  | .lit c, i, g, _, pre, x, post => by
    rw [translate, Takes, show (mkLiteral [c], i).1 = .literal [c] from rfl, tries_char, takes_oneChar]
    simp [Ast.toRe, Re.Match]
  | .dot, i, g, _, pre, x, post => by
    rw [translate, takes_mkClass]
    simp [Ast.toRe, Re.Match, mem_dotRanges]
  | .cls k, i, g, hv, pre, x, post => by
    rw [translate, takes_mkClass]
    simp [Ast.toRe, Re.Match, (T.cls_ok hv).2]
  | .bol, i, g, _, pre, x, post => by
    simp only [translate, Takes, tries, Ast.toRe, Re.Match]
    by_cases hp : pre = [] <;> simp [hp]
  | .eol, i, g, _, pre, x, post => by
    simp only [translate, Takes, tries, Ast.toRe, Re.Match]
    by_cases hp : post = [] <;> by_cases hx : x = [] <;> simp [hp, hx]
  | .mark n, i, g, _, pre, x, post => by
    simp only [translate, Takes, tries, Ast.toRe, Re.Match]
    have hb := mark_test (T := T.tests) n pre (x ++ post)
    change n.test (Ranges.mem T.word) pre (x ++ post) = true ↔ n.Holds T.classes _ _ at hb
    rw [← hb]
    constructor
    · rintro ⟨l, h⟩
      split at h
      · rename_i hp
        simp only [List.mem_singleton, Prod.mk.injEq] at h
        exact ⟨[], hp, h.1, rfl⟩
      · cases h
    · rintro ⟨l, h1, rfl, rfl⟩
      exact ⟨[], by rw [if_pos h1]; simp⟩
  | .cap n a, i, g, hv, pre, x, post => by
    have ih := translate_takes a (i + 1) (g + 1) hv.2 pre x post
    simp only [translate, Takes, tries, Ast.toRe, Re.Match, List.mem_map] at ih ⊢
    constructor
    · rintro ⟨l, b, hb, he⟩
      cases he
      obtain ⟨k, hk⟩ := ih.1 ⟨b.2, hb⟩
      exact ⟨_, k, hk, rfl⟩
    · rintro ⟨l, k, hk, -⟩
      obtain ⟨m, hm⟩ := ih.2 ⟨k, hk⟩
      exact ⟨_, (x, m), hm, rfl⟩
  | .group a, i, g, hv, pre, x, post => translate_takes a i g hv pre x post
  | .concat as, i, g, hv, pre, x, post => by
    rw [translate, takes_mkConcat, Ast.toRe]
    exact translateL_takesAll as i g hv pre x post
  | .alt as, i, g, hv, pre, x, post => by
    rw [translate, takes_mkAlternation (translateL_tidy T as i hv.2), Ast.toRe]
    exact translateL_takesOne as i g (by rintro rfl; simp [Ast.Valid] at hv) hv.2 pre x post
  | .rep a m n gr, i, g, hv, pre, x, post => by
    rw [translate, takes_mkRepetition _ _ _ _ hv.2, Ast.toRe]
    exact repT_iff (fun pre x post => translate_takes a i g hv.1 pre x post) m n pre x post
theorem translateL_takesAll : ∀ (as : List Ast) (i g : Nat), Ast.AllValid as → ∀ pre x post,
    TakesAll (translateL T as i).1 pre x post ↔ ∃ l, (catL (Ast.toRes as)).Match T.classes g pre x post l
  | [], i, g, _, pre, x, post => by simp [translateL, takesAll_nil, Ast.toRes, catL, Re.Match]
  | a :: as, i, g, hv, pre, x, post => by
    rw [translateL, takesAll_cons, Ast.toRes]
    simp only [match_catL_cons, translate_takes a i g hv.1,
      translateL_takesAll as (translate T a i).2 (g + a.toRe.groups.length) hv.2]
    constructor
    · rintro ⟨y, z, rfl, ⟨k, hk⟩, m, hm⟩; exact ⟨_, y, z, k, m, rfl, rfl, hk, hm⟩
    · rintro ⟨_, y, z, k, m, rfl, rfl, hk, hm⟩; exact ⟨y, z, rfl, ⟨k, hk⟩, m, hm⟩
theorem translateL_takesOne : ∀ (as : List Ast) (i g : Nat), as ≠ [] → Ast.AllValid as → ∀ pre x post,
    (∃ h ∈ (translateL T as i).1, h.Takes pre x post) ↔ ∃ l, (altL (Ast.toRes as)).Match T.classes g pre x post l
  | [], i, g, h, _, pre, x, post => absurd rfl h
  | [a], i, g, _, hv, pre, x, post => by
    simp only [translateL, Ast.toRes, altL, List.mem_singleton, exists_eq_left]
    exact translate_takes a i g hv.1 pre x post
  | a :: b :: as, i, g, _, hv, pre, x, post => by
    rw [translateL, Ast.toRes]
    simp only [match_altL_cons a.toRe (rs := Ast.toRes (b :: as)) (by simp [Ast.toRes]), List.mem_cons, exists_or]
    rw [← translate_takes a i g hv.1, ← translateL_takesOne (b :: as) (translate T a i).2 (g + a.toRe.groups.length) (by simp) hv.2]
    simp
end

/-! ## Captures -/

theorem lastOf_append (g : Nat) (l k : List Cap) : lastOf g (l ++ k) = (lastOf g k).or (lastOf g l) := by
  simp [lastOf, List.find?_append]

theorem _root_.CE.Spec.Agree.append {l k l' k' : List Cap} (h : Agree l k) (h' : Agree l' k') : Agree (l ++ l') (k ++ k') := fun g => by
  rw [lastOf_append, lastOf_append, h, h']

theorem _root_.CE.Spec.Agree.cons (c : Cap) {l k : List Cap} (h : Agree l k) : Agree (c :: l) (c :: k) :=
  Agree.append (l := [c]) (k := [c]) (fun _ => rfl) h

theorem _root_.CE.Spec.Agree.refl (l : List Cap) : Agree l l := fun _ => rfl

theorem _root_.CE.Spec.Agree.trans {l k m : List Cap} (h : Agree l k) (h' : Agree k m) : Agree l m := fun g => (h g).trans (h' g)

theorem _root_.CE.Spec.Agree.twice (l : List Cap) : Agree l (l ++ l) := fun g => by
  rw [lastOf_append]; cases lastOf g l <;> rfl

theorem Repeats.agree {P Q : Matches} (h : ∀ pre x post l, P pre x post l → ∃ k, Q pre x post k ∧ Agree l k) {m : Nat} {n : Option Nat}
    {pre x post : List Char} {l : List Cap} (hr : Repeats P m n pre x post l) : ∃ k, Repeats Q m n pre x post k ∧ Agree l k := by
  induction hr with
  | done n pre post => exact ⟨[], .done _ _ _, .refl _⟩
  | more m n pre x y post l l' h0 h1 _ ih =>
    obtain ⟨k, hk, ha⟩ := h _ _ _ _ h1
    obtain ⟨k', hk', ha'⟩ := ih
    exact ⟨k ++ k', .more _ _ _ _ _ _ _ _ h0 hk hk', ha.append ha'⟩

theorem repeats_empty {P : Matches} {pre post : List Char} {l : List Cap} (hP : P pre [] post l) :
    ∀ (m : Nat) (n : Option Nat), (∀ k, n = some k → m + 1 ≤ k) → ∃ k, Repeats P (m + 1) n pre [] post k ∧ Agree l k
  | 0, n, h => ⟨l ++ [], .more 1 n pre [] [] post l [] (fun e => by have := h 0 e; omega) hP (.done _ _ _), by rw [List.append_nil]; exact .refl l⟩
  | m + 1, n, h => by
    obtain ⟨k, hk, ha⟩ := repeats_empty hP m (n.map (· - 1)) fun k hk => by
      obtain ⟨k', rfl, rfl⟩ := Option.map_eq_some_iff.1 hk
      have := h k' rfl
      omega
    refine ⟨l ++ k, .more (m + 2) n pre [] [] post l k (fun e => by have := h 0 e; omega) hP (by rw [List.append_nil]; exact hk), ?_⟩
    exact (Agree.twice l).trans ((Agree.refl l).append ha)

theorem mkRepetition_repeats (h : Hir) (g : Bool) (m : Nat) (n : Option Nat) (hmn : ∀ k, n = some k → m ≤ k) {pre x post : List Char} {l : List Cap}
    (ht : (x, l) ∈ (mkRepetition m n g h).tries pre (x ++ post)) :
    ∃ k, Repeats (fun pre x post l => (x, l) ∈ h.tries pre (x ++ post)) m n pre x post k ∧ Agree l k := by
  by_cases hl : h.Light
  · obtain ⟨b, hb0, hb1, hbn, hmk⟩ : ∃ b, (b = 0 → m = 0) ∧ b ≤ 1 ∧ (b = 1 → n ≠ some 0) ∧ mkRepetition m n g h =
        if m.min 1 = 0 ∧ b = 0 then .empty else if m.min 1 = 1 ∧ b = 1 then h else .repetition (m.min 1) (some b) g h := by
      cases n with
      | none => exact ⟨1, by simp, by simp, by simp, by unfold mkRepetition; rw [if_pos hl]; simp⟩
      | some k =>
        refine ⟨k.min 1, fun hk => ?_, Nat.min_le_right _ _, ?_, by unfold mkRepetition; rw [if_pos hl]; simp⟩
        · have := hmn k rfl
          have hk : min k 1 = 0 := hk
          omega
        · rintro h1 h2; cases h2; cases h1
    rw [hmk] at ht
    by_cases hm : m = 0
    · subst hm
      rw [show Nat.min 0 1 = 0 from rfl] at ht
      split at ht
      · rw [tries, List.mem_singleton, Prod.mk.injEq] at ht
        rw [ht.1, ht.2]
        exact ⟨[], .done _ _ _, .refl _⟩
      · rename_i hb
        rw [if_neg (by simp)] at ht
        have hr := repTries_repeats (fun p q => tries_begins h p q) g _ _ _ _ _ _ l ht
        obtain rfl : b = 1 := by
          have : b ≠ 0 := fun e => hb ⟨rfl, e⟩
          omega
        generalize hs : some 1 = s at hr
        cases hr with
        | done => exact ⟨[], .done _ _ _, .refl _⟩
        | more _ _ _ x y _ l k h0 h1 h2 =>
          subst hs
          cases h2 with
          | done => exact ⟨l ++ [], .more _ _ _ _ _ _ _ _ (hbn rfl) h1 (.done _ _ _), .refl _⟩
          | more _ _ _ _ _ _ _ _ h0' => exact absurd rfl h0'
    · have hm1 : m.min 1 = 1 := Nat.min_eq_right (by omega)
      rw [hm1, if_neg (by simp), if_pos ⟨rfl, by omega⟩] at ht
      obtain rfl : x = [] := light_takes h hl _ _ _ ht
      obtain ⟨m, rfl⟩ : ∃ j, m = j + 1 := ⟨m - 1, by omega⟩
      exact repeats_empty (P := fun pre x post l => (x, l) ∈ h.tries pre (x ++ post)) ht m n hmn
  · rw [tries_mkRepetition hl] at ht
    exact ⟨l, repTries_repeats (fun p q => tries_begins h p q) g _ _ _ _ _ _ l ht, .refl _⟩

mutual
theorem translate_sound : ∀ (a : Ast) (i : Nat), a.Valid → ∀ pre x post l, (x, l) ∈ (translate T a i).1.tries pre (x ++ post) →
    ∃ k, a.toRe.Match T.classes i pre x post k ∧ Agree l k
  | .empty, i, hv, pre, x, post, l, h => by
    simp only [translate, tries, List.mem_singleton, Prod.mk.injEq] at h
    exact ⟨[], ⟨h.1, rfl⟩, h.2 ▸ .refl _⟩
  | .lit c, i, hv, pre, x, post, l, h => by
    obtain ⟨k, hk⟩ := (translate_takes T (.lit c) i i hv pre x post).1 ⟨l, h⟩
    rw [translate, show (mkLiteral [c], i).1 = .literal [c] from rfl, tries_char] at h
    rw [(oneChar_nil h), ← hk.2]
    exact ⟨k, hk, .refl _⟩
  | .dot, i, hv, pre, x, post, l, h => by
    obtain ⟨k, hk⟩ := (translate_takes T .dot i i hv pre x post).1 ⟨l, h⟩
    rw [translate, tries_mkClass] at h
    rw [(oneChar_nil h), ← hk.2]
    exact ⟨k, hk, .refl _⟩
  | .cls c, i, hv, pre, x, post, l, h => by
    obtain ⟨k, hk⟩ := (translate_takes T (.cls c) i i hv pre x post).1 ⟨l, h⟩
    rw [translate, tries_mkClass] at h
    rw [(oneChar_nil h), ← hk.2]
    exact ⟨k, hk, .refl _⟩
  | .bol, i, hv, pre, x, post, l, h => by
    simp only [translate, tries] at h
    split at h
    · rename_i hp
      simp only [List.mem_singleton, Prod.mk.injEq] at h
      exact ⟨[], ⟨by simpa using hp, h.1, rfl⟩, h.2 ▸ .refl _⟩
    · cases h
  | .eol, i, hv, pre, x, post, l, h => by
    simp only [translate, tries] at h
    split at h
    · rename_i hp
      simp only [List.mem_singleton, Prod.mk.injEq] at h
      exact ⟨[], ⟨(by simpa using hp : x = [] ∧ post = []).2, h.1, rfl⟩, h.2 ▸ .refl _⟩
    · cases h
  | .mark n, i, hv, pre, x, post, l, h => by
    obtain ⟨k, hk⟩ := (translate_takes T (.mark n) i i hv pre x post).1 ⟨l, h⟩
    simp only [translate, tries] at h
    split at h
    · simp only [List.mem_singleton, Prod.mk.injEq] at h
      exact ⟨[], ⟨hk.1, h.1, rfl⟩, h.2 ▸ .refl _⟩
    · cases h
  | .cap n a, i, hv, pre, x, post, l, h => by
    simp only [translate, tries, List.mem_map] at h
    obtain ⟨b, hb, he⟩ := h
    cases he
    obtain ⟨k, hk, ha⟩ := translate_sound a (i + 1) hv.2 _ _ _ _ hb
    exact ⟨_, ⟨k, hk, rfl⟩, ha.cons _⟩
  | .group a, i, hv, pre, x, post, l, h => translate_sound a i hv _ _ _ _ h
  | .concat as, i, hv, pre, x, post, l, h => by
    rw [translate, tries_mkConcat] at h
    exact translateL_soundAll as i hv _ _ _ _ h
  | .alt as, i, hv, pre, x, post, l, h => by
    rw [translate, mkAlternation, (mem_mkAlternationF _ _ (translateL_tidy T as i hv.2)).2] at h
    exact translateL_soundOne as i (by rintro rfl; simp [Ast.Valid] at hv) hv.2 _ _ _ _ h
  | .rep a m n g, i, hv, pre, x, post, l, h => by
    rw [translate] at h
    obtain ⟨k, hk, ha⟩ := mkRepetition_repeats _ g m n hv.2 h
    obtain ⟨k', hk', ha'⟩ := Repeats.agree (fun pre x post l h => translate_sound a i hv.1 pre x post l h) hk
    exact ⟨k', hk', ha.trans ha'⟩
theorem translateL_soundAll : ∀ (as : List Ast) (i : Nat), Ast.AllValid as → ∀ pre x post l, (x, l) ∈ catTries (translateL T as i).1 pre (x ++ post) →
    ∃ k, (catL (Ast.toRes as)).Match T.classes i pre x post k ∧ Agree l k
  | [], i, _, pre, x, post, l, h => by
    simp only [translateL, catTries, List.mem_singleton, Prod.mk.injEq] at h
    exact ⟨[], ⟨h.1, rfl⟩, h.2 ▸ .refl _⟩
  | a :: as, i, hv, pre, x, post, l, h => by
    simp only [translateL, catTries, andThen, List.mem_flatMap, List.mem_map] at h
    obtain ⟨b, hb, c, hc, he⟩ := h
    obtain ⟨post', hp⟩ := tries_prefix _ _ _ b hb
    rw [hp, List.drop_left] at hc
    cases he
    obtain ⟨post'', hp'⟩ := catTries_begins _ _ _ c hc
    have hp' : c.1 ++ post'' = post' := hp'
    rw [← hp', ← List.append_assoc] at hp
    obtain rfl := List.append_cancel_left hp
    rw [List.append_assoc] at hb
    obtain ⟨k, hk, ha⟩ := translate_sound a i hv.1 _ _ _ _ hb
    rw [← hp'] at hc
    obtain ⟨k', hk', ha'⟩ := translateL_soundAll as _ hv.2 _ _ _ _ hc
    rw [translate_next] at hk'
    exact ⟨k ++ k', (match_catL_cons _ _ _ _ _ _ _).2 ⟨_, _, _, _, rfl, rfl, hk, hk'⟩, ha.append ha'⟩
theorem translateL_soundOne : ∀ (as : List Ast) (i : Nat), as ≠ [] → Ast.AllValid as → ∀ pre x post l,
    (∃ h ∈ (translateL T as i).1, (x, l) ∈ h.tries pre (x ++ post)) → ∃ k, (altL (Ast.toRes as)).Match T.classes i pre x post k ∧ Agree l k
  | [], i, h, _, pre, x, post, l, _ => absurd rfl h
  | [a], i, _, hv, pre, x, post, l, h => by
    simp only [translateL, List.mem_singleton, exists_eq_left] at h
    exact translate_sound a i hv.1 _ _ _ _ h
  | a :: b :: as, i, _, hv, pre, x, post, l, h => by
    rw [Ast.toRes]
    simp only [match_altL_cons a.toRe (rs := Ast.toRes (b :: as)) (by simp [Ast.toRes])]
    obtain ⟨k, hk, h⟩ := h
    rw [translateL] at hk
    rcases List.mem_cons.1 hk with rfl | hk
    · obtain ⟨m, hm, ha⟩ := translate_sound a i hv.1 _ _ _ _ h
      exact ⟨m, .inl hm, ha⟩
    · obtain ⟨m, hm, ha⟩ := translateL_soundOne (b :: as) _ (by simp) hv.2 _ _ _ _ ⟨k, hk, h⟩
      rw [translate_next] at hm
      exact ⟨m, .inr hm, ha⟩
end

/-! ## The search -/

namespace Hir

theorem find_none (h : Hir) (w : List Char) : h.find w = none ↔ ∀ pre x post, w = pre ++ x ++ post → ¬ h.Takes pre x post := by
  unfold find
  rw [List.findSome?_eq_none_iff]
  constructor
  · rintro hn pre x post rfl ⟨l, hl⟩
    have := hn pre.length (List.mem_range.2 (by simp; omega))
    rw [List.append_assoc, List.take_left, List.drop_left, Option.map_eq_none_iff, List.head?_eq_none_iff] at this
    rw [this] at hl
    cases hl
  · intro hn i hi
    rw [Option.map_eq_none_iff, List.head?_eq_none_iff, List.eq_nil_iff_forall_not_mem]
    intro a ha
    obtain ⟨post, hp⟩ := tries_prefix h _ _ a ha
    refine hn (w.take i) a.1 post ?_ ⟨a.2, ?_⟩
    · rw [List.append_assoc, ← hp, List.take_append_drop]
    · rw [← hp]; exact ha

theorem find_some {h : Hir} {w x : List Char} {i : Nat} {l : List Cap} (hf : h.find w = some (i, x, l)) :
    (∃ pre post, w = pre ++ x ++ post ∧ pre.length = i ∧ (x, l) ∈ h.tries pre (x ++ post)) ∧
      ∀ pre y post, w = pre ++ y ++ post → h.Takes pre y post → i ≤ pre.length := by
  unfold find at hf
  obtain ⟨l₁, a, l₂, h1, h2, h3⟩ := List.findSome?_eq_some_iff.1 hf
  have hlen : l₁.length < w.length + 1 := by
    have := congrArg List.length h1
    simp at this; omega
  have ha : a = l₁.length := by
    have := congrArg (·[l₁.length]?) h1
    simp [hlen] at this
    omega
  have hl₁ : ∀ j < a, j ∈ l₁ := by
    intro j hj
    have := congrArg (·[j]?) h1
    simp only [List.getElem?_range (show j < w.length + 1 by omega), List.getElem?_append_left (ha ▸ hj)] at this
    exact List.mem_of_getElem? this.symm
  obtain ⟨b, hb, he⟩ := Option.map_eq_some_iff.1 h2
  cases he
  have hm := List.mem_of_head? hb
  constructor
  · obtain ⟨post, hp⟩ := tries_prefix h _ _ _ hm
    refine ⟨w.take i, post, ?_, ?_, ?_⟩
    · rw [List.append_assoc, ← hp, List.take_append_drop]
    · rw [List.length_take]; omega
    · rw [← hp]; exact hm
  · rintro pre y post rfl ⟨k, hk⟩
    refine Nat.le_of_not_lt fun hlt => ?_
    have := h3 _ (hl₁ _ hlt)
    rw [List.append_assoc, List.take_left, List.drop_left, Option.map_eq_none_iff, List.head?_eq_none_iff] at this
    rw [this] at hk
    cases hk

end Hir

end CE
