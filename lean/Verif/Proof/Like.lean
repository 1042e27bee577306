import Verif.Spec.Hir
import Verif.Proof.RegexSem

/-! # Regular expressions with the same matches -/

namespace CE.Regex
open CE.Spec

theorem Like.refl (r : Re) : Like r r := ⟨rfl, fun _ _ _ _ _ _ => Iff.rfl⟩
theorem Like.symm {r s : Re} (h : Like r s) : Like s r := ⟨h.1.symm, fun U g pre x post l => (h.2 U g pre x post l).symm⟩
theorem Like.trans {r s t : Re} (h : Like r s) (h' : Like s t) : Like r t :=
  ⟨h.1.trans h'.1, fun U g pre x post l => (h.2 U g pre x post l).trans (h'.2 U g pre x post l)⟩

/-! ## For given classes -/

theorem Like.at {r s : Re} (h : Like r s) (U : Classes) : LikeIn U r s := ⟨h.1, h.2 U⟩

section
variable {U : Classes}

theorem LikeIn.refl (r : Re) : LikeIn U r r := ⟨rfl, fun _ _ _ _ _ => Iff.rfl⟩
theorem LikeIn.trans {r s t : Re} (h : LikeIn U r s) (h' : LikeIn U s t) : LikeIn U r t :=
  ⟨h.1.trans h'.1, fun g pre x post l => (h.2 g pre x post l).trans (h'.2 g pre x post l)⟩

theorem LikeIn.cap {r s : Re} (n n' : Option (List Char)) (h : LikeIn U r s) : LikeIn U (.cap n r) (.cap n' s) :=
  ⟨by simp [Re.groups, h.1], fun g pre x post l => by simp only [Re.Match, h.2]⟩

end

/-! ## For all classes -/

theorem Like.cap {r s : Re} (n n' : Option (List Char)) (h : Like r s) : Like (.cap n r) (.cap n' s) :=
  ⟨by simp [Re.groups, h.1], fun U g pre x post l => by simp only [Re.Match, h.2]⟩

theorem Like.cat {r s r' s' : Re} (h : Like r s) (h' : Like r' s') : Like (.cat r r') (.cat s s') :=
  ⟨by simp [Re.groups, h.1, h'.1], fun U g pre x post l => by simp only [Re.Match, h.2, h'.2, h.1]⟩

theorem Like.alt {r s r' s' : Re} (h : Like r s) (h' : Like r' s') : Like (.alt r r') (.alt s s') :=
  ⟨by simp [Re.groups, h.1, h'.1], fun U g pre x post l => by simp only [Re.Match, h.2, h'.2, h.1]⟩

theorem repeats_congr {P Q : Matches} (h : ∀ pre x post l, P pre x post l → Q pre x post l) {m : Nat} {n : Option Nat}
    {pre x post : List Char} {l : List Cap} (hr : Repeats P m n pre x post l) : Repeats Q m n pre x post l := by
  induction hr with
  | done => exact .done ..
  | more m n pre x y post l k hne h1 _ ih => exact .more _ _ _ _ _ _ _ _ hne (h _ _ _ _ h1) ih

theorem Like.rep {r s : Re} (h : Like r s) (m : Nat) (n : Option Nat) (a b : Bool) : Like (.rep r m n a) (.rep s m n b) :=
  ⟨h.1, fun U g _ _ _ _ => ⟨repeats_congr fun _ _ _ _ => (h.2 U g _ _ _ _).1, repeats_congr fun _ _ _ _ => (h.2 U g _ _ _ _).2⟩⟩

theorem Like.catL_cons {r s : Re} {rs ss : List Re} (h : Like r s) (h' : Like (catL rs) (catL ss)) :
    Like (catL (r :: rs)) (catL (s :: ss)) := by
  refine ⟨?_, fun U g pre x post l => ?_⟩
  · have := h'.1
    rw [groups_catL, groups_catL] at this ⊢
    simp only [List.map_cons, List.flatten_cons, List.length_append, this, h.1]
  · rw [match_catL_cons, match_catL_cons]
    simp only [h.2, h'.2, h.1]

theorem LikeIn.rep {U : Classes} {r s : Re} (h : LikeIn U r s) (m : Nat) (n : Option Nat) (a b : Bool) :
    LikeIn U (.rep r m n a) (.rep s m n b) :=
  ⟨h.1, fun g _ _ _ _ => ⟨repeats_congr fun _ _ _ _ => (h.2 g _ _ _ _).1, repeats_congr fun _ _ _ _ => (h.2 g _ _ _ _).2⟩⟩

theorem LikeIn.catL_cons {U : Classes} {r s : Re} {rs ss : List Re} (h : LikeIn U r s) (h' : LikeIn U (catL rs) (catL ss)) :
    LikeIn U (catL (r :: rs)) (catL (s :: ss)) := by
  refine ⟨?_, fun g pre x post l => ?_⟩
  · have := h'.1
    rw [groups_catL, groups_catL] at this ⊢
    simp only [List.map_cons, List.flatten_cons, List.length_append, this, h.1]
  · rw [match_catL_cons, match_catL_cons]
    simp only [h.2, h'.2, h.1]

theorem match_altL_cons {U : Classes} (r : Re) {rs : List Re} (hne : rs ≠ []) (g : Nat) (pre x post : List Char) (l : List Cap) :
    (altL (r :: rs)).Match U g pre x post l ↔ r.Match U g pre x post l ∨ (altL rs).Match U (g + r.groups.length) pre x post l := by
  cases rs with
  | nil => exact absurd rfl hne
  | cons s rs => rfl

theorem Like.altL_cons {r s : Re} {rs ss : List Re} (h : Like r s) (h' : Like (altL rs) (altL ss)) (he : rs = [] ↔ ss = []) :
    Like (altL (r :: rs)) (altL (s :: ss)) := by
  by_cases hr : rs = []
  · rw [hr, he.1 hr]; exact h
  · refine ⟨?_, fun U g pre x post l => ?_⟩
    · have := h'.1
      rw [groups_altL, groups_altL] at this ⊢
      simp only [List.map_cons, List.flatten_cons, List.length_append, this, h.1]
    · rw [match_altL_cons _ hr, match_altL_cons _ (fun hs => hr (he.2 hs))]
      simp only [h.2, h'.2, h.1]

theorem LikeIn.altL_cons {U : Classes} {r s : Re} {rs ss : List Re} (h : LikeIn U r s) (h' : LikeIn U (altL rs) (altL ss))
    (he : rs = [] ↔ ss = []) : LikeIn U (altL (r :: rs)) (altL (s :: ss)) := by
  by_cases hr : rs = []
  · rw [hr, he.1 hr]; exact h
  · refine ⟨?_, fun g pre x post l => ?_⟩
    · have := h'.1
      rw [groups_altL, groups_altL] at this ⊢
      simp only [List.map_cons, List.flatten_cons, List.length_append, this, h.1]
    · rw [match_altL_cons _ hr, match_altL_cons _ (fun hs => hr (he.2 hs))]
      simp only [h.2, h'.2, h.1]

theorem Like.altL_map {α : Type} {f g : α → Re} {as : List α} (h : ∀ a ∈ as, Like (f a) (g a)) :
    Like (altL (as.map f)) (altL (as.map g)) := by
  induction as with
  | nil => exact .refl _
  | cons a as ih => exact .altL_cons (h a (by simp)) (ih fun b hb => h b (by simp [hb])) (by simp)

theorem Like.catL_append {rs rs' ss ss' : List Re} (h : Like (catL rs) (catL rs')) (h' : Like (catL ss) (catL ss')) :
    Like (catL (rs ++ ss)) (catL (rs' ++ ss')) := by
  refine ⟨?_, fun U g pre x post l => ?_⟩
  · have h1 := h.1
    have h2 := h'.1
    rw [groups_catL, groups_catL] at h1 h2 ⊢
    simp only [List.map_append, List.flatten_append, List.length_append, h1, h2]
  · rw [match_catL_append, match_catL_append]
    simp only [h.2, h'.2, h.1]

theorem groups_altL_append (rs ss : List Re) : (altL (rs ++ ss)).groups = (altL rs).groups ++ (altL ss).groups := by
  simp [groups_altL]

theorem match_altL_append {U : Classes} {rs ss : List Re} (hr : rs ≠ []) (hs : ss ≠ []) (g : Nat) (pre x post : List Char)
    (l : List Cap) : (altL (rs ++ ss)).Match U g pre x post l ↔ (altL rs).Match U g pre x post l ∨
      (altL ss).Match U (g + (altL rs).groups.length) pre x post l := by
  induction rs generalizing g with
  | nil => exact absurd rfl hr
  | cons r rs ih =>
    by_cases hrs : rs = []
    · subst hrs
      rw [List.singleton_append, match_altL_cons _ hs]; rfl
    · rw [List.cons_append, match_altL_cons _ (by simp [hrs]), match_altL_cons _ hrs, ih hrs, groups_altL, groups_altL,
        or_assoc]
      simp only [List.map_cons, List.flatten_cons, List.length_append, Nat.add_assoc]

theorem Like.altL_append {rs rs' ss ss' : List Re} (h : Like (altL rs) (altL rs')) (h' : Like (altL ss) (altL ss'))
    (h1 : rs ≠ []) (h1' : rs' ≠ []) (h2 : ss ≠ []) (h2' : ss' ≠ []) : Like (altL (rs ++ ss)) (altL (rs' ++ ss')) := by
  refine ⟨?_, fun U g pre x post l => ?_⟩
  · simp only [groups_altL_append, List.length_append, h.1, h'.1]
  · rw [match_altL_append h1 h2, match_altL_append h1' h2']
    simp only [h.2, h'.2, h.1]

/-- Without groups, the number of the first group does not matter. -/
theorem match_nogroups {U : Classes} : ∀ (r : Re) (_ : r.groups = []) (g g' : Nat) (pre x post : List Char) (l : List Cap),
    r.Match U g pre x post l ↔ r.Match U g' pre x post l
  | .empty, _, _, _, _, _, _, _ => Iff.rfl
  | .lit _, _, _, _, _, _, _, _ => Iff.rfl
  | .dot, _, _, _, _, _, _, _ => Iff.rfl
  | .cls _, _, _, _, _, _, _, _ => Iff.rfl
  | .bol, _, _, _, _, _, _, _ => Iff.rfl
  | .eol, _, _, _, _, _, _, _ => Iff.rfl
  | .mark _, _, _, _, _, _, _, _ => Iff.rfl
  | .cap _ _, h, _, _, _, _, _, _ => absurd h (by simp [Re.groups])
  | .cat a b, h, g, g', pre, x, post, l => by
    simp only [Re.groups, List.append_eq_nil_iff] at h
    simp only [Re.Match, h.1, match_nogroups a h.1 g g', match_nogroups b h.2 (g + ([] : List (Option (List Char))).length)
      (g' + ([] : List (Option (List Char))).length)]
  | .alt a b, h, g, g', pre, x, post, l => by
    simp only [Re.groups, List.append_eq_nil_iff] at h
    simp only [Re.Match, h.1, match_nogroups a h.1 g g', match_nogroups b h.2 (g + ([] : List (Option (List Char))).length)
      (g' + ([] : List (Option (List Char))).length)]
  | .rep r m n b, h, g, g', pre, x, post, l =>
    ⟨repeats_congr fun _ _ _ _ => (match_nogroups r h g g' _ _ _ _).1, repeats_congr fun _ _ _ _ => (match_nogroups r h g g' _ _ _ _).2⟩

/-- A common beginning without groups can be moved out of an alternation. -/
theorem Like.distribute {P : List Re} (hP : (catL P).groups = []) (ds : List (List Re)) (hne : ds ≠ []) :
    Like (altL (ds.map fun d => catL (P ++ d))) (catL (P ++ [altL (ds.map catL)])) := by
  refine ⟨?_, fun U g pre x post l => ?_⟩
  · rw [groups_catL] at hP
    simp [groups_altL, groups_catL, hP, List.map_map, Function.comp_def]
  · rw [match_catL_append]
    simp only [hP, List.length_nil, Nat.add_zero]
    induction ds generalizing g with
    | nil => exact absurd rfl hne
    | cons d ds ih =>
      by_cases hd : ds = []
      · subst hd
        simp only [List.map_cons, List.map_nil, altL, catL]
        rw [match_catL_append]
        simp only [hP, List.length_nil, Nat.add_zero]
      · have hg : (catL (P ++ d)).groups = (catL d).groups := by
          rw [groups_catL] at hP
          simp [groups_catL, hP]
        rw [List.map_cons, match_altL_cons _ (by simpa using hd), ih hd, match_catL_append, hg]
        simp only [hP, List.length_nil, Nat.add_zero, List.map_cons]
        constructor
        · rintro (⟨y, z, k, m, rfl, rfl, h1, h2⟩ | ⟨y, z, k, m, rfl, rfl, h1, h2⟩)
          · exact ⟨y, z, k, m, rfl, rfl, h1, (match_altL_cons _ (by simpa using hd) ..).2 (.inl h2)⟩
          · exact ⟨y, z, k, m, rfl, rfl, (match_nogroups _ hP _ _ _ _ _ _).1 h1,
              (match_altL_cons _ (by simpa using hd) ..).2 (.inr h2)⟩
        · rintro ⟨y, z, k, m, rfl, rfl, h1, h2⟩
          rcases (match_altL_cons _ (by simpa using hd) ..).1 h2 with h2 | h2
          · exact .inl ⟨y, z, k, m, rfl, rfl, h1, h2⟩
          · exact .inr ⟨y, z, k, m, rfl, rfl, (match_nogroups _ hP _ _ _ _ _ _).1 h1, h2⟩

end CE.Regex
