import Verif.Proof.SearchExpr
import Verif.Model.HirSearch
import Verif.Proof.Translate

/-! # Lists of tries that agree up to repetitions -/

namespace CE
open Spec Regex

/-- The first item with a given property is the same. -/
def Same {α : Type} (l m : List α) : Prop := ∀ p : α → Bool, l.find? p = m.find? p

namespace Same
variable {α β : Type}

theorem refl (l : List α) : Same l l := fun _ => rfl
theorem of_eq {l m : List α} (h : l = m) : Same l m := h ▸ refl l
theorem symm {l m : List α} (h : Same l m) : Same m l := fun p => (h p).symm
theorem trans {l m k : List α} (h : Same l m) (h' : Same m k) : Same l k := fun p => (h p).trans (h' p)

theorem append {l l' m m' : List α} (h : Same l l') (h' : Same m m') : Same (l ++ m) (l' ++ m') := fun p => by
  rw [List.find?_append, List.find?_append, h p, h' p]

theorem head? {l m : List α} (h : Same l m) : l.head? = m.head? := by
  have := h fun _ => true
  cases l <;> cases m <;> simp at this <;> simp [this]

theorem findSome?_eq (l : List α) (f : α → Option β) : l.findSome? f = (l.find? fun a => (f a).isSome).bind f := by
  induction l with
  | nil => rfl
  | cons a l ih =>
    rw [List.findSome?_cons, List.find?_cons]
    cases h : f a with
    | some b => simp [h]
    | none => simpa using ih

theorem findSome? {l m : List α} (h : Same l m) (f : α → Option β) : l.findSome? f = m.findSome? f := by
  rw [findSome?_eq, findSome?_eq, h]

theorem find?_flatMap (l : List α) (f : α → List β) (p : β → Bool) :
    (l.flatMap f).find? p = l.findSome? fun a => (f a).find? p := by
  induction l with
  | nil => rfl
  | cons a l ih =>
    rw [List.flatMap_cons, List.find?_append, ih, List.findSome?_cons]
    cases (f a).find? p <;> rfl

theorem flatMap {l m : List α} (h : Same l m) {f g : α → List β} (hf : ∀ a, Same (f a) (g a)) : Same (l.flatMap f) (m.flatMap g) :=
  fun p => by rw [find?_flatMap, find?_flatMap, h.findSome?, show (fun a => (f a).find? p) = fun a => (g a).find? p from funext fun a => hf a p]

theorem map {l m : List α} (h : Same l m) (f : α → β) : Same (l.map f) (m.map f) := fun p => by
  rw [List.find?_map, List.find?_map, h]

theorem filter {l m : List α} (h : Same l m) (q : α → Bool) : Same (l.filter q) (m.filter q) := fun p => by
  rw [List.find?_filter, List.find?_filter, h]

theorem andThen {l m : List Try} (h : Same l m) {f g : List Char → List Try} (hf : ∀ x, Same (f x) (g x)) :
    Same (andThen l f) (andThen m g) := h.flatMap fun a => (hf a.1).map _

theorem repTries {b b' : List Char → List Char → List Try} (h : ∀ p r, Same (b p r) (b' p r)) (greedy : Bool) :
    ∀ (fuel m : Nat) (n : Option Nat) (pre rest : List Char),
      Same (repTries b greedy fuel m n pre rest) (repTries b' greedy fuel m n pre rest)
  | 0, _, _, _, _ => refl _
  | fuel + 1, m, n, pre, rest => by
    rw [Regex.repTries, Regex.repTries]
    have h1 := ((h pre rest).filter (fun a => m != 0 || !a.1.isEmpty)).andThen fun x =>
      repTries h greedy fuel (m - 1) (n.map (· - 1)) (pre ++ x) (rest.drop x.length)
    by_cases hn : n = some 0
    · simp only [hn]; exact refl _
    · simp only [if_neg hn]
      cases greedy
      · exact (refl _).append h1
      · exact h1.append (refl _)

/-- If there is at most one item on the left, it distributes over alternatives. -/
theorem andThen_append {l : List Try} (hl : ∀ a ∈ l, ∀ b ∈ l, a = b) (f g : List Char → List Try) :
    Same (Regex.andThen l fun x => f x ++ g x) (Regex.andThen l f ++ Regex.andThen l g) := by
  cases l with
  | nil => exact refl _
  | cons a l =>
    have : Same (a :: l) [a] := by
      intro p
      have h : ∀ b ∈ l, b = a := fun b hb => hl b (by simp [hb]) a (by simp)
      rw [List.find?_cons, List.find?_cons]
      cases hp : p a with
      | true => rfl
      | false =>
        simp only [List.find?_nil, List.find?_eq_none]
        intro b hb
        rw [h b hb]; simp [hp]
    refine ((this.andThen fun _ => refl _).trans ?_).trans ((this.andThen fun _ => refl _).append (this.andThen fun _ => refl _)).symm
    simp only [Regex.andThen, List.flatMap_cons, List.flatMap_nil, List.append_nil, List.map_append]
    exact refl _

end Same

namespace Hir

/-! ## Concatenation -/

theorem catTries_append (hs ks : List Hir) (pre rest : List Char) : catTries (hs ++ ks) pre rest =
    andThen (catTries hs pre rest) fun x => catTries ks (pre ++ x) (rest.drop x.length) := by
  induction hs generalizing pre rest with
  | nil => simp [catTries, andThen_nil]
  | cons h hs ih =>
    simp only [List.cons_append, catTries, ih, andThen_assoc, List.append_assoc, List.length_append, List.drop_drop]

theorem catTries_single (h : Hir) (pre rest : List Char) : catTries [h] pre rest = h.tries pre rest := by
  simp [catTries, andThen_done]

theorem tries_literal_append (a b : List Char) (pre rest : List Char) : (Hir.literal (a ++ b)).tries pre rest =
    andThen ((Hir.literal a).tries pre rest) fun x => (Hir.literal b).tries (pre ++ x) (rest.drop x.length) := by
  simp only [tries]
  have key : (a ++ b).isPrefixOf rest = (a.isPrefixOf rest && b.isPrefixOf (rest.drop a.length)) := by
    rw [Bool.eq_iff_iff, Bool.and_eq_true_iff, List.isPrefixOf_iff_prefix, List.isPrefixOf_iff_prefix, List.isPrefixOf_iff_prefix]
    constructor
    · rintro ⟨t, rfl⟩; simp
    · rintro ⟨⟨t, rfl⟩, u, hu⟩
      rw [List.drop_left] at hu
      exact ⟨u, by rw [← hu]; simp⟩
  rw [key]
  by_cases ha : a.isPrefixOf rest = true
  · simp only [ha, Bool.true_and, if_true]
    by_cases hb : b.isPrefixOf (rest.drop a.length) = true <;> simp [-List.isPrefixOf_iff_prefix, andThen, hb]
  · simp [-List.isPrefixOf_iff_prefix, ha, andThen]

theorem catTries_joinLits : ∀ (hs : List Hir) (pre rest : List Char), catTries (joinLits hs) pre rest = catTries hs pre rest
  | [], _, _ => rfl
  | h :: hs, pre, rest => by
    rw [joinLits.eq_def]
    simp only []
    have ih := fun pre rest => catTries_joinLits hs pre rest
    split
    · rename_i a b rs he
      rw [he] at ih
      simp only [catTries] at ih ⊢
      simp only [← ih, tries_literal_append, andThen_assoc, List.append_assoc, List.length_append, List.drop_drop]
    · simp only [catTries, ih]

theorem catTries_flatConcat : ∀ (hs : List Hir) (pre rest : List Char), catTries (flatConcat hs) pre rest = catTries hs pre rest
  | [], _, _ => rfl
  | h :: hs, pre, rest => by
    have ih := fun pre rest => catTries_flatConcat hs pre rest
    cases h with
    | concat subs => rw [flatConcat, catTries_append]; simp only [ih, catTries, tries]
    | empty => rw [flatConcat, ih, catTries, tries, andThen_nil]; simp
    | _ => simp only [flatConcat, catTries, ih]

theorem tries_mkConcat (hs : List Hir) (pre rest : List Char) : (mkConcat hs).tries pre rest = catTries hs pre rest := by
  rw [← catTries_flatConcat, ← catTries_joinLits]
  unfold mkConcat
  split
  · rename_i he; rw [he]; rfl
  · rename_i h he; rw [he, catTries_single]
  · rfl

/-! ## Characters -/

theorem tries_char (c : Char) (pre rest : List Char) : (Hir.literal [c]).tries pre rest = oneChar (· == c) rest := by
  simp only [tries]
  cases rest with
  | nil => simp [oneChar]
  | cons d rest =>
    by_cases h : d = c
    · simp [oneChar, h]
    · simp [oneChar, h, Ne.symm h]

theorem oneChar_congr {p q : Char → Bool} (h : ∀ c, p c = q c) (rest : List Char) : oneChar p rest = oneChar q rest := by
  rw [show p = q from funext h]

theorem tries_mkClass (rs : List (Char × Char)) (pre rest : List Char) :
    (mkClass rs).tries pre rest = oneChar (Ranges.mem rs) rest := by
  unfold mkClass
  split
  · rename_i a b
    split
    · rename_i hab
      subst hab
      rw [tries_char]
      refine oneChar_congr (fun c => ?_) rest
      rw [Bool.eq_iff_iff]
      simp only [Ranges.mem, beq_iff_eq, List.any_cons, List.any_nil, Bool.or_false, decide_eq_true_eq]
      exact ⟨fun h => h ▸ ⟨Char.le_refl _, Char.le_refl _⟩, fun h => Char.le_antisymm h.2 h.1⟩
    · rfl
  · rfl

/-! ## Repetition -/

theorem repTries_one (body : List Char → List Char → List Try) (greedy : Bool) (fuel : Nat) (pre rest : List Char) :
    repTries body greedy (1 + fuel) 1 (some 1) pre rest = body pre rest := by
  have : ∀ fuel pre rest, repTries body greedy fuel 0 (some 0) pre rest = [([], [])] := by
    intro fuel pre rest
    cases fuel <;> cases greedy <;> simp [repTries]
  rw [Nat.add_comm, repTries]
  simp only [Nat.sub_self, Option.map_some, this, andThen_done]
  cases greedy <;> simp

theorem tries_mkRepetition {m : Nat} {n : Option Nat} {g : Bool} {h : Hir} (hl : ¬ h.Light) (pre rest : List Char) :
    (mkRepetition m n g h).tries pre rest = repTries (fun p q => h.tries p q) g (m + rest.length) m n pre rest := by
  unfold mkRepetition
  rw [if_neg hl]
  simp only []
  split
  · rename_i h0
    obtain ⟨rfl, rfl⟩ := h0
    generalize 0 + rest.length = f
    cases f <;> cases g <;> simp [repTries, tries]
  · split
    · rename_i h1
      obtain ⟨rfl, rfl⟩ := h1
      rw [repTries_one]
    · rfl

/-! ## Alternation -/

theorem altTries_append (hs ks : List Hir) (pre rest : List Char) :
    altTries (hs ++ ks) pre rest = altTries hs pre rest ++ altTries ks pre rest := by
  induction hs with
  | nil => rfl
  | cons h hs ih => simp [altTries, ih]

theorem altTries_flat : ∀ (hs : List Hir) (pre rest : List Char), altTries (flatAlternation hs) pre rest = altTries hs pre rest
  | [], _, _ => rfl
  | h :: hs, pre, rest => by
    have ih := altTries_flat hs pre rest
    cases h with
    | alternation subs => rw [flatAlternation, altTries_append, ih, altTries, tries]
    | _ => simp only [flatAlternation, altTries, ih]

theorem same_oneChar (p q : Char → Bool) (rest : List Char) :
    Same (oneChar (fun c => p c || q c) rest) (oneChar p rest ++ oneChar q rest) := by
  cases rest with
  | nil => exact .refl _
  | cons c rest =>
    simp only [oneChar]
    by_cases hp : p c = true
    · by_cases hq : q c = true
      · simp only [hp, hq, Bool.true_or, if_true]
        intro f
        cases h : f ([c], []) <;> simp [h]
      · simp only [hp, hq, Bool.true_or, if_true, Bool.false_eq_true, if_false, List.append_nil]; exact .refl _
    · simp only [hp, Bool.false_or, Bool.false_eq_true, if_false, List.nil_append]; exact .refl _

theorem same_mixedRanges : ∀ (hs : List Hir) (rs : List (Char × Char)), mixedRanges hs = some rs → ∀ pre rest,
    Same (oneChar (Ranges.mem rs) rest) (altTries hs pre rest)
  | [], rs, h, pre, rest => by
    cases h
    cases rest <;> exact .refl _
  | .literal [c] :: hs, rs, h, pre, rest => by
    rw [mixedRanges] at h
    obtain ⟨ts, h1, rfl⟩ := Option.map_eq_some_iff.1 h
    rw [altTries, tries_char]
    have : oneChar (Ranges.mem ((c, c) :: ts)) rest = oneChar (fun d => (d == c) || Ranges.mem ts d) rest := by
      refine oneChar_congr (fun d => ?_) rest
      rw [Bool.eq_iff_iff]
      simp only [Ranges.mem, List.any_cons, Bool.or_eq_true, decide_eq_true_eq, beq_iff_eq]
      refine or_congr ⟨fun h => Char.le_antisymm h.2 h.1, fun h => h ▸ ⟨Char.le_refl _, Char.le_refl _⟩⟩ Iff.rfl
    rw [this]
    exact (same_oneChar _ _ _).trans ((Same.refl _).append (same_mixedRanges hs ts h1 pre rest))
  | .cls qs :: hs, rs, h, pre, rest => by
    rw [mixedRanges] at h
    obtain ⟨ts, h1, rfl⟩ := Option.map_eq_some_iff.1 h
    rw [altTries, tries]
    have : oneChar (Ranges.mem (qs ++ ts)) rest = oneChar (fun d => Ranges.mem qs d || Ranges.mem ts d) rest :=
      oneChar_congr (fun d => by simp [Ranges.mem, List.any_append]) rest
    rw [this]
    exact (same_oneChar _ _ _).trans ((Same.refl _).append (same_mixedRanges hs ts h1 pre rest))
  | .empty :: _, _, h, _, _ => by cases h
  | .literal [] :: _, _, h, _, _ => by cases h
  | .literal (_ :: _ :: _) :: _, _, h, _, _ => by cases h
  | .look _ :: _, _, h, _, _ => by cases h
  | .repetition .. :: _, _, h, _, _ => by cases h
  | .capture .. :: _, _, h, _, _ => by cases h
  | .concat _ :: _, _, h, _, _ => by cases h
  | .alternation _ :: _, _, h, _, _ => by cases h

/-- Nothing is moved out of the alternation. -/
def Unlifted (hs : List Hir) : Prop :=
  (∀ c cs, concats (flatAlternation hs) = some (c :: cs) → cs.foldl commonPrefix c = []) ∧
  ∀ rs, charRanges (flatAlternation hs) = some rs → ∀ r ∈ rs, r.1 ≤ r.2

theorem same_unlifted (n : Nat) (hs : List Hir) (h : Unlifted hs) (pre rest : List Char) :
    Same ((mkAlternationF n hs).tries pre rest) (altTries hs pre rest) := by
  cases n with
  | zero => exact .refl _
  | succ n =>
    rw [← altTries_flat]
    unfold Unlifted at h
    rw [mkAlternationF]
    generalize flatAlternation hs = ks at *
    split
    · rw [tries]; cases rest <;> exact .refl _
    · rename_i k; simp only [altTries, List.append_nil]; exact .refl _
    · split
      · rename_i rs hr
        rw [tries_mkClass]
        refine .trans (.of_eq (oneChar_congr (fun c => ?_) rest)) (same_mixedRanges ks rs (charRanges_mixed hr) pre rest)
        rw [Bool.eq_iff_iff, Ranges.mem_canon rs c (h.2 rs hr)]
      · split
        · exact .refl _
        · exact .refl _
        · rename_i c cs hc
          rw [h.1 c cs hc]
          exact .refl _

/-- The common beginning is tried first. -/
theorem same_lifted (n : Nat) (hs : List Hir) (c : List Hir) (cs : List (List Hir)) (hf : flatAlternation hs = hs)
    (h2 : 2 ≤ hs.length) (hc : concats hs = some (c :: cs)) (hp : cs.foldl commonPrefix c ≠ [])
    (hu : Unlifted ((c :: cs).map fun xs => mkConcat (xs.drop (cs.foldl commonPrefix c).length))) (pre rest : List Char) :
    Same ((mkAlternationF (n + 1) hs).tries pre rest) (andThen (catTries (cs.foldl commonPrefix c) pre rest) fun x =>
      altTries ((c :: cs).map fun xs => mkConcat (xs.drop (cs.foldl commonPrefix c).length)) (pre ++ x) (rest.drop x.length)) := by
  have hcc := concats_eq hs _ hc
  have hr : charRanges hs = none := by rw [hcc]; exact if_neg (by simp [isSingleton, isCls])
  have e : mkAlternationF (n + 1) hs = mkConcat (cs.foldl commonPrefix c ++
      [mkAlternationF n ((c :: cs).map fun xs => mkConcat (xs.drop (cs.foldl commonPrefix c).length))]) := by
    rw [mkAlternationF, hf]
    match hs, h2 with
    | a :: b :: hs, _ =>
      simp only [hr, hc]
  rw [e, tries_mkConcat, catTries_append]
  exact (Same.refl _).andThen fun x => by rw [catTries_single]; exact same_unlifted _ _ hu _ _

end Hir

end CE
