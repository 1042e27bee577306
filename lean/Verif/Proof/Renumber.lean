import Verif.Proof.HirSearch
import Verif.Spec.CustomPrefer

/-! # Translation with other group numbers -/

namespace CE.Hir
open Regex

mutual
/-- All groups have numbers greater by `d`. -/
def renumber (d : Nat) : Hir → Hir
  | .empty => .empty
  | .literal cs => .literal cs
  | .cls rs => .cls rs
  | .look l => .look l
  | .repetition m n g sub => .repetition m n g (renumber d sub)
  | .capture i name sub => .capture (i + d) name (renumber d sub)
  | .concat subs => .concat (renumberL d subs)
  | .alternation subs => .alternation (renumberL d subs)
def renumberL (d : Nat) : List Hir → List Hir
  | [] => []
  | h :: hs => renumber d h :: renumberL d hs
end

theorem renumberL_map (d : Nat) (hs : List Hir) : renumberL d hs = hs.map (renumber d) := by
  induction hs with
  | nil => rfl
  | cons h hs ih => simp [renumberL, ih]

mutual
theorem renumber_inj {d : Nat} : ∀ {a b : Hir}, renumber d a = renumber d b → a = b
  | .empty, b, h => by cases b <;> simp [renumber] at h ⊢
  | .literal _, b, h => by cases b <;> simp [renumber] at h ⊢; exact h
  | .cls _, b, h => by cases b <;> simp [renumber] at h ⊢; exact h
  | .look _, b, h => by cases b <;> simp [renumber] at h ⊢; exact h
  | .repetition _ _ _ x, b, h => by
    cases b <;> simp [renumber] at h ⊢
    exact ⟨h.1, h.2.1, h.2.2.1, renumber_inj h.2.2.2⟩
  | .capture _ _ x, b, h => by
    cases b <;> simp [renumber] at h ⊢
    exact ⟨h.1, h.2.1, renumber_inj h.2.2⟩
  | .concat xs, b, h => by
    cases b <;> simp [renumber] at h ⊢
    exact renumberL_inj h
  | .alternation xs, b, h => by
    cases b <;> simp [renumber] at h ⊢
    exact renumberL_inj h
theorem renumberL_inj {d : Nat} : ∀ {as bs : List Hir}, renumberL d as = renumberL d bs → as = bs
  | [], bs, h => by cases bs <;> simp [renumberL] at h ⊢
  | a :: as, bs, h => by
    cases bs <;> simp [renumberL] at h ⊢
    exact ⟨renumber_inj h.1, renumberL_inj h.2⟩
end

mutual
theorem maxLen_renumber (d : Nat) : ∀ h : Hir, (renumber d h).maxLen = h.maxLen
  | .empty => rfl
  | .literal _ => rfl
  | .cls _ => rfl
  | .look _ => rfl
  | .repetition _ _ _ sub => by simp only [renumber, maxLen, maxLen_renumber d sub]
  | .capture _ _ sub => by simp only [renumber, maxLen, maxLen_renumber d sub]
  | .concat subs => by simp only [renumber, maxLen, (maxLens_renumber d subs).1]
  | .alternation subs => by simp only [renumber, maxLen, (maxLens_renumber d subs).2]
theorem maxLens_renumber (d : Nat) : ∀ hs : List Hir, sumLen (renumberL d hs) = sumLen hs ∧ maxLens (renumberL d hs) = maxLens hs
  | [] => ⟨rfl, rfl⟩
  | h :: hs => by
    simp only [renumberL, sumLen, maxLens, maxLen_renumber d h, (maxLens_renumber d hs).1, (maxLens_renumber d hs).2, and_self]
end

mutual
theorem size_renumber (d : Nat) : ∀ h : Hir, (renumber d h).size = h.size
  | .empty => rfl
  | .literal _ => rfl
  | .cls _ => rfl
  | .look _ => rfl
  | .repetition _ _ _ sub => by simp only [renumber, size, size_renumber d sub]
  | .capture _ _ sub => by simp only [renumber, size, size_renumber d sub]
  | .concat subs => by simp only [renumber, size, sizes_renumber d subs]
  | .alternation subs => by simp only [renumber, size, sizes_renumber d subs]
theorem sizes_renumber (d : Nat) : ∀ hs : List Hir, sizes (renumberL d hs) = sizes hs
  | [] => rfl
  | h :: hs => by simp only [renumberL, sizes, size_renumber d h, sizes_renumber d hs]
end

theorem mkClass_renumber (d : Nat) (rs : List (Char × Char)) : renumber d (mkClass rs) = mkClass rs := by
  unfold mkClass
  split
  · split <;> rfl
  · rfl

theorem mkRepetition_renumber (d m : Nat) (n : Option Nat) (g : Bool) (h : Hir) :
    mkRepetition m n g (renumber d h) = renumber d (mkRepetition m n g h) := by
  unfold mkRepetition
  rw [maxLen_renumber]
  generalize (if h.maxLen = some 0 then _ else _) = q
  obtain ⟨mn, mx⟩ := q
  simp only []
  split
  · rfl
  · split <;> rfl

theorem flatConcat_renumber (d : Nat) : ∀ hs : List Hir, flatConcat (renumberL d hs) = renumberL d (flatConcat hs)
  | [] => rfl
  | h :: hs => by
    have ih := flatConcat_renumber d hs
    cases h <;> simp only [renumberL, renumber, flatConcat, ih]
    simp only [renumberL_map, List.map_append]

theorem joinLits_renumber (d : Nat) : ∀ hs : List Hir, joinLits (renumberL d hs) = renumberL d (joinLits hs)
  | [] => rfl
  | h :: hs => by
    have ih := joinLits_renumber d hs
    rw [renumberL, joinLits.eq_def (_ :: _), joinLits.eq_def (_ :: _)]
    simp only [ih]
    generalize joinLits hs = ks
    cases h with
    | literal a =>
      cases ks with
      | nil => rfl
      | cons k ks => cases k <;> rfl
    | _ => rfl

theorem mkConcat_renumber (d : Nat) (hs : List Hir) : mkConcat (renumberL d hs) = renumber d (mkConcat hs) := by
  unfold mkConcat
  rw [flatConcat_renumber, joinLits_renumber]
  generalize joinLits (flatConcat hs) = ks
  match ks with
  | [] => rfl
  | [_] => rfl
  | _ :: _ :: _ => rfl

theorem flatAlternation_renumber (d : Nat) : ∀ hs : List Hir, flatAlternation (renumberL d hs) = renumberL d (flatAlternation hs)
  | [] => rfl
  | h :: hs => by
    have ih := flatAlternation_renumber d hs
    cases h <;> simp only [renumberL, renumber, flatAlternation, ih]
    simp only [renumberL_map, List.map_append]

theorem isSingleton_renumber (d : Nat) (h : Hir) : isSingleton (renumber d h) = isSingleton h := by
  cases h <;> rfl

theorem isCls_renumber (d : Nat) (h : Hir) : isCls (renumber d h) = isCls h := by
  cases h <;> rfl

theorem mixedRanges_renumber (d : Nat) : ∀ hs : List Hir, mixedRanges (renumberL d hs) = mixedRanges hs
  | [] => rfl
  | h :: hs => by
    have ih := mixedRanges_renumber d hs
    rw [renumberL]
    cases h with
    | literal a =>
      match a with
      | [] => rfl
      | [c] => simp only [renumber, mixedRanges, ih]
      | _ :: _ :: _ => rfl
    | cls rs => simp only [renumber, mixedRanges, ih]
    | _ => rfl

theorem charRanges_renumber (d : Nat) (hs : List Hir) : charRanges (renumberL d hs) = charRanges hs := by
  unfold charRanges
  rw [mixedRanges_renumber, renumberL_map, List.all_map, List.all_map]
  simp only [Function.comp_def, isSingleton_renumber, isCls_renumber]

theorem commonPrefix_renumber (d : Nat) : ∀ as bs : List Hir,
    commonPrefix (renumberL d as) (renumberL d bs) = renumberL d (commonPrefix as bs)
  | [], _ => by simp only [renumberL, commonPrefix]
  | _ :: _, [] => by simp only [renumberL, commonPrefix]
  | a :: as, b :: bs => by
    simp only [renumberL, commonPrefix, commonPrefix_renumber d as bs]
    by_cases h : a = b
    · simp only [h, if_true, renumberL]
    · rw [if_neg h, if_neg fun h' => h (renumber_inj h'), renumberL]

theorem foldl_renumber (d : Nat) : ∀ (cs : List (List Hir)) (c : List Hir),
    (cs.map (renumberL d)).foldl commonPrefix (renumberL d c) = renumberL d (cs.foldl commonPrefix c)
  | [], _ => rfl
  | b :: cs, c => by rw [List.map_cons, List.foldl_cons, List.foldl_cons, commonPrefix_renumber, foldl_renumber]

theorem concats_renumber (d : Nat) : ∀ hs : List Hir, concats (renumberL d hs) = (concats hs).map fun cs => cs.map (renumberL d)
  | [] => rfl
  | h :: hs => by
    have ih := concats_renumber d hs
    rw [renumberL]
    cases h with
    | concat subs => simp only [renumber, concats, ih, Option.map_map, Function.comp_def, List.map_cons]
    | _ => rfl

theorem mkAlternationF_renumber (d : Nat) : ∀ (n : Nat) (hs : List Hir),
    mkAlternationF n (renumberL d hs) = renumber d (mkAlternationF n hs)
  | 0, hs => rfl
  | n + 1, hs => by
    rw [mkAlternationF, mkAlternationF, flatAlternation_renumber]
    generalize flatAlternation hs = ks
    match ks with
    | [] => rfl
    | [_] => rfl
    | a :: b :: ks =>
      have e1 := charRanges_renumber d (a :: b :: ks)
      have e2 := concats_renumber d (a :: b :: ks)
      simp only [renumberL] at e1 e2 ⊢
      rw [e1, e2]
      cases charRanges (a :: b :: ks) with
      | some rs => exact (mkClass_renumber d _).symm
      | none =>
        simp only []
        cases concats (a :: b :: ks) with
        | none => rfl
        | some cs =>
          cases cs with
          | nil => rfl
          | cons c cs =>
            simp only [Option.map_some, List.map_cons, foldl_renumber]
            cases hp : cs.foldl commonPrefix c with
            | nil => rfl
            | cons p ps =>
              have key : ∀ xs : List Hir, mkConcat ((renumberL d xs).drop (renumberL d (p :: ps)).length) =
                  renumber d (mkConcat (xs.drop (p :: ps).length)) := by
                intro xs
                rw [← mkConcat_renumber, renumberL_map, renumberL_map, renumberL_map, List.map_drop, List.length_map]
              have e3 : ((renumberL d c :: cs.map (renumberL d)).map fun xs => mkConcat (xs.drop (renumberL d (p :: ps)).length)) =
                  renumberL d ((c :: cs).map fun xs => mkConcat (xs.drop (p :: ps).length)) := by
                rw [renumberL_map d (List.map _ _), List.map_cons, List.map_cons, List.map_cons, List.map_map, List.map_map, key]
                congr 1
                exact List.map_congr_left fun xs _ => key xs
              show mkConcat (renumberL d (p :: ps) ++ [mkAlternationF n ((renumberL d c :: cs.map (renumberL d)).map fun xs =>
                mkConcat (xs.drop (renumberL d (p :: ps)).length))]) = _
              rw [e3, mkAlternationF_renumber d n, ← mkConcat_renumber]
              congr 1
              rw [renumberL_map d (p :: ps ++ _), List.map_append, ← renumberL_map d (p :: ps), List.map_singleton]
              rfl

theorem mkAlternation_renumber (d : Nat) (hs : List Hir) : mkAlternation (renumberL d hs) = renumber d (mkAlternation hs) := by
  rw [mkAlternation, mkAlternation, sizes_renumber, mkAlternationF_renumber]

end CE.Hir

namespace CE
open Regex Hir Spec

variable (T : Tables)

mutual
/-- The numbers of the groups do not matter for the translation. -/
theorem translate_renumber (d : Nat) : ∀ (a : Ast) (i : Nat), translate T a (i + d) =
    (renumber d (translate T a i).1, (translate T a i).2 + d)
  | .empty, _ => rfl
  | .lit _, _ => rfl
  | .dot, _ => by simp only [translate, mkClass_renumber]
  | .cls _, _ => by simp only [translate, mkClass_renumber]
  | .bol, _ => rfl
  | .eol, _ => rfl
  | .mark _, _ => rfl
  | .cap n a, i => by
    have h := translate_renumber d a (i + 1)
    rw [show i + 1 + d = i + d + 1 by omega] at h
    simp only [translate, h, renumber]
  | .group a, i => by simp only [translate, translate_renumber d a i]
  | .concat as, i => by simp only [translate, translateL_renumber d as i, mkConcat_renumber]
  | .alt as, i => by simp only [translate, translateL_renumber d as i, mkAlternation_renumber]
  | .rep a m n g, i => by simp only [translate, translate_renumber d a i, mkRepetition_renumber]
theorem translateL_renumber (d : Nat) : ∀ (as : List Ast) (i : Nat), translateL T as (i + d) =
    (renumberL d (translateL T as i).1, (translateL T as i).2 + d)
  | [], _ => rfl
  | a :: as, i => by simp only [translateL, translate_renumber d a i, translateL_renumber d as _, renumberL]
end

theorem andThen_later (d : Nat) (L : List Try) (f : List Char → List Try) :
    andThen (L.map fun a => (a.1, later d a.2)) (fun x => (f x).map fun a => (a.1, later d a.2)) =
      (andThen L f).map fun a => (a.1, later d a.2) := by
  simp [andThen, List.flatMap_map, List.map_flatMap, List.map_map, Function.comp_def, later]

theorem repTries_later (d : Nat) (body : List Char → List Char → List Try) (g : Bool) :
    ∀ (fuel m : Nat) (n : Option Nat) (pre rest : List Char),
      repTries (fun p q => (body p q).map fun a => (a.1, later d a.2)) g fuel m n pre rest =
        (repTries body g fuel m n pre rest).map fun a => (a.1, later d a.2)
  | 0, m, n, pre, rest => by
    simp only [repTries]; split <;> rfl
  | fuel + 1, m, n, pre, rest => by
    have hf : ((body pre rest).map fun a => (a.1, later d a.2)).filter (fun a => m != 0 || !a.1.isEmpty) =
        ((body pre rest).filter fun a => m != 0 || !a.1.isEmpty).map fun a => (a.1, later d a.2) := by
      rw [List.filter_map]; rfl
    simp only [repTries, repTries_later d body g fuel, hf, andThen_later]
    by_cases hn : n = some 0 <;> by_cases hm : m = 0 <;> cases g <;> simp [hn, hm, later]

mutual
theorem tries_renumber (d : Nat) : ∀ (h : Hir) (pre rest : List Char),
    (renumber d h).tries pre rest = (h.tries pre rest).map fun a => (a.1, later d a.2)
  | .empty, _, _ => rfl
  | .literal cs, _, rest => by simp only [renumber, tries]; split <;> rfl
  | .cls rs, _, rest => by
    simp only [renumber, tries]
    cases rest with
    | nil => rfl
    | cons c rest => simp only [oneChar]; split <;> rfl
  | .look .start, _, _ => by simp only [renumber, tries]; split <;> rfl
  | .look .finish, _, _ => by simp only [renumber, tries]; split <;> rfl
  | .look (.mark _ _), _, _ => by simp only [renumber, tries]; split <;> rfl
  | .repetition m n g sub, pre, rest => by
    simp only [renumber, tries]
    rw [show (fun p q => (renumber d sub).tries p q) = fun p q => (sub.tries p q).map fun a => (a.1, later d a.2) from
      funext fun p => funext fun q => tries_renumber d sub p q]
    exact repTries_later d _ g _ m n pre rest
  | .capture i name sub, pre, rest => by
    simp only [renumber, tries, tries_renumber d sub, List.map_map]
    exact List.map_congr_left fun a _ => rfl
  | .concat subs, pre, rest => by simp only [renumber, tries, catTries_renumber d subs]
  | .alternation subs, pre, rest => by simp only [renumber, tries, altTries_renumber d subs]
theorem catTries_renumber (d : Nat) : ∀ (hs : List Hir) (pre rest : List Char),
    catTries (renumberL d hs) pre rest = (catTries hs pre rest).map fun a => (a.1, later d a.2)
  | [], _, _ => rfl
  | h :: hs, pre, rest => by
    simp only [renumberL, catTries, tries_renumber d h, catTries_renumber d hs]
    exact andThen_later d _ _
theorem altTries_renumber (d : Nat) : ∀ (hs : List Hir) (pre rest : List Char),
    altTries (renumberL d hs) pre rest = (altTries hs pre rest).map fun a => (a.1, later d a.2)
  | [], _, _ => rfl
  | h :: hs, pre, rest => by
    simp only [renumberL, altTries, tries_renumber d h, altTries_renumber d hs, List.map_append]
end

end CE
