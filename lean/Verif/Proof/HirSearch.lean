import Verif.Proof.Same

/-! # Searching with the HIR: where nothing is moved, the matches are tried in the same order -/

namespace CE
open Spec Regex Hir

variable (T : Tables)

mutual
/-- What is repeated can match something; nothing is moved out of alternations. -/
def Settled : Ast → Nat → Prop
  | .cap _ a, i => Settled a (i + 1)
  | .group a, i => Settled a i
  | .concat as, i => AllSettled as i
  | .alt as, i => AllSettled as i ∧ Unlifted (translateL T as i).1
  | .rep a _ _ _, i => Settled a i ∧ ¬ (translate T a i).1.Light
  | _, _ => True
def AllSettled : List Ast → Nat → Prop
  | [], _ => True
  | a :: as, i => Settled a i ∧ AllSettled as (translate T a i).2
end

mutual
theorem translate_next : ∀ (a : Ast) (i : Nat), (translate T a i).2 = i + a.toRe.groups.length
  | .empty, i => rfl
  | .lit _, i => rfl
  | .dot, i => rfl
  | .cls _, i => rfl
  | .bol, i => rfl
  | .eol, i => rfl
  | .mark _, i => rfl
  | .cap n a, i => by rw [translate, Ast.toRe, Re.groups, translate_next a, List.length_cons]; omega
  | .group a, i => translate_next a i
  | .concat as, i => by rw [translate, Ast.toRe, groups_catL, translateL_next as]
  | .alt as, i => by rw [translate, Ast.toRe, groups_altL, translateL_next as]
  | .rep a m n g, i => translate_next a i
theorem translateL_next : ∀ (as : List Ast) (i : Nat),
    (translateL T as i).2 = i + ((Ast.toRes as).map Re.groups).flatten.length
  | [], i => rfl
  | a :: as, i => by
    rw [translateL, translateL_next as, translate_next a]
    simp [Ast.toRes]; omega
end

theorem mem_dotRanges (c : Char) : Ranges.mem dotRanges c = true ↔ c ≠ '\n' := by
  have h2 := Ranges.valid_toNat c
  have h3 : c = '\n' ↔ c.toNat = 10 := by
    rw [← Char.toNat_inj]; rfl
  simp only [Ranges.mem, dotRanges, List.any_cons, List.any_nil, Bool.or_false, Bool.or_eq_true, decide_eq_true_eq,
    Ranges.le_iff_toNat, ne_eq, h3]
  have e0 : (Char.ofNat 0).toNat = 0 := rfl
  have e1 : (Char.ofNat 9).toNat = 9 := rfl
  have e2 : (Char.ofNat 11).toNat = 11 := rfl
  have e3 : (Char.ofNat 0x10FFFF).toNat = 0x10FFFF := rfl
  rw [e0, e1, e2, e3]
  omega

mutual
theorem translate_same : ∀ (a : Ast) (i : Nat), a.Valid → Settled T a i → ∀ pre rest,
    Same ((translate T a i).1.tries pre rest) (a.toRe.tries T.tests i pre rest)
  | .empty, i, _, _, pre, rest => .refl _
  | .lit c, i, _, _, pre, rest => .of_eq (tries_char c pre rest)
  | .dot, i, _, _, pre, rest => by
    refine .of_eq ((tries_mkClass dotRanges pre rest).trans (oneChar_congr (q := (· != '\n')) (fun c => ?_) rest))
    rw [Bool.eq_iff_iff, mem_dotRanges]; simp
  | .cls k, i, hv, _, pre, rest => by
    refine .of_eq ((tries_mkClass _ _ _).trans (oneChar_congr (fun c => ?_) rest))
    rw [Bool.eq_iff_iff, test_cls]
    exact (T.cls_ok hv).2 c
  | .bol, i, _, _, pre, rest => .refl _
  | .eol, i, _, _, pre, rest => .refl _
  | .mark _, i, _, _, pre, rest => .refl _
  | .cap n a, i, hv, hs, pre, rest => (translate_same a (i + 1) hv.2 hs pre rest).map _
  | .group a, i, hv, hs, pre, rest => translate_same a i hv hs pre rest
  | .concat as, i, hv, hs, pre, rest => by
    rw [translate, Ast.toRe]
    exact (Same.of_eq (tries_mkConcat _ _ _)).trans (translateL_cat as i hv hs pre rest)
  | .alt as, i, hv, hs, pre, rest => by
    rw [translate, Ast.toRe]
    refine (same_unlifted _ _ hs.2 pre rest).trans (translateL_alt as i ?_ hv.2 hs.1 pre rest)
    rintro rfl; simp [Ast.Valid] at hv
  | .rep a m n g, i, hv, hs, pre, rest => by
    rw [translate, Ast.toRe]
    exact (Same.of_eq (tries_mkRepetition hs.2 pre rest)).trans
      (Same.repTries (fun p r => translate_same a i hv.1 hs.1 p r) g _ _ _ _ _)
theorem translateL_cat : ∀ (as : List Ast) (i : Nat), Ast.AllValid as → AllSettled T as i → ∀ pre rest,
    Same (catTries (translateL T as i).1 pre rest) ((catL (Ast.toRes as)).tries T.tests i pre rest)
  | [], i, _, _, pre, rest => .refl _
  | a :: as, i, hv, hs, pre, rest => by
    rw [translateL, Ast.toRes, tries_catL_cons, catTries]
    refine (translate_same a i hv.1 hs.1 pre rest).andThen fun x => ?_
    rw [← translate_next T]
    exact translateL_cat as _ hv.2 hs.2 _ _
theorem translateL_alt : ∀ (as : List Ast) (i : Nat), as ≠ [] → Ast.AllValid as → AllSettled T as i → ∀ pre rest,
    Same (altTries (translateL T as i).1 pre rest) ((altL (Ast.toRes as)).tries T.tests i pre rest)
  | [], i, h, _, _, pre, rest => absurd rfl h
  | [a], i, _, hv, hs, pre, rest => by
    simp only [translateL, Ast.toRes, altTries, altL, List.append_nil]
    exact translate_same a i hv.1 hs.1 pre rest
  | a :: b :: as, i, _, hv, hs, pre, rest => by
    rw [translateL, altTries]
    refine (translate_same a i hv.1 hs.1 pre rest).append ?_
    rw [← translate_next T]
    exact translateL_alt (b :: as) _ (by simp) hv.2 hs.2 pre rest
end

end CE
