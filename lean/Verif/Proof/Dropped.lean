import Verif.Proof.Marked

/-! # The translation drops groups, but adds none -/

namespace CE
open Spec Regex Hir

def gs (hs : List Hir) : List (Option (List Char)) := ((toRes hs).map Re.groups).flatten

@[simp] theorem gs_nil : gs [] = [] := rfl
@[simp] theorem gs_cons (h : Hir) (hs : List Hir) : gs (h :: hs) = h.toRe.groups ++ gs hs := rfl
theorem gs_append (a b : List Hir) : gs (a ++ b) = gs a ++ gs b := by simp [gs, toRes_append]
theorem groups_concat (hs : List Hir) : (Hir.concat hs).toRe.groups = gs hs := by rw [toRe, groups_catL]; rfl
theorem groups_alternation (hs : List Hir) : (Hir.alternation hs).toRe.groups = gs hs := by rw [toRe, groups_altL]; rfl
theorem groups_mkConcat (hs : List Hir) : (mkConcat hs).toRe.groups = gs hs := by rw [(mkConcat_ok hs).1, groups_catL]; rfl

theorem gs_flatAlternation (hs : List Hir) : gs (flatAlternation hs) = gs hs := by
  induction hs with
  | nil => rfl
  | cons h hs ih =>
    cases h with
    | alternation subs => simp [flatAlternation, gs_append, ih, groups_alternation]
    | _ => simp [flatAlternation, ih]

theorem groups_mkRepetition (m : Nat) (n : Option Nat) (g : Bool) (h : Hir) :
    (mkRepetition m n g h).toRe.groups.Sublist h.toRe.groups := by
  have key : ∀ mn mx, (if mn = 0 ∧ mx = some 0 then Hir.empty else if mn = 1 ∧ mx = some 1 then h
      else .repetition mn mx g h).toRe.groups.Sublist h.toRe.groups := by
    intro mn mx
    split
    · exact List.nil_sublist _
    · split
      · exact List.Sublist.refl _
      · exact List.Sublist.refl _
  exact key _ _

theorem groups_mkAlternationF : ∀ (n : Nat) (hs : List Hir), (mkAlternationF n hs).toRe.groups.Sublist (gs hs)
  | 0, hs => by rw [mkAlternationF, groups_alternation]; exact List.Sublist.refl _
  | n + 1, hs => by
    rw [← gs_flatAlternation hs, mkAlternationF]
    generalize flatAlternation hs = ks
    split
    · exact List.nil_sublist _
    · simp
    · split
      · rw [(mkClass_like _).1]; exact List.nil_sublist _
      · split
        · rw [groups_alternation]; exact List.Sublist.refl _
        · rw [groups_alternation]; exact List.Sublist.refl _
        · rename_i c cs hc
          have hcc := concats_eq _ _ hc
          split
          · rw [groups_alternation]; exact List.Sublist.refl _
          · have hpre := (foldl_prefix cs c).1
            generalize cs.foldl commonPrefix c = p at *
            rw [groups_mkConcat, gs_append, gs_cons, gs_nil, List.append_nil, hcc]
            refine (List.Sublist.append_left (groups_mkAlternationF n _) _).trans ?_
            obtain ⟨t, rfl⟩ := hpre
            simp only [List.map_cons, gs_cons, groups_mkConcat, groups_concat, List.drop_left, gs_append, List.append_assoc]
            refine List.Sublist.append_left (List.Sublist.append_left ?_ _) _
            clear hc hcc
            induction cs with
            | nil => exact List.nil_sublist _
            | cons d cs ih =>
              simp only [List.map_cons, gs_cons, groups_mkConcat, groups_concat]
              refine List.Sublist.append ?_ ih
              have : gs d = gs (d.take p.length) ++ gs (d.drop p.length) := by rw [← gs_append, List.take_append_drop]
              rw [this]
              exact List.sublist_append_right _ _

mutual
theorem translate_groups (T : Tables) : ∀ (a : Ast) (i : Nat), (translate T a i).1.toRe.groups.Sublist a.toRe.groups
  | .empty, _ => List.Sublist.refl _
  | .lit c, _ => List.Sublist.refl _
  | .dot, _ => by rw [translate, (mkClass_like _).1]; exact List.nil_sublist _
  | .cls k, _ => by rw [translate, (mkClass_like _).1]; exact List.nil_sublist _
  | .bol, _ => List.Sublist.refl _
  | .eol, _ => List.Sublist.refl _
  | .mark _, _ => List.Sublist.refl _
  | .cap n a, i => (translate_groups T a (i + 1)).cons_cons _
  | .group a, i => translate_groups T a i
  | .concat as, i => by
    rw [translate, groups_mkConcat, Ast.toRe, groups_catL]
    exact translateL_groups T as i
  | .alt as, i => by
    rw [translate, Ast.toRe, groups_altL]
    exact (groups_mkAlternationF _ _).trans (translateL_groups T as i)
  | .rep a m n g, i => (groups_mkRepetition ..).trans (translate_groups T a i)
theorem translateL_groups (T : Tables) : ∀ (as : List Ast) (i : Nat),
    (gs (translateL T as i).1).Sublist ((Ast.toRes as).map Re.groups).flatten
  | [], _ => List.nil_sublist _
  | a :: as, i => by
    rw [translateL, gs_cons]
    exact (translate_groups T a i).append (translateL_groups T as _)
end

end CE
