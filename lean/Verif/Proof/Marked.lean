import Verif.Proof.Translate

/-! # Which groups are inside repetitions: what the translation keeps -/

namespace CE.Hir
open Spec Regex

def marks (hs : List Hir) : List (Option (List Char) × Bool) := ((toRes hs).map Re.marked).flatten

theorem marks_append (a b : List Hir) : marks (a ++ b) = marks a ++ marks b := by
  simp [marks, toRes_append]

theorem marks_cons (h : Hir) (hs : List Hir) : marks (h :: hs) = h.toRe.marked ++ marks hs := rfl

theorem marked_literal (cs : List Char) : (Hir.literal cs).toRe.marked = [] := marked_lits cs

theorem marked_concat (hs : List Hir) : (Hir.concat hs).toRe.marked = marks hs := marked_catL _
theorem marked_alternation (hs : List Hir) : (Hir.alternation hs).toRe.marked = marks hs := marked_altL _

theorem marked_nil_of_indices {h : Hir} (hi : h.indices = []) : h.toRe.marked = [] := by
  apply List.eq_nil_of_length_eq_zero
  rw [marked_length', groups_length, hi]; rfl
where
  marked_length' : ∀ {r : Re}, r.marked.length = r.groups.length := by
    intro r
    induction r with
    | cap n r ih => simp [Re.marked, Re.groups, ih]
    | cat a b iha ihb => simp [Re.marked, Re.groups, iha, ihb]
    | alt a b iha ihb => simp [Re.marked, Re.groups, iha, ihb]
    | rep => simp [Re.marked, Re.groups]
    | _ => rfl

theorem marks_nil_of_indices {hs : List Hir} (hi : indicesL hs = []) : marks hs = [] := by
  induction hs with
  | nil => rfl
  | cons h hs ih =>
    simp only [indicesL, List.append_eq_nil_iff] at hi
    rw [marks_cons, marked_nil_of_indices hi.1, ih hi.2]; rfl

theorem marks_flatConcat : ∀ hs : List Hir, marks (flatConcat hs) = marks hs
  | [] => rfl
  | h :: hs => by
    have ih := marks_flatConcat hs
    cases h with
    | concat subs => rw [flatConcat, marks_append, ih, marks_cons, marked_concat]
    | empty => rw [flatConcat, ih]; rfl
    | _ => rw [flatConcat, marks_cons, marks_cons, ih]; all_goals simp

theorem marks_joinLits : ∀ hs : List Hir, marks (joinLits hs) = marks hs
  | [] => rfl
  | h :: hs => by
    have ih := marks_joinLits hs
    rw [joinLits.eq_def]
    simp only []
    split
    · rename_i a b rest he
      rw [he] at ih
      rw [marks_cons, marks_cons, ← ih, marks_cons, marked_literal, marked_literal, marked_literal]
      rfl
    · rw [marks_cons, marks_cons, ih]

theorem mkConcat_marked (hs : List Hir) : (mkConcat hs).toRe.marked = marks hs := by
  rw [← marks_flatConcat, ← marks_joinLits]
  unfold mkConcat
  split
  · rename_i he; rw [he]; rfl
  · rename_i k he; rw [he]; simp [marks, toRes]
  · exact marked_concat _

theorem marks_flatAlternation : ∀ hs : List Hir, marks (flatAlternation hs) = marks hs
  | [] => rfl
  | h :: hs => by
    have ih := marks_flatAlternation hs
    cases h with
    | alternation subs => rw [flatAlternation, marks_append, ih, marks_cons, marked_alternation]
    | _ => rw [flatAlternation, marks_cons, marks_cons, ih]; simp

theorem marks_concats (cs : List (List Hir)) : marks (cs.map .concat) = (cs.map marks).flatten := by
  induction cs with
  | nil => rfl
  | cons c cs ih => rw [List.map_cons, marks_cons, marked_concat, ih]; rfl

theorem marks_mkConcats (cs : List (List Hir)) : marks (cs.map mkConcat) = (cs.map marks).flatten := by
  induction cs with
  | nil => rfl
  | cons c cs ih => rw [List.map_cons, marks_cons, mkConcat_marked, ih]; rfl

theorem mkAlternationF_marked : ∀ (n : Nat) (subs : List Hir), WfAll subs → (indicesL subs).Nodup →
    (mkAlternationF n subs).toRe.marked = marks subs
  | 0, subs, _, _ => marked_alternation subs
  | n + 1, subs, hw, hi => by
    have f2 := flatAlternation_wf subs hw
    rw [← flatAlternation_indices subs] at hi
    rw [← marks_flatAlternation, mkAlternationF]
    generalize flatAlternation subs = hs at *
    split
    · rfl
    · simp [marks, toRes]
    · rename_i hlong
      split
      · rename_i rs hr
        rw [marked_nil_of_indices (mkClass_like _).2.1]
        exact (marks_nil_of_indices (mixedRanges_ok hs rs (charRanges_mixed hr) f2).2.1).symm
      · split
        · exact marked_alternation _
        · exact marked_alternation _
        · rename_i c cs hcc
          have hcs := concats_eq hs _ hcc
          split
          · exact marked_alternation _
          · rename_i p hp
            generalize hpp : cs.foldl commonPrefix c = p at *
            have hpre : ∀ d ∈ c :: cs, p <+: d := by
              have := foldl_prefix cs c
              rw [hpp] at this
              intro d hd
              rcases List.mem_cons.1 hd with rfl | hd
              · exact this.1
              · exact this.2 d hd
            have hsplit : ∀ d ∈ c :: cs, p ++ d.drop p.length = d := fun d hd => by
              obtain ⟨t, ht⟩ := hpre d hd
              rw [← ht]; simp
            have hpi : indicesL p = [] := by
              obtain ⟨c', cs', rfl⟩ : ∃ c' cs', cs = c' :: cs' := by
                cases cs with
                | nil => exact absurd hcs (fun h => hlong _ h)
                | cons c' cs' => exact ⟨_, _, rfl⟩
              rw [hcs, indicesL_concats] at hi
              have e1 := hsplit c (by simp)
              have e2 := hsplit c' (by simp)
              rw [← e1, ← e2] at hi
              simp only [List.map_cons, List.flatten_cons, indicesL_append, List.append_assoc] at hi
              cases hq : indicesL p with
              | nil => rfl
              | cons i is => rw [hq] at hi; simp at hi
            have hd : ∀ d ∈ c :: cs, marks (d.drop p.length) = marks d ∧ indicesL (d.drop p.length) = indicesL d := by
              intro d hd
              have := hsplit d hd
              constructor
              · rw [← congrArg marks this, marks_append, marks_nil_of_indices hpi]; rfl
              · rw [← congrArg indicesL this, indicesL_append, hpi]; rfl
            have e0 : (c :: cs).map (fun xs => mkConcat (xs.drop p.length)) = ((c :: cs).map fun xs => xs.drop p.length).map mkConcat := by
              rw [List.map_map]; rfl
            have hii : indicesL ((c :: cs).map fun xs => mkConcat (xs.drop p.length)) = indicesL hs := by
              rw [e0, indicesL_mkConcats, hcs, indicesL_concats, List.map_map]
              congr 1
              exact List.map_congr_left fun d hd' => (hd d hd').2
            have ih := mkAlternationF_marked n ((c :: cs).map fun xs => mkConcat (xs.drop p.length))
              ((wfAll_iff _).2 fun k hk => by
                obtain ⟨d, hd, rfl⟩ := List.mem_map.1 hk
                refine mkConcat_wf _ ((wfAll_iff _).2 fun x hx => ?_)
                exact (wfAll_iff _).1 ((wfAll_iff _).1 f2 (.concat d) (by rw [hcs]; exact List.mem_map.2 ⟨d, hd, rfl⟩)) x
                  (List.mem_of_mem_drop hx)) (by rw [hii]; exact hi)
            rw [mkConcat_marked, marks_append, marks_nil_of_indices hpi, marks_cons, ih, e0, marks_mkConcats, hcs, marks_concats, List.map_map]
            simp only [marks, toRes, List.map_nil, List.flatten_nil, List.append_nil, List.nil_append]
            congr 1
            exact List.map_congr_left fun d hd' => (hd d hd').1

end CE.Hir

namespace CE
open Spec Regex Hir

variable (T : Tables)

mutual
theorem translate_marked : ∀ (a : Ast) (i : Nat), a.Valid → a.Regular → (translate T a i).1.toRe.marked = a.marked
  | .empty, _, _, _ => rfl
  | .lit _, _, _, _ => rfl
  | .dot, _, _, _ => marked_nil_of_indices (mkClass_like dotRanges).2.1
  | .cls k, _, _, _ => marked_nil_of_indices (mkClass_like (T.cls k)).2.1
  | .bol, _, _, _ => rfl
  | .eol, _, _, _ => rfl
  | .mark _, _, _, _ => rfl
  | .cap n a, i, hv, hr => by
    rw [translate, Hir.toRe, Re.marked, translate_marked a _ hv.2 hr]; rfl
  | .group a, i, hv, hr => translate_marked a i hv hr
  | .concat as, i, hv, hr => by
    rw [translate, mkConcat_marked, translateL_marked as i hv hr]; rfl
  | .alt as, i, hv, hr => by
    have ih := translates_ok T as i hv.2 hr
    rw [translate]
    refine (mkAlternationF_marked _ _ ih.wf (by rw [ih.indices]; exact List.nodup_range' ..)).trans ?_
    rw [translateL_marked as i hv.2 hr]; rfl
  | .rep a m n g, i, hv, hr => by
    have ih := translate_ok T a i hv.1 hr.1
    have im := translate_marked a i hv.1 hr.1
    rcases hr.2.1 with hg | ⟨h0, hw⟩
    · have ok := translate_ok T (.rep a m n g) i hv hr
      rw [marked_nil_of_indices (by rw [ok.indices, Ast.toRe, Re.groups, hg]; rfl), Ast.marked, hg]
      split
      · rw [← im, marked_nil_of_indices (by rw [ih.indices, hg]; rfl)]
      · rfl
    · have e : mkRepetition m n g (translate T a i).1 =
          if m = 1 ∧ n = some 1 then (translate T a i).1 else .repetition m n g (translate T a i).1 := by
        have hn : ¬ (m = 0 ∧ n = some 0) := fun h => h0 h.2
        unfold mkRepetition
        by_cases hl : (translate T a i).1.Light
        · have h1 := hw (ih.light.1 hl)
          subst h1
          have hm := hv.2 1 rfl
          have : m.min 1 = m := by show min m 1 = m; omega
          rw [if_pos hl]
          have h11 : Nat.min 1 1 = 1 := rfl
          simp only [this, h11]
          rw [if_neg (by simp)]
        · rw [if_neg hl]
          simp only [if_neg hn]
      rw [translate, Ast.marked]
      simp only [e]
      split
      · exact im
      · rw [Hir.toRe, Re.marked, ih.groups]
theorem translateL_marked : ∀ (as : List Ast) (i : Nat), Ast.AllValid as → Ast.AllRegular as →
    marks (translateL T as i).1 = Ast.allMarked as
  | [], _, _, _ => rfl
  | a :: as, i, hv, hr => by
    rw [translateL, marks_cons, translate_marked a i hv.1 hr.1, translateL_marked as _ hv.2 hr.2]; rfl
end

end CE
