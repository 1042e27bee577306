import Verif.Proof.Normal
import Verif.Proof.Renumber
import Verif.Proof.ExprAst

/-! # A HIR in normal form is what its printed form is translated into -/

namespace CE.Regex
open Hir Spec

/-! ## The syntax tree of the printed form -/

def markAst : Mark → Ast
  | .word => .mark .word
  | .nonWord => .mark .nonWord
  | .lineStart => .group (.mark .lineStart)
  | .lineEnd => .group (.mark .lineEnd)

mutual
def astOf : Hir → Ast
  | .empty => .group .empty
  | .literal cs => if 1 < cs.length then .group (catA (cs.map .lit)) else catA (cs.map .lit)
  | .cls rs => .cls ⟨false, classItems rs⟩
  | .look .start => .bol
  | .look .finish => .eol
  | .look (.mark k _) => markAst k
  | .repetition m n g sub => .rep (astOf sub) m n (n == some m || g)
  | .capture _ name sub => .cap name (astOf sub)
  | .concat subs => .group (catA (astOfs subs))
  | .alternation subs => .group (altA (astOfs subs))
def astOfs : List Hir → List Ast
  | [] => []
  | h :: hs => astOf h :: astOfs hs
end

theorem astOfs_map (hs : List Hir) : astOfs hs = hs.map astOf := by
  induction hs with
  | nil => rfl
  | cons h hs ih => simp [astOfs, ih]

/-- The tokens add one item that a following `?` does not make lazy. -/
def AAtom (ts : List Tok) (a : Ast) : Prop :=
  ∀ st br it fr rest, buildA st ⟨br, it, fr⟩ (ts ++ rest) = buildA st ⟨br, a :: it, false⟩ rest

theorem AAtom.reads {ts : List Tok} {a : Ast} (h : AAtom ts a) : AReadsAs ts [a] :=
  fun fr => ⟨false, fun st br it rest => h st br it fr rest⟩

theorem AAtom.grouped {bs : List (List Tok × List Ast)} (hne : bs ≠ []) (hb : ∀ b ∈ bs, AReadsAs b.1 b.2) :
    AAtom (.group :: barred (bs.map (·.1)) ++ [.close]) (.group (altA (bs.map (fun b => catA b.2)))) := by
  intro st br it fr rest
  obtain ⟨f, h⟩ := areadBranches bs hne hb false
  obtain ⟨it', br', h1, h2⟩ := h ((.group, ⟨br, it, fr⟩) :: st) [] (.close :: rest)
  simp only [List.cons_append, List.append_assoc, List.nil_append, buildA, AFrame.start]
  rw [h1]
  simp only [List.append_nil] at h2
  simp [buildA, AFrame.push, Kind.wrapA, AFrame.finish, h2]

theorem AAtom.captured {name : Option (List Char)} {ts : List Tok} {a : Ast} (h : AReadsAs ts [a]) :
    AAtom (.capture name :: ts ++ [.close]) (.cap name a) := by
  intro st br it fr rest
  obtain ⟨f, h⟩ := h false
  simp only [List.cons_append, List.append_assoc, buildA, AFrame.start]
  rw [h]
  simp [buildA, AFrame.push, Kind.wrapA, AFrame.finish, altA, catA]

theorem buildA_rep {ts : List Tok} {r : Ast} (h : AReadsAs ts [r]) (m : Nat) (n : Option Nat) (g : Bool)
    (h1 : ¬ (m = 1 ∧ n = some 1)) (h2 : m = 0 ∧ n = some 1 → AAtom ts r) (st : List (Kind × AFrame)) (br : List Ast) (it : List Ast)
    (fr : Bool) (rest : List Tok) : buildA st ⟨br, it, fr⟩ (ts ++ repToks m n g ++ rest) =
      buildA st ⟨br, .rep r m n (n == some m || g) :: it, n == some m || g⟩ rest := by
  have key : ∀ (op : Tok) (g' : Bool), (∀ fr', (m = 0 ∧ n = some 1 → fr' = false) → buildA st ⟨br, r :: it, fr'⟩ (op :: (lazyToks g' ++ rest)) =
      buildA st ⟨br, .rep r m n true :: it, true⟩ (lazyToks g' ++ rest)) →
      buildA st ⟨br, it, fr⟩ (ts ++ (op :: lazyToks g') ++ rest) = buildA st ⟨br, .rep r m n g' :: it, g'⟩ rest := by
    intro op g' hop
    have hts : ∃ fr', (m = 0 ∧ n = some 1 → fr' = false) ∧ ∀ rest, buildA st ⟨br, it, fr⟩ (ts ++ rest) = buildA st ⟨br, r :: it, fr'⟩ rest := by
      by_cases hq : m = 0 ∧ n = some 1
      · exact ⟨false, fun _ => rfl, fun rest => h2 hq st br it fr rest⟩
      · obtain ⟨fr', h⟩ := h fr
        exact ⟨fr', fun h => absurd h hq, fun rest => h st br it rest⟩
    obtain ⟨fr', hf, hts⟩ := hts
    rw [List.append_assoc, hts, List.cons_append, hop fr' hf]
    cases g'
    · rfl
    · rfl
  unfold repToks
  split
  · exact key .quest g (fun fr' hf => by rw [hf ⟨rfl, rfl⟩]; rfl)
  · exact key .star g (fun _ _ => rfl)
  · exact key .plus g (fun _ _ => rfl)
  · exact absurd ⟨rfl, rfl⟩ h1
  · simpa using key (.count m none) g (fun _ _ => rfl)
  · rename_i k _ _
    split
    · rename_i hmk
      subst hmk
      simpa [lazyToks] using key (.count m (some m)) true (fun _ _ => rfl)
    · rename_i hmk
      have : (some k == some m) = false := by simpa using fun h => hmk h.symm
      rw [this, Bool.false_or]
      exact key (.count m (some k)) g (fun _ _ => rfl)

/-- The tokens of a printed HIR are read as this tree. -/
def AGood (h : Hir) : Prop := AReadsAs (hirToks h) [astOf h] ∧ (h.eager = false → AAtom (hirToks h) (astOf h))

theorem AGood.of_atom {h : Hir} (h2 : AAtom (hirToks h) (astOf h)) : AGood h := ⟨h2.reads, fun _ => h2⟩

mutual
theorem agood : ∀ h : Hir, h.Wf → AGood h
  | .empty, _ => .of_atom (fun _ _ _ _ _ => rfl)
  | .literal cs, hw => by
    refine .of_atom ?_
    simp only [hirToks, astOf]
    split
    · have := AAtom.grouped (bs := [(cs.map .lit, cs.map .lit)]) (by simp) (by simpa using AReadsAs.lits cs)
      simpa [barred, altA] using this
    · rename_i hlen
      cases cs with
      | nil => exact absurd rfl hw
      | cons c cs =>
        cases cs with
        | nil => exact fun _ _ _ _ _ => rfl
        | cons d cs => simp at hlen
  | .cls rs, hw => .of_atom (fun _ _ _ _ _ => rfl)
  | .look .start, _ => .of_atom (fun _ _ _ _ _ => rfl)
  | .look .finish, _ => .of_atom (fun _ _ _ _ _ => rfl)
  | .look (.mark k _), _ => .of_atom (by cases k <;> exact fun _ _ _ _ _ => rfl)
  | .repetition m n g sub, hw => by
    obtain ⟨h1, h2, h3, h4⟩ := hw
    obtain ⟨g2, g3⟩ := agood sub h1
    have hb := buildA_rep g2 m n g (not_one h4) (fun h => g3 (by
      cases he : sub.eager
      · rfl
      · exact absurd ⟨he, h⟩ h2))
    refine ⟨fun fr => ⟨n == some m || g, fun st br it rest => hb st br it fr rest⟩, fun he st br it fr rest => ?_⟩
    have := hb st br it fr rest
    simp only [eager] at he
    simp only [he] at this
    simpa only [hirToks, astOf, he] using this
  | .capture i name sub, hw => .of_atom (AAtom.captured (agood sub hw.1).1)
  | .concat subs, hw => by
    have hg := agoods subs hw
    refine .of_atom ?_
    have hr : AReadsAs (catToks subs) (astOfs subs) := by
      clear hw
      induction subs with
      | nil => exact .nil
      | cons h hs ih => exact (hg h (by simp)).1.append (ih fun x hx => hg x (by simp [hx]))
    have := AAtom.grouped (bs := [(catToks subs, astOfs subs)]) (by simp) (by simpa using hr)
    simpa [hirToks, astOf, barred, altA] using this
  | .alternation subs, hw => by
    have hg := agoods subs hw.2
    refine .of_atom ?_
    have := AAtom.grouped (bs := subs.map fun h => (hirToks h, [astOf h])) (by simpa using hw.1) (by
      intro b hb
      obtain ⟨h, hh, rfl⟩ := List.mem_map.1 hb
      exact (hg h hh).1)
    simpa [hirToks, astOf, listToks_eq, astOfs_map, List.map_map, Function.comp_def, catA] using this
theorem agoods : ∀ hs : List Hir, WfAll hs → ∀ h ∈ hs, AGood h
  | [], _, _, hm => absurd hm (by simp)
  | h :: hs, hw, x, hm => by
    by_cases hx : x = h
    · rw [hx]; exact agood h hw.1
    · exact agoods hs hw.2 x ((List.mem_cons.1 hm).resolve_left hx)
termination_by structural hs => hs
end

end CE.Regex

namespace CE.Ranges
open Spec Regex

theorem ord_succ {a b : Char} (h : a.toNat + 1 = b.toNat) : ord b = ord a + 1 := by
  have h1 := valid_toNat a
  have h2 := valid_toNat b
  unfold ord
  split <;> split <;> omega

theorem canon_items (T : Tables) : ∀ {rs : List (Char × Char)}, Canonical rs → canon ((rs.flatMap rangeItems).flatMap T.item) = rs
  | [], _ => rfl
  | (a, b) :: rs, h => by
    obtain ⟨h1, h2, h3⟩ := h
    have ih := canon_items T h3
    rw [List.flatMap_cons, List.flatMap_append]
    unfold rangeItems
    simp only []
    split
    · rename_i hab
      subst hab
      simp only [List.flatMap_cons, List.flatMap_nil, Tables.item, List.append_nil, List.cons_append, List.nil_append, canon]
      exact (congrArg _ ih).trans (insert_first h2)
    · split
      · rename_i hne hab
        have hs := ord_succ hab
        simp only [List.flatMap_cons, List.flatMap_nil, Tables.item, List.append_nil, List.cons_append, List.nil_append, canon]
        refine (congrArg _ (congrArg _ ih)).trans ?_
        have hle : a ≤ b := (le_iff _ _).2 h1
        rw [insert_first h2, insert, if_neg (by omega), if_neg (by omega), if_pos hle, if_pos hle]
        exact insert_first h2
      · simp only [List.flatMap_cons, List.flatMap_nil, Tables.item, List.append_nil, List.cons_append, List.nil_append, canon]
        exact (congrArg _ ih).trans (insert_first h2)

theorem canon_classItems (T : Tables) : ∀ {rs : List (Char × Char)}, Canonical rs → canon ((classItems rs).flatMap T.item) = rs
  | [], _ => rfl
  | _ :: _, h => canon_items T h

end CE.Ranges

namespace CE
open Spec Regex Hir

variable (T : Tables)

theorem translateL_chars (cs : List Char) (i : Nat) : translateL T (cs.map .lit) i = (cs.map fun c => .literal [c], i) := by
  induction cs with
  | nil => rfl
  | cons c cs ih => simp [translateL, translate, mkLiteral, ih]

theorem mkConcat_chars {c : Char} : ∀ {cs : List Char}, joinLits (flatConcat ((c :: cs).map fun c => .literal [c])) = [.literal (c :: cs)] := by
  intro cs
  induction cs generalizing c with
  | nil => rfl
  | cons d cs ih =>
    have := ih (c := d)
    rw [List.map_cons, flatConcat, joinLits.eq_def]
    · simp only [this]; rfl
    · intro _ h; cases h
    · intro h; cases h

theorem range'_split {i n : Nat} {a b : List Nat} (h : a ++ b = List.range' i n) :
    a = List.range' i a.length ∧ b = List.range' (i + a.length) b.length := by
  have hn : n = a.length + b.length := by
    have := congrArg List.length h
    simp at this; omega
  subst hn
  rw [← List.range'_append_1] at h
  exact List.append_inj h (by simp)

mutual
/-- Translating the syntax tree of the printed form gives the HIR back. -/
theorem translate_astOf : ∀ (h : Hir) (i : Nat), h.Normal T.word → h.indices = List.range' i h.indices.length →
    translate T (astOf h) i = (h, i + h.indices.length)
  | .empty, _, _, _ => rfl
  | .literal cs, i, hn, _ => by
    match cs, hn with
    | [c], _ => rfl
    | c :: d :: cs, _ =>
      have e : astOf (.literal (c :: d :: cs)) = .group (.concat ((c :: d :: cs).map .lit)) := by simp [astOf, catA]
      rw [e, translate, translate, translateL_chars, mkConcat, mkConcat_chars]
      rfl
  | .cls rs, i, hn, _ => by
    have e : T.cls ⟨false, classItems rs⟩ = rs := by
      simp only [Tables.cls, Bool.false_eq_true, if_false]
      exact Ranges.canon_classItems T hn.1
    rw [astOf, translate, e, mkClass_id hn.2]
    rfl
  | .look .start, _, _, _ => rfl
  | .look .finish, _, _, _ => rfl
  | .look (.mark k t), _, hn, _ => by obtain rfl : t = T.word := hn; cases k <;> rfl
  | .repetition m n g sub, i, hn, hi => by
    have ih := translate_astOf sub i hn.1 hi
    have hg : (n == some m || g) = g := by
      by_cases h : n = some m
      · rw [hn.2.2 h]; simp
      · simp [h]
    rw [astOf, translate, ih, hg, hn.2.1]
    rfl
  | .capture j name sub, i, hn, hi => by
    have hi : j :: sub.indices = List.range' i (sub.indices.length + 1) := hi
    rw [List.range'_succ, List.cons.injEq] at hi
    obtain ⟨rfl, hi⟩ := hi
    have ih := translate_astOf sub (j + 1) hn hi
    rw [astOf, translate, ih, indices, List.length_cons]
    simp only [Prod.mk.injEq, true_and]
    omega
  | .concat subs, i, hn, hi => by
    have ih := translates_astOf subs i hn.2 hi
    have hl := hn.1.1
    have e : catA (astOfs subs) = .concat (astOfs subs) := by
      match subs, hl with
      | _ :: _ :: _, _ => rfl
    rw [astOf, translate, e, translate, ih, mkConcat_id hn.1]
    rfl
  | .alternation subs, i, hn, hi => by
    have ih := translates_astOf subs i hn.2 hi
    have hl := hn.1.1
    have e : altA (astOfs subs) = .alt (astOfs subs) := by
      match subs, hl with
      | _ :: _ :: _, _ => rfl
    rw [astOf, translate, e, translate, ih, mkAlternation_id hn.1]
    rfl
theorem translates_astOf : ∀ (hs : List Hir) (i : Nat), AllNormal T.word hs → indicesL hs = List.range' i (indicesL hs).length →
    translateL T (astOfs hs) i = (hs, i + (indicesL hs).length)
  | [], _, _, _ => rfl
  | h :: hs, i, hn, hi => by
    obtain ⟨h1, h2⟩ := range'_split (by rw [indicesL] at hi; exact hi)
    have ih1 := translate_astOf h i hn.1 h1
    have ih2 := translates_astOf hs (i + h.indices.length) hn.2 h2
    rw [astOfs, translateL, ih1, ih2, indicesL, List.length_append]
    simp only [Prod.mk.injEq, true_and]
    omega
end

end CE
