import Verif.Proof.Adequate
import Verif.Prop.Translate

/-! # What is printed is a regex -/

namespace CE
open Spec Regex Hir

/-! ## Reading one item -/

/-- The tokens are read as one item. -/
def OneItem (ts : List Tok) (r : Re) : Prop :=
  ∃ f, ∀ st br it fr rest, build st ⟨br, it, fr⟩ (ts ++ rest) = build st ⟨br, r :: it, f⟩ rest

theorem OneItem.readsAs {ts : List Tok} {r : Re} (h : OneItem ts r) : ReadsAs ts [r] := by
  obtain ⟨f, h⟩ := h
  exact fun fr => ⟨f, fun st br it rest => h st br it fr rest⟩

theorem OneItem.of_atom {ts : List Tok} {r : Re} (h : Atom ts r) : OneItem ts r := ⟨false, h⟩

def _root_.CE.Regex.Tok.isOp : Tok → Bool
  | .quest => true
  | .star => true
  | .plus => true
  | .count _ _ => true
  | _ => false

theorem OneItem.op {ts : List Tok} {r : Re} (h : OneItem ts r) {t : Tok} (ht : t.isOp = true) :
    ∃ r', OneItem (ts ++ [t]) r' ∧ r'.groups = r.groups := by
  obtain ⟨f, h⟩ := h
  have rep : ∀ m n, (∀ st br it fr rest, build st ⟨br, it, fr⟩ (t :: rest) = match (⟨br, it, fr⟩ : Frame).repeated m n with
      | .ok f' => build st f' rest
      | .error e => .error e) → ∃ r', OneItem (ts ++ [t]) r' ∧ r'.groups = r.groups := fun m n hb =>
    ⟨.rep r m n true, ⟨true, fun st br it fr rest => by rw [List.append_assoc, h, List.singleton_append, hb]; rfl⟩, rfl⟩
  cases t with
  | star => exact rep 0 none fun _ _ _ _ _ => rfl
  | plus => exact rep 1 none fun _ _ _ _ _ => rfl
  | count m n => exact rep m n fun _ _ _ _ _ => rfl
  | quest =>
    cases f with
    | false =>
      exact ⟨.rep r 0 (some 1) true, ⟨true, fun st br it fr rest => by rw [List.append_assoc, h]; rfl⟩, rfl⟩
    | true =>
      cases r with
      | rep s m n g => exact ⟨.rep s m n false, ⟨false, fun st br it fr rest => by rw [List.append_assoc, h]; rfl⟩, rfl⟩
      | _ => exact ⟨.rep _ 0 (some 1) true, ⟨true, fun st br it fr rest => by rw [List.append_assoc, h]; rfl⟩, rfl⟩
  | _ => cases ht

theorem OneItem.ops : ∀ (us : List Tok) {ts : List Tok} {r : Re}, OneItem ts r → (∀ t ∈ us, t.isOp = true) →
    ∃ r', OneItem (ts ++ us) r' ∧ r'.groups = r.groups
  | [], ts, r, h, _ => ⟨r, by rw [List.append_nil]; exact h, rfl⟩
  | t :: us, ts, r, h, hu => by
    obtain ⟨r', h1, h2⟩ := h.op (hu t (by simp))
    obtain ⟨r'', h3, h4⟩ := OneItem.ops us h1 (fun t ht => hu t (by simp [ht]))
    exact ⟨r'', by rw [List.append_assoc] at h3; exact h3, h4.trans h2⟩

theorem isOp_repToks (m : Nat) (n : Option Nat) (g : Bool) : ∀ t ∈ repToks m n g, t.isOp = true := by
  have lz : ∀ t ∈ lazyToks g, t.isOp = true := by cases g <;> simp [lazyToks, Tok.isOp]
  intro t ht
  unfold repToks at ht
  split at ht
  · rcases List.mem_cons.1 ht with rfl | ht
    · rfl
    · exact lz t ht
  · rcases List.mem_cons.1 ht with rfl | ht
    · rfl
    · exact lz t ht
  · rcases List.mem_cons.1 ht with rfl | ht
    · rfl
    · exact lz t ht
  · cases ht
  · rcases List.mem_cons.1 ht with rfl | ht
    · rfl
    · exact lz t ht
  · split at ht
    · rw [List.mem_singleton.1 ht]; rfl
    · rcases List.mem_cons.1 ht with rfl | ht
      · rfl
      · exact lz t ht

/-! ## Printed HIRs -/

theorem tidy_head : ∀ h : Hir, h.Tidy → ∃ c t, h.print = c :: t ∧ c ≠ '?'
  | .empty, _ => ⟨_, _, rfl, by decide⟩
  | .literal cs, hw => by
    simp only [Hir.print]
    split
    · exact ⟨_, _, rfl, by decide⟩
    · cases cs with
      | nil => exact absurd rfl hw
      | cons c cs =>
        obtain ⟨x, t, h1, h2⟩ := printChar_head c
        refine ⟨x, t ++ (cs.map printChar).flatten, by simp [h1], ?_⟩
        rintro rfl
        exact absurd h2 (by decide)
  | .cls rs, hw => by
    simp only [Hir.print]
    split
    · exact ⟨_, _, rfl, by decide⟩
    · exact ⟨_, _, rfl, by decide⟩
  | .look .start, _ => ⟨_, _, rfl, by decide⟩
  | .look .finish, _ => ⟨_, _, rfl, by decide⟩
  | .look (.mark k _), _ => by cases k <;> exact ⟨_, _, rfl, by decide⟩
  | .repetition m n g sub, hw => by
    obtain ⟨c, t, h1, h2⟩ := tidy_head sub hw.1
    exact ⟨c, t ++ printRep m n g, by simp [Hir.print, h1], h2⟩
  | .capture _ none _, _ => ⟨_, _, rfl, by decide⟩
  | .capture _ (some _) _, _ => ⟨_, _, rfl, by decide⟩
  | .concat _, _ => ⟨_, _, rfl, by decide⟩
  | .alternation _, _ => ⟨_, _, rfl, by decide⟩

def GroupsOf (h : Hir) : Prop := Lexes h.print (hirToks h) ∧ ∃ r, OneItem (hirToks h) r ∧ r.groups = h.toRe.groups

mutual
/-- A printed HIR is read as one item, with the same groups. -/
theorem tidy_good : ∀ h : Hir, h.Tidy → GroupsOf h
  | .empty, _ => ⟨lexes_open.append lexes_close, .empty, .of_atom (fun _ _ _ _ _ => rfl), rfl⟩
  | .literal cs, hw => by
    obtain ⟨c, cs, rfl⟩ := List.exists_cons_of_ne_nil hw
    cases cs with
    | nil => exact ⟨lexes_printChars [c], .lit c, .of_atom (fun _ _ _ _ _ => rfl), rfl⟩
    | cons d cs =>
      refine ⟨?_, catL ((c :: d :: cs).map .lit), .of_atom ?_, rfl⟩
      · simp only [Hir.print, hirToks]
        rw [if_pos (by simp), if_pos (by simp)]
        exact (lexes_open.append (lexes_printChars _)).append lexes_close
      · have := Atom.grouped (bs := [((c :: d :: cs).map .lit, (c :: d :: cs).map .lit)]) (by simp)
          (by intro b hb; rw [List.mem_singleton.1 hb]; exact ReadsAs.lits _)
        simpa [hirToks, barred, altL] using this
  | .cls rs, hw => by
    have hok : ∀ i ∈ rs.flatMap rangeItems, ItemOk i := by
      intro i hi
      obtain ⟨r, hr, hi⟩ := List.mem_flatMap.1 hi
      exact (rangeItems_ok (hw r hr)).2 i hi
    refine ⟨?_, _, .of_atom (fun _ _ _ _ _ => rfl), rfl⟩
    cases rs with
    | nil => exact lexes_void
    | cons r rs =>
      have := lexes_class _ (by have := (rangeItems_ok (hw r (by simp))).1; simp [this]) hok
      rw [← printRanges_eq] at this
      simpa [Hir.print, hirToks, classItems] using this
  | .look .start, _ => ⟨fun rest => by simp only [Hir.print, List.cons_append, List.nil_append]; exact lex_cons rfl,
      _, .of_atom (fun _ _ _ _ _ => rfl), rfl⟩
  | .look .finish, _ => ⟨fun rest => by simp only [Hir.print, List.cons_append, List.nil_append]; exact lex_cons rfl,
      _, .of_atom (fun _ _ _ _ _ => rfl), rfl⟩
  | .look (.mark k t), _ => ⟨lexes_mark k t, _, .of_atom (atom_mark k), rfl⟩
  | .repetition m n g sub, hw => by
    obtain ⟨g1, r, g2, g3⟩ := tidy_good sub hw.1
    obtain ⟨r', h1, h2⟩ := g2.ops (repToks m n g) (isOp_repToks m n g)
    exact ⟨g1.append (lexes_rep m n g hw.2), r', h1, h2.trans g3⟩
  | .capture i name sub, hw => by
    obtain ⟨h1, h2⟩ := hw
    obtain ⟨g1, r, g2, g3⟩ := tidy_good sub h1
    refine ⟨?_, .cap name r, .of_atom (Atom.captured g2.readsAs), by simp [Re.groups, toRe, g3]⟩
    cases name with
    | none =>
      intro rest
      simp only [Hir.print, hirToks, List.cons_append, List.append_assoc, List.nil_append]
      have : lexOne '(' (sub.print ++ ')' :: rest) = .ok (.capture none, sub.print ++ ')' :: rest) := by
        obtain ⟨c, t, hc, hne⟩ := tidy_head sub h1
        rw [hc]
        exact groupOpen_other _ hne
      rw [lex_cons this, g1 (')' :: rest), lex_cons (t := .close) (r' := rest) rfl, prep_prep, prep_prep]
      rfl
    | some nm =>
      have hn := h2 nm rfl
      intro rest
      simp only [Hir.print, hirToks, List.cons_append, List.append_assoc, List.nil_append]
      have : lexOne '(' ('?' :: 'P' :: '<' :: (nm ++ '>' :: (sub.print ++ ')' :: rest))) =
          .ok (.capture (some nm), sub.print ++ ')' :: rest) := by
        simp only [lexOne, groupOpen, capName_valid hn]
      rw [lex_cons this, g1 (')' :: rest), lex_cons (t := .close) (r' := rest) rfl, prep_prep, prep_prep]
      rfl
  | .concat subs, hw => by
    have hg := tidy_goods subs hw
    obtain ⟨rs, h1, h2⟩ : ∃ rs, ReadsAs (catToks subs) rs ∧ (rs.map Re.groups).flatten = (toRes subs |>.map Re.groups).flatten := by
      clear hw
      induction subs with
      | nil => exact ⟨[], .nil, rfl⟩
      | cons h hs ih =>
        obtain ⟨rs, i1, i2⟩ := ih fun x hx => hg x (by simp [hx])
        obtain ⟨-, r, g2, g3⟩ := hg h (by simp)
        exact ⟨r :: rs, g2.readsAs.append i1, by simp [toRes, g3, i2]⟩
    refine ⟨(lexes_open.append ?_).append lexes_close, catL rs, .of_atom ?_, ?_⟩
    · clear hw h1 h2
      induction subs with
      | nil => exact .nil
      | cons h hs ih => exact (hg h (by simp)).1.append (ih fun x hx => hg x (by simp [hx]))
    · have := Atom.grouped (bs := [(catToks subs, rs)]) (by simp) (by simpa using h1)
      simpa [hirToks, barred, altL] using this
    · rw [toRe, groups_catL, groups_catL, h2]
  | .alternation [], hw => ⟨lexes_open.append lexes_close, .empty, .of_atom (fun _ _ _ _ _ => rfl), rfl⟩
  | .alternation (k :: subs), hw => by
    have hg := tidy_goods (k :: subs) hw
    generalize hks : k :: subs = ks at hg
    obtain ⟨bs, h1, h2, h3⟩ : ∃ bs : List (List Tok × List Re), bs.map (·.1) = listToks ks ∧ (∀ b ∈ bs, ReadsAs b.1 b.2) ∧
        (bs.map fun b => (catL b.2).groups).flatten = (toRes ks |>.map Re.groups).flatten := by
      clear hw hks
      induction ks with
      | nil => exact ⟨[], rfl, by simp, rfl⟩
      | cons h hs ih =>
        obtain ⟨bs, i1, i2, i3⟩ := ih fun x hx => hg x (by simp [hx])
        obtain ⟨-, r, g2, g3⟩ := hg h (by simp)
        refine ⟨(hirToks h, [r]) :: bs, by simp [listToks, i1], ?_, by simp [toRes, g3, i3, catL]⟩
        intro b hb
        rcases List.mem_cons.1 hb with rfl | hb
        · exact g2.readsAs
        · exact i2 b hb
    have hne : bs ≠ [] := by
      rintro rfl
      subst hks
      simp [listToks] at h1
    refine ⟨(lexes_open.append ?_).append lexes_close, altL (bs.map fun b => catL b.2), .of_atom ?_, ?_⟩
    · clear hw h1 h2 h3 hks
      induction ks with
      | nil => exact .nil
      | cons h hs ih =>
        have ih := ih fun x hx => hg x (by simp [hx])
        cases hs with
        | nil => exact (hg h (by simp)).1
        | cons k hs => exact (hg h (by simp)).1.append (lexes_bar.append ih)
    · have := Atom.grouped hne h2
      rw [h1] at this
      exact this
    · rw [toRe, groups_altL, groups_altL, List.map_map]
      exact h3
theorem tidy_goods : ∀ hs : List Hir, TidyAll hs → ∀ h ∈ hs, GroupsOf h
  | [], _, _, hm => absurd hm (by simp)
  | h :: hs, hw, x, hm => by
    by_cases hx : x = h
    · rw [hx]; exact tidy_good h hw.1
    · exact tidy_goods hs hw.2 x ((List.mem_cons.1 hm).resolve_left hx)
end

/-! ## Renamed HIRs -/

mutual
theorem rename_tidy (id : Nat) : ∀ (h : Hir) (n : Nat), h.Tidy → (renameGroupsInner id h n).1.Tidy
  | .empty, _, _ => trivial
  | .literal cs, _, hw => by
    rw [renameGroupsInner]
    unfold mkLiteral
    split
    · trivial
    · exact hw
  | .cls rs, _, hw => tidy_mkClass hw
  | .look _, _, _ => trivial
  | .repetition m n g sub, _, hw => tidy_mkRepetition hw.1 hw.2
  | .capture i name sub, n, hw => by
    rw [renameGroupsInner]
    refine ⟨rename_tidy id sub (n + 1) hw.1, fun x hx => ?_⟩
    cases hx
    exact validName_groupName id n
  | .concat subs, n, hw => tidy_mkConcat (renames_tidy id subs n hw)
  | .alternation subs, n, hw => (mem_mkAlternationF _ _ (renames_tidy id subs n hw)).1
theorem renames_tidy (id : Nat) : ∀ (hs : List Hir) (n : Nat), TidyAll hs → TidyAll (renameGroupsList id hs n).1
  | [], _, _ => trivial
  | h :: hs, n, hw => ⟨rename_tidy id h n hw.1, renames_tidy id hs _ hw.2⟩
end

/-! ## Names -/

theorem sublist_nameless {a b : List (Option (List Char))} (h : a.Sublist b) (hb : b.filterMap id = []) : a.filterMap id = [] :=
  List.sublist_nil.1 (hb ▸ h.filterMap id)

/-- The names after renaming, if there were none, and the next number. -/
def NamesFrom (id n : Nat) (gs : List (Option (List Char))) (m : Nat) : Prop :=
  ∃ k, m = n + k ∧ (gs.filterMap _root_.id).Sublist ((List.range' n k).map (groupName id))

theorem NamesFrom.none (id n : Nat) {gs : List (Option (List Char))} (h : gs.filterMap _root_.id = []) : NamesFrom id n gs n :=
  ⟨0, rfl, by rw [h]; exact List.nil_sublist _⟩

theorem NamesFrom.mono {id n m : Nat} {gs hs : List (Option (List Char))} (h : NamesFrom id n gs m) (hh : hs.Sublist gs) :
    NamesFrom id n hs m := by
  obtain ⟨k, h1, h2⟩ := h
  exact ⟨k, h1, (hh.filterMap _).trans h2⟩

mutual
theorem rename_names (id : Nat) : ∀ (h : Hir) (n : Nat), h.toRe.groups.filterMap _root_.id = [] →
    NamesFrom id n (renameGroupsInner id h n).1.toRe.groups (renameGroupsInner id h n).2
  | .empty, n, _ => .none id n rfl
  | .literal cs, n, h0 => by
    refine .none id n (sublist_nameless ?_ h0)
    rw [renameGroupsInner, mkLiteral]
    split
    · exact List.nil_sublist _
    · exact List.Sublist.refl _
  | .cls rs, n, _ => .none id n (by rw [renameGroupsInner, (mkClass_like _).1]; rfl)
  | .look .start, n, _ => .none id n rfl
  | .look .finish, n, _ => .none id n rfl
  | .look (.mark _ _), n, _ => .none id n rfl
  | .repetition m k g sub, n, h0 => .none id n (sublist_nameless (groups_mkRepetition ..) h0)
  | .capture i name sub, n, h0 => by
    have h1 : sub.toRe.groups.filterMap _root_.id = [] := sublist_nameless (List.sublist_cons_self name _) h0
    obtain ⟨k, h2, h3⟩ := rename_names id sub (n + 1) h1
    refine ⟨k + 1, ?_, ?_⟩
    · rw [renameGroupsInner]; simp only [h2]; omega
    · rw [renameGroupsInner, List.range'_succ]
      simp only [toRe, Re.groups, List.filterMap_cons, _root_.id, List.map_cons]
      exact h3.cons_cons _
  | .concat subs, n, h0 => by
    rw [groups_concat] at h0
    have := renames_names id subs n h0
    rw [renameGroupsInner]
    simp only []
    rw [groups_mkConcat]
    exact this
  | .alternation subs, n, h0 => by
    rw [groups_alternation] at h0
    have := renames_names id subs n h0
    rw [renameGroupsInner]
    exact this.mono (groups_mkAlternationF _ _)
theorem renames_names (id : Nat) : ∀ (hs : List Hir) (n : Nat), (gs hs).filterMap _root_.id = [] →
    NamesFrom id n (gs (renameGroupsList id hs n).1) (renameGroupsList id hs n).2
  | [], n, _ => .none id n rfl
  | h :: hs, n, h0 => by
    rw [gs_cons] at h0
    obtain ⟨k, h1, h2⟩ := rename_names id h n (sublist_nameless (List.sublist_append_left _ _) h0)
    obtain ⟨j, h3, h4⟩ := renames_names id hs (renameGroupsInner id h n).2 (sublist_nameless (List.sublist_append_right _ _) h0)
    rw [renameGroupsList]
    simp only [gs_cons]
    refine ⟨k + j, by rw [h3, h1]; omega, ?_⟩
    rw [List.filterMap_append, ← List.range'_append_1, List.map_append]
    rw [h1] at h4
    exact h2.append (by rw [h1]; exact h4)
end

end CE
