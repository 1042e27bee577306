import Verif.Model.Translate
import Verif.Spec.Regular
import Verif.Proof.RegexAst
import Verif.Proof.Shape

/-! # The translation into the HIR keeps the meaning of regular regexes -/

namespace CE
open Spec Regex Hir

variable (T : Tables)

/-! ## Classes -/

theorem Tables.perl_valid (k : Perl) : ∀ r ∈ T.perl k, r.1 ≤ r.2 := by
  cases k
  · exact T.digit_valid
  · exact T.space_valid
  · exact T.word_valid
  · exact T.category_valid _

theorem Tables.perl_mem (k : Perl) (c : Char) : Ranges.mem (T.perl k) c = true ↔ k.mem T.classes c := by
  cases k <;> rfl

theorem Tables.fold_valid {rs : List (Char × Char)} (h : ∀ r ∈ rs, r.1 ≤ r.2) : ∀ r ∈ T.foldRanges rs, r.1 ≤ r.2 := by
  refine Ranges.append_valid h ?_
  intro r hr
  obtain ⟨p, _, rfl⟩ := List.mem_map.1 hr
  exact Char.le_refl _

theorem Tables.fold_mem (rs : List (Char × Char)) (c : Char) : Ranges.mem (T.foldRanges rs) c = true ↔
    (Ranges.mem rs c = true ∨ ∃ d, T.classes.fold d c ∧ Ranges.mem rs d = true) := by
  rw [foldRanges, Ranges.mem_append]
  refine or_congr Iff.rfl ?_
  simp only [Ranges.mem, List.any_map, List.any_filter, List.any_eq_true, Function.comp_apply, Bool.and_eq_true, decide_eq_true_eq]
  constructor
  · rintro ⟨⟨a, b⟩, h1, h2, h3, h4⟩
    obtain rfl := Char.le_antisymm h3 h4
    exact ⟨a, h1, h2⟩
  · rintro ⟨d, h1, h2⟩
    exact ⟨(d, c), h1, h2, Char.le_refl _, Char.le_refl _⟩

theorem Tables.item_valid : ∀ {i : CItem}, i.Valid → ∀ r ∈ T.item i, r.1 ≤ r.2
  | .single c, _ => by simp [item]
  | .range a b, h => by intro r hr; simp [item] at hr; subst hr; exact h
  | .perl false k, _ => T.perl_valid k
  | .perl true k, _ => Ranges.negate_valid _
  | .ascii false _, h => h
  | .ascii true _, _ => Ranges.negate_valid _
  | .void, _ => by simp [item]
  | .nested false i, h => Tables.item_valid (i := i) h
  | .nested true _, _ => Ranges.negate_valid _
  | .union _ _, h => Ranges.append_valid (Tables.item_valid h.1) (Tables.item_valid h.2)
  | .op .inter _ _, _ => (Ranges.inter_canonical _ _).valid
  | .op .diff _ _, _ => (Ranges.inter_canonical _ _).valid
  | .op .symm _ _, _ => (Ranges.inter_canonical _ _).valid
  | .fold false i, h => T.fold_valid (Tables.item_valid (i := i) h)
  | .fold true _, _ => Ranges.negate_valid _

theorem Tables.item_mem : ∀ {i : CItem}, i.Valid → ∀ c : Char, Ranges.mem (T.item i) c = true ↔ i.mem T.classes c
  | .single a, _, c => by
    simp only [item, Ranges.mem, List.any_cons, List.any_nil, Bool.or_false, decide_eq_true_eq, CItem.mem]
    constructor
    · rintro ⟨h1, h2⟩; exact Char.le_antisymm h2 h1
    · rintro rfl; exact ⟨Char.le_refl _, Char.le_refl _⟩
  | .range a b, _, c => by simp [item, Ranges.mem, CItem.mem]
  | .perl false k, _, c => T.perl_mem k c
  | .perl true k, _, c => by
    rw [item, Ranges.mem_negate (Ranges.canon_canonical _ (T.perl_valid k)), Ranges.mem_canon _ _ (T.perl_valid k), T.perl_mem]
    rfl
  | .ascii false rs, _, c => by simp [item, Ranges.mem, CItem.mem]
  | .ascii true rs, h, c => by
    rw [item, Ranges.mem_negate (Ranges.canon_canonical _ h), Ranges.mem_canon _ _ h]
    simp [Ranges.mem, CItem.mem]
  | .void, _, c => by simp [item, Ranges.mem, CItem.mem]
  | .nested false i, h, c => Tables.item_mem (i := i) h c
  | .nested true i, h, c => by
    have hv := T.item_valid (i := i) h
    rw [item, Ranges.mem_negate (Ranges.canon_canonical _ hv), Ranges.mem_canon _ _ hv, Tables.item_mem (i := i) h]
    rfl
  | .union i j, h, c => by
    rw [item, Ranges.mem_append, Tables.item_mem h.1, Tables.item_mem h.2]
    rfl
  | .op k i j, h, c => by
    have vi := T.item_valid h.1
    have vj := T.item_valid h.2
    have ci := Ranges.canon_canonical _ vi
    have cj := Ranges.canon_canonical _ vj
    cases k
    · rw [item, Ranges.mem_inter ci cj, Ranges.mem_canon _ _ vi, Ranges.mem_canon _ _ vj, Tables.item_mem h.1, Tables.item_mem h.2]
      rfl
    · rw [item, Ranges.mem_diff ci cj, Ranges.mem_canon _ _ vi, Ranges.mem_canon _ _ vj, Tables.item_mem h.1, Tables.item_mem h.2]
      rfl
    · rw [item, Ranges.mem_symm ci cj, Ranges.mem_canon _ _ vi, Ranges.mem_canon _ _ vj, Tables.item_mem h.1, Tables.item_mem h.2]
      rfl
  | .fold false i, h, c => by
    have ih := Tables.item_mem (i := i) h
    rw [item, T.fold_mem]
    simp only [ih]
    rfl
  | .fold true i, h, c => by
    have ih := Tables.item_mem (i := i) h
    have hv := T.fold_valid (T.item_valid (i := i) h)
    rw [item, Ranges.mem_negate (Ranges.canon_canonical _ hv), Ranges.mem_canon _ _ hv, T.fold_mem]
    simp only [ih]
    rfl

theorem Tables.cls_ok {k : Cls} (hk : ∀ i ∈ k.items, i.Valid) :
    (∀ r ∈ T.cls k, r.1 ≤ r.2) ∧ ∀ c, Ranges.mem (T.cls k) c = true ↔ k.mem T.classes c := by
  have hv : ∀ r ∈ k.items.flatMap T.item, r.1 ≤ r.2 := by
    intro r hr
    obtain ⟨i, hi, hr⟩ := List.mem_flatMap.1 hr
    exact T.item_valid (hk i hi) r hr
  have hm : ∀ c, Ranges.mem (k.items.flatMap T.item) c = true ↔ ∃ i ∈ k.items, i.mem T.classes c := by
    intro c
    have : (∃ i ∈ k.items, i.mem T.classes c) ↔ ∃ i ∈ k.items, Ranges.mem (T.item i) c = true :=
      exists_congr fun i => and_congr_right fun hi => (T.item_mem (hk i hi) c).symm
    rw [this]
    simp only [Ranges.mem, List.any_flatMap, List.any_eq_true]
  have hc := Ranges.canon_canonical _ hv
  obtain ⟨neg, items⟩ := k
  cases neg with
  | false =>
    simp only [cls]
    exact ⟨hc.valid, fun c => by rw [if_neg (by simp), Ranges.mem_canon _ _ hv, hm]; rfl⟩
  | true =>
    simp only [cls, if_true]
    exact ⟨Ranges.negate_valid _, fun c => by rw [Ranges.mem_negate hc, Ranges.mem_canon _ _ hv, hm]; rfl⟩

theorem class_like {U : Classes} (rs : List (Char × Char)) (k : Cls) (h : ∀ c, Ranges.mem rs c = true ↔ k.mem U c) :
    LikeIn U (mkClass rs).toRe (.cls k) := by
  refine ((mkClass_like rs).2.2.at U).trans ⟨rfl, fun g pre x post l => ?_⟩
  have : ∀ c, (Cls.mk false (classItems rs)).mem U c ↔ k.mem U c := fun c => by
    rw [← h, ← mem_classItems (U := U)]; rfl
  simp only [Re.Match, this]

theorem dot_like {U : Classes} : LikeIn U (mkClass dotRanges).toRe .dot := by
  refine ((mkClass_like dotRanges).2.2.at U).trans ⟨rfl, fun g pre x post l => ?_⟩
  have : ∀ c : Char, (Cls.mk false (classItems dotRanges)).mem U c ↔ c ≠ '\n' := by
    intro c
    have h1 : (Cls.mk false (classItems dotRanges)).mem U c ↔ Ranges.mem dotRanges c = true := mem_classItems (U := U) (rs := dotRanges) c
    rw [h1]
    have h2 := Ranges.valid_toNat c
    have h3 : c = '\n' ↔ c.toNat = 10 := by
      rw [← Char.toNat_inj]; rfl
    simp only [Ranges.mem, dotRanges, List.any_cons, List.any_nil, Bool.or_false, Bool.or_eq_true, decide_eq_true_eq,
      Ranges.le_iff_toNat, ne_eq, h3]
    have e0 : (Char.ofNat 0).toNat = 0 := rfl
    have e1 : (Char.ofNat 9).toNat = 9 := rfl
    have e2 : (Char.ofNat 11).toNat = 11 := rfl
    have e3 : (Char.ofNat 0x10FFFF).toNat = 0x10FFFF := rfl
    rw [e0, e1, e2, e3]
    omega
  simp only [Re.Match, this]

/-! ## Repetitions -/

theorem repeats_one {P : Matches} {pre x post : List Char} {l : List Cap} : Repeats P 1 (some 1) pre x post l ↔ P pre x post l := by
  constructor
  · intro h
    cases h with
    | more _ _ _ x y _ l k hn h1 h2 =>
      cases h2 with
      | done => simpa using h1
      | more _ _ _ _ _ _ _ _ hn' => exact absurd rfl hn'
  · intro h
    have := Repeats.more (P := P) 1 (some 1) pre x [] post l [] (by simp) (by simpa using h) (.done _ _ _)
    simpa using this

theorem repeats_zero {P : Matches} {pre x post : List Char} {l : List Cap} : Repeats P 0 (some 0) pre x post l ↔ x = [] ∧ l = [] := by
  constructor
  · intro h
    cases h with
    | done => exact ⟨rfl, rfl⟩
    | more _ _ _ x y _ l k hn => exact absurd rfl hn
  · rintro ⟨rfl, rfl⟩; exact .done ..

theorem repeats_only {P : Matches} {m : Nat} {n : Option Nat} {pre x post : List Char} {l : List Cap}
    (hP : ∀ pre x post l, P pre x post l → x = []) (h : Repeats P m n pre x post l) : x = [] := by
  induction h with
  | done => rfl
  | more m n pre x y post l k _ h1 _ ih => rw [hP _ _ _ _ h1, ih]; rfl

theorem repeats_nil {P : Matches} {m : Nat} {n : Option Nat} {pre x post : List Char} {l : List Cap}
    (hP : ∀ pre x post l, P pre x post l → l = []) (h : Repeats P m n pre x post l) : l = [] := by
  induction h with
  | done => rfl
  | more m n pre x y post l k _ h1 _ ih => rw [hP _ _ _ _ h1, ih]; rfl

/-- Repeating what matches only the empty text. -/
theorem repeats_weightless {P : Matches} {m : Nat} {n : Option Nat} {pre x post : List Char} {l : List Cap}
    (hP : ∀ pre x post l, P pre x post l → x = [] ∧ l = []) (h0 : n ≠ some 0) (hmn : ∀ k, n = some k → m ≤ k) :
    Repeats P m n pre x post l ↔ x = [] ∧ l = [] ∧ (m = 0 ∨ P pre [] post []) := by
  constructor
  · intro h
    clear h0 hmn
    induction h with
    | done => exact ⟨rfl, rfl, .inl rfl⟩
    | more m n pre x y post l k _ h1 _ ih =>
      obtain ⟨rfl, rfl⟩ := hP _ _ _ _ h1
      obtain ⟨rfl, rfl, -⟩ := ih
      exact ⟨rfl, rfl, .inr h1⟩
  · rintro ⟨rfl, rfl, h⟩
    by_cases hm : m = 0
    · subst hm; exact .done ..
    · replace h := h.resolve_left hm
      clear hm
      induction m generalizing n with
      | zero => exact .done ..
      | succ m ih =>
        refine Repeats.more (m + 1) n pre [] [] post [] [] h0 h ?_
        rw [List.append_nil]
        by_cases h1 : n.map (· - 1) = some 0
        · have : m = 0 := by
            cases n with
            | none => cases h1
            | some k => have := hmn k rfl; simp at h1; omega
          subst this
          exact .done ..
        · exact ih h1 fun k hk => by
            cases n with
            | none => cases hk
            | some j => have := hmn j rfl; simp at hk; omega

/-- Without groups there are no captures. -/
theorem match_nogroups_nil {U : Classes} : ∀ {r : Re} (_ : r.groups = []) {g : Nat} {pre x post : List Char} {l : List Cap},
    r.Match U g pre x post l → l = []
  | .empty, _, _, _, _, _, _, h => h.2
  | .lit _, _, _, _, _, _, _, h => h.2
  | .dot, _, _, _, _, _, _, h => h.2
  | .cls _, _, _, _, _, _, _, h => h.2
  | .bol, _, _, _, _, _, _, h => h.2.2
  | .eol, _, _, _, _, _, _, h => h.2.2
  | .mark _, _, _, _, _, _, _, h => h.2.2
  | .cap _ _, h, _, _, _, _, _, _ => absurd h (by simp [Re.groups])
  | .cat a b, h, _, _, _, _, _, hm => by
    simp only [Re.groups, List.append_eq_nil_iff] at h
    obtain ⟨y, z, k, m, rfl, rfl, h1, h2⟩ := hm
    rw [match_nogroups_nil h.1 h1, match_nogroups_nil h.2 h2]; rfl
  | .alt a b, h, _, _, _, _, _, hm => by
    simp only [Re.groups, List.append_eq_nil_iff] at h
    exact hm.elim (match_nogroups_nil h.1) (match_nogroups_nil h.2)
  | .rep r m n b, h, g, _, _, _, _, hm =>
    repeats_nil (fun _ _ _ _ h1 => match_nogroups_nil (r := r) h h1) hm

theorem catL_only {U : Classes} : ∀ {rs : List Re}, (∀ r ∈ rs, ∀ g pre x post l, r.Match U g pre x post l → x = []) →
    ∀ {g pre x post l}, (catL rs).Match U g pre x post l → x = []
  | [], _, _, _, _, _, _, h => h.1
  | [r], hr, _, _, _, _, _, h => hr r (by simp) _ _ _ _ _ h
  | r :: s :: rs, hr, _, _, _, _, _, h => by
    obtain ⟨y, z, k, m, rfl, rfl, h1, h2⟩ := h
    rw [hr r (by simp) _ _ _ _ _ h1, catL_only (rs := s :: rs) (fun q hq => hr q (by simp [List.mem_cons.1 hq])) h2]; rfl

theorem altL_only {U : Classes} : ∀ {rs : List Re}, (∀ r ∈ rs, ∀ g pre x post l, r.Match U g pre x post l → x = []) →
    ∀ {g pre x post l}, (altL rs).Match U g pre x post l → x = []
  | [], _, _, _, _, _, _, h => h.1
  | [r], hr, _, _, _, _, _, h => hr r (by simp) _ _ _ _ _ h
  | r :: s :: rs, hr, _, _, _, _, _, h => by
    rcases h with h | h
    · exact hr r (by simp) _ _ _ _ _ h
    · exact altL_only (rs := s :: rs) (fun q hq => hr q (by simp [List.mem_cons.1 hq])) h

mutual
/-- A weightless regex matches only the empty text. -/
theorem weightless_match {U : Classes} : ∀ (a : Ast), a.weightless = true → ∀ {g pre x post l}, a.toRe.Match U g pre x post l → x = []
  | .empty, _, _, _, _, _, _, h => h.1
  | .bol, _, _, _, _, _, _, h => h.2.1
  | .eol, _, _, _, _, _, _, h => h.2.1
  | .mark _, _, _, _, _, _, _, h => h.2.1
  | .lit _, h, _, _, _, _, _, _ => by cases h
  | .dot, h, _, _, _, _, _, _ => by cases h
  | .cls _, h, _, _, _, _, _, _ => by cases h
  | .cap _ a, hw, _, _, _, _, _, h => by
    obtain ⟨k, h, -⟩ := h
    exact weightless_match a hw h
  | .group a, hw, _, _, _, _, _, h => weightless_match a hw h
  | .concat as, hw, _, _, _, _, _, h => catL_only (weightless_matches as hw) h
  | .alt as, hw, _, _, _, _, _, h => altL_only (weightless_matches as hw) h
  | .rep a m n g, hw, _, _, _, _, _, h => by
    replace h : Repeats (a.toRe.Match U _) m n _ _ _ _ := h
    simp only [Ast.weightless, Bool.or_eq_true, decide_eq_true_eq] at hw
    rcases hw with rfl | hw
    · cases h with
      | done => rfl
      | more _ _ _ _ _ _ _ _ h => exact absurd rfl h
    · exact repeats_only (fun _ _ _ _ h1 => weightless_match a hw h1) h
theorem weightless_matches {U : Classes} : ∀ (as : List Ast), Ast.allWeightless as = true → ∀ r ∈ Ast.toRes as, ∀ g pre x post l,
    r.Match U g pre x post l → x = []
  | [], _, _, hr, _, _, _, _, _, _ => by cases hr
  | a :: as, hw, r, hr, _, _, _, _, _, h => by
    simp only [Ast.allWeightless, Bool.and_eq_true] at hw
    rcases List.mem_cons.1 hr with rfl | hr
    · exact weightless_match a hw.1 h
    · exact weightless_matches as hw.2 r hr _ _ _ _ _ h
end

/-- What is true of the translation of a regular regex. -/
structure Translated (a : Ast) (h : Hir) (i j : Nat) : Prop where
  next : j = i + a.toRe.groups.length
  indices : h.indices = List.range' i a.toRe.groups.length
  wf : h.Wf
  flat : h.Flat
  groups : h.toRe.groups = a.toRe.groups
  like : LikeIn T.classes h.toRe a.toRe
  void : h = .empty ↔ a.void = true
  eager : h.eager = a.eager
  light : h.Light ↔ a.weightless = true

structure TranslatedL (as : List Ast) (hs : List Hir) (i j : Nat) : Prop where
  length : hs.length = as.length
  next : j = i + ((Ast.toRes as).map Re.groups).flatten.length
  indices : indicesL hs = List.range' i ((Ast.toRes as).map Re.groups).flatten.length
  wf : WfAll hs
  flat : FlatAll hs
  groups : ((toRes hs).map Re.groups).flatten = ((Ast.toRes as).map Re.groups).flatten
  cat : LikeIn T.classes (catL (toRes hs)) (catL (Ast.toRes as))
  alt : LikeIn T.classes (altL (toRes hs)) (altL (Ast.toRes as))
  void : (∀ h ∈ hs, h = .empty) ↔ Ast.allVoid as = true
  eager : oneEager hs = Ast.eagerOne as
  light : (∀ h ∈ hs, h.Light) ↔ Ast.allWeightless as = true

mutual
theorem translate_ok : ∀ (a : Ast) (i : Nat), a.Valid → a.Regular →
    Translated T a (translate T a i).1 i (translate T a i).2
  | .empty, i, _, _ => ⟨rfl, rfl, trivial, trivial, rfl, .refl _, by simp [translate, Ast.void], rfl, by simp [translate, Ast.weightless]; rfl⟩
  | .lit c, i, _, _ => by
    have e : (translate T (.lit c) i).1 = .literal [c] := rfl
    rw [e]
    exact ⟨rfl, rfl, by simp [Wf], trivial, rfl, .refl _, by simp [Ast.void], rfl, by rw [light_literal]; simp [Ast.weightless]⟩
  | .dot, i, _, _ => by
    obtain ⟨m1, m2, -⟩ := mkClass_like dotRanges
    obtain ⟨s1, s2, s3, -⟩ := @mkClass_shape dotRanges
    show Translated T .dot (mkClass dotRanges) i i
    refine ⟨rfl, m2, mkClass_wf ?_, s1, m1, dot_like, ⟨fun h => absurd h s2, fun h => by cases h⟩, s3,
      ⟨fun h => absurd h light_mkClass, fun h => by cases h⟩⟩
    intro r hr
    simp [dotRanges] at hr
    rcases hr with rfl | rfl <;> decide
  | .cls k, i, hv, hr => by
    obtain ⟨m1, m2, -⟩ := mkClass_like (T.cls k)
    obtain ⟨s1, s2, s3, -⟩ := @mkClass_shape (T.cls k)
    obtain ⟨c1, c2⟩ := T.cls_ok hv
    exact ⟨rfl, m2, mkClass_wf c1, s1, m1, class_like _ _ c2,
      ⟨fun h => absurd h s2, fun h => by cases h⟩, s3, ⟨fun h => absurd h light_mkClass, fun h => by cases h⟩⟩
  | .bol, i, _, _ => ⟨rfl, rfl, trivial, trivial, rfl, .refl _, by simp [translate, Ast.void], rfl, by simp [translate, Ast.weightless]; rfl⟩
  | .eol, i, _, _ => ⟨rfl, rfl, trivial, trivial, rfl, .refl _, by simp [translate, Ast.void], rfl, by simp [translate, Ast.weightless]; rfl⟩
  | .mark _, i, _, _ => ⟨rfl, rfl, trivial, trivial, rfl, .refl _, by simp [translate, Ast.void], rfl, by simp [translate, Ast.weightless]; rfl⟩
  | .cap n a, i, hv, hr => by
    have ih := translate_ok a (i + 1) hv.2 hr
    refine ⟨?_, ?_, ⟨ih.wf, hv.1⟩, trivial, ?_, ih.like.cap n n, by simp [translate, Ast.void], rfl, ih.light⟩
    · rw [translate, ih.next, Ast.toRe, Re.groups, List.length_cons]; omega
    · rw [translate, Hir.indices, ih.indices, Ast.toRe, Re.groups, List.length_cons, List.range'_succ]
    · rw [translate, Hir.toRe, Re.groups, ih.groups]; rfl
  | .group a, i, hv, hr => by
    have ih := translate_ok a i hv hr
    exact ⟨ih.next, ih.indices, ih.wf, ih.flat, ih.groups, ih.like, ih.void, ih.eager, ih.light⟩
  | .concat as, i, hv, hr => by
    have ih := translates_ok as i hv hr
    obtain ⟨m1, m2, m3⟩ := mkConcat_ok (translateL T as i).1
    rw [translate]
    refine ⟨?_, ?_, mkConcat_wf _ ih.wf, mkConcat_flat ih.flat, ?_, (m2.at _).trans ih.cat, ?_, ?_, ?_⟩
    · rw [Ast.toRe, groups_catL]; exact ih.next
    · rw [Ast.toRe, groups_catL, m3]; exact ih.indices
    · rw [Ast.toRe, m1, groups_catL, groups_catL, ih.groups]
    · rw [mkConcat_empty ih.flat, ih.void]; rfl
    · rw [mkConcat_eager ih.flat, ih.eager]; rfl
    · rw [light_mkConcat, ih.light]; rfl
  | .alt as, i, hv, hr => by
    have ih := translates_ok as i hv.2 hr
    have h2 : 2 ≤ (translateL T as i).1.length := by rw [ih.length]; exact hv.1
    obtain ⟨m1, m2, m3, m4⟩ := mkAlternationF_ok (sizes (translateL T as i).1 + 1) (translateL T as i).1 (by rintro h; rw [h] at h2; simp at h2) ih.wf
      (by rw [ih.indices]; exact List.nodup_range' ..)
    obtain ⟨s1, s2, s3, s4⟩ := mkAlternationF_shape (sizes (translateL T as i).1 + 1) (translateL T as i).1 h2 ih.wf ih.flat
    rw [translate]
    refine ⟨?_, ?_, m3, s1, ?_, (m2.at _).trans ih.alt, ⟨fun h => absurd h s2, fun h => by cases h⟩, s3, ?_⟩
    · rw [Ast.toRe, groups_altL]; exact ih.next
    · rw [Ast.toRe, groups_altL]; exact m4.trans ih.indices
    · rw [Ast.toRe, groups_altL]; refine m1.trans ?_; rw [groups_altL, ih.groups]
    · exact s4.trans ih.light
  | .rep a m n g, i, hv, hr => by
    obtain ⟨hr1, hr2, hr3⟩ := hr
    have ih := translate_ok a i hv.1 hr1
    rw [translate]
    by_cases h0 : n = some 0
    · subst h0
      obtain rfl : m = 0 := Nat.le_zero.1 (hv.2 0 rfl)
      have hg : a.toRe.groups = [] := hr2.resolve_right fun h => h.1 rfl
      have e : mkRepetition 0 (some 0) g (translate T a i).1 = .empty := by
        unfold mkRepetition
        by_cases hl : (translate T a i).1.maxLen = some 0
        · rw [if_pos hl]; rfl
        · rw [if_neg hl]; rfl
      rw [e]
      refine ⟨by rw [ih.next]; rfl, by simp [Ast.toRe, Re.groups, hg, Hir.indices], trivial, trivial, by simp [Ast.toRe, Re.groups, hg, Hir.toRe],
        ⟨by simp [Ast.toRe, Re.groups, hg, Hir.toRe], fun g' pre x post l => ?_⟩, by simp [Ast.void], by simp [Ast.eager, Hir.eager],
        by simp [Ast.weightless, Hir.Light, maxLen]⟩
      exact repeats_zero.symm
    by_cases hw : a.weightless = true
    · have hl : (translate T a i).1.Light := ih.light.2 hw
      have he : ∀ {g' pre x post l}, a.toRe.Match T.classes g' pre x post l → x = [] := weightless_match a hw
      by_cases hm : m = 0
      · subst hm
        have e : ∀ n, n ≠ some 0 → mkRepetition 0 n g (translate T a i).1 = .repetition 0 (some 1) g (translate T a i).1 := by
          intro n h0
          unfold mkRepetition
          rw [if_pos hl]
          match n, h0 with
          | none, _ => rfl
          | some 0, h0 => exact absurd rfl h0
          | some (k + 1), _ =>
            have : (k + 1).min 1 = 1 := by show min (k + 1) 1 = 1; omega
            simp only [this]; rfl
        rw [e n h0]
        have ho : a.once 0 n = false := by simp [Ast.once]
        refine ⟨ih.next, ih.indices, ⟨ih.wf, ?_, by intro k hk; cases hk; omega, e _ (by simp)⟩, trivial, ih.groups, ?_,
          by simp [Ast.void, h0, ho], ?_, ?_⟩
        · rintro ⟨h, -⟩
          exact hr3 ⟨ih.eager ▸ h, rfl, .inr ⟨h0, hw⟩⟩
        · refine ⟨ih.like.1, fun g' pre x post l => ?_⟩
          rcases hr2 with hg | hg
          · have hn := @match_nogroups_nil T.classes a.toRe hg
            refine ((ih.like.rep 0 (some 1) true true).2 ..).trans ?_
            refine (repeats_weightless (m := 0) (n := some 1) (fun _ _ _ _ h => ⟨he h, hn h⟩) (by simp) (by simp)).trans ?_
            exact (repeats_weightless (P := a.toRe.Match T.classes g') (m := 0) (n := n) (fun _ _ _ _ h => ⟨he h, hn h⟩) h0 (by simp)).symm
          · rw [hg.2 hw]
            exact (ih.like.rep 0 (some 1) true true).2 ..
        · simp [Ast.eager, Hir.eager, h0, ho]
        · simp [Ast.weightless, hw, Hir.Light, maxLen, show (translate T a i).1.maxLen = some 0 from hl]
      · have e : mkRepetition m n g (translate T a i).1 = (translate T a i).1 := by
          unfold mkRepetition
          rw [if_pos hl]
          have h1 : m.min 1 = 1 := by show min m 1 = 1; omega
          match n, h0 with
          | none, _ => simp [h1]
          | some 0, h0 => exact absurd rfl h0
          | some (k + 1), _ =>
            have h2 : (k + 1).min 1 = 1 := by show min (k + 1) 1 = 1; omega
            simp [h1, h2]
        rw [e]
        have ho : a.once m n = true := by simp [Ast.once, hw, hm]
        refine ⟨ih.next, ih.indices, ih.wf, ih.flat, ih.groups, ⟨ih.like.1, fun g' pre x post l => ?_⟩, by simp [Ast.void, h0, ho, ih.void],
          by simp [Ast.eager, h0, ho, ih.eager], by simp [Ast.weightless, hw, ih.light]⟩
        rcases hr2 with hg | hg
        · have hn := @match_nogroups_nil T.classes a.toRe hg
          refine (ih.like.2 ..).trans ?_
          refine Iff.trans ?_ (repeats_weightless (m := m) (n := n) (fun _ _ _ _ h => ⟨he h, hn h⟩) h0 hv.2).symm
          constructor
          · intro h
            obtain rfl := he h
            obtain rfl := hn h
            exact ⟨rfl, rfl, .inr h⟩
          · rintro ⟨rfl, rfl, h⟩
            exact h.resolve_left hm
        · have h1 := hg.2 hw
          obtain rfl : m = 1 := by have := hv.2 1 h1; omega
          rw [h1]
          exact (ih.like.2 ..).trans repeats_one.symm
    · have hl : ¬ (translate T a i).1.Light := by rw [ih.light]; exact hw
      have hw : a.weightless = false := by simpa using hw
      have hn : ¬ (m = 0 ∧ n = some 0) := fun h => h0 h.2
      by_cases h1 : m = 1 ∧ n = some 1
      · have e : mkRepetition m n g (translate T a i).1 = (translate T a i).1 := by
          unfold mkRepetition
          rw [if_neg hl]
          simp only [if_neg hn, if_pos h1]
        rw [e]
        obtain ⟨rfl, rfl⟩ := h1
        refine ⟨ih.next, ih.indices, ih.wf, ih.flat, ih.groups, ?_, by simp [Ast.void, Ast.once, ih.void], by simp [Ast.eager, Ast.once, ih.eager],
          by simp [Ast.weightless, ih.light]⟩
        exact ⟨ih.like.1, fun g' pre x post l => (ih.like.2 ..).trans repeats_one.symm⟩
      · have e : mkRepetition m n g (translate T a i).1 = .repetition m n g (translate T a i).1 := by
          unfold mkRepetition
          rw [if_neg hl]
          simp only [if_neg hn, if_neg h1]
        rw [e]
        have ho : a.once m n = false := by
          simp only [Ast.once, hw, Bool.false_and, Bool.or_false]
          simpa using h1
        refine ⟨ih.next, ih.indices, ⟨ih.wf, ?_, hv.2, e⟩, trivial, ih.groups, ih.like.rep _ _ _ _, by simp [Ast.void, h0, ho],
          by simp only [Ast.eager, Hir.eager, h0, ho]; simp, ?_⟩
        · rintro ⟨h, h2, h3⟩
          exact hr3 ⟨ih.eager ▸ h, h2, .inl h3⟩
        · refine ⟨fun h => absurd h ?_, fun h => absurd h (by simp [Ast.weightless, h0, hw])⟩
          simp only [Hir.Light, maxLen]
          have : (translate T a i).1.maxLen ≠ some 0 := hl
          cases n with
          | none => simp
          | some n =>
            cases hk : (translate T a i).1.maxLen with
            | none => simp
            | some k =>
              rw [hk] at this
              simp only [Option.some.injEq, ne_eq, Nat.mul_eq_zero, not_or] at this ⊢
              refine ⟨this, ?_⟩
              rintro rfl
              exact h0 rfl
theorem translates_ok : ∀ (as : List Ast) (i : Nat), Ast.AllValid as → Ast.AllRegular as →
    TranslatedL T as (translateL T as i).1 i (translateL T as i).2
  | [], i, _, _ => ⟨rfl, rfl, rfl, trivial, trivial, rfl, .refl _, .refl _, by simp [translateL, Ast.allVoid], rfl,
      by simp [translateL, Ast.allWeightless]⟩
  | a :: as, i, hv, hr => by
    have ih := translate_ok a i hv.1 hr.1
    have ihs := translates_ok as (translate T a i).2 hv.2 hr.2
    rw [translateL]
    refine ⟨by simp [ihs.length], ?_, ?_, ⟨ih.wf, ihs.wf⟩, ⟨ih.flat, ihs.flat⟩, ?_, ih.like.catL_cons ihs.cat,
      ih.like.altL_cons ihs.alt ?_, ?_, ?_, ?_⟩
    · rw [ihs.next, ih.next]
      simp only [Ast.toRes, List.map_cons, List.flatten_cons, List.length_append, Nat.add_assoc]
    · rw [indicesL, ih.indices, ihs.indices, ih.next]
      simp only [Ast.toRes, List.map_cons, List.flatten_cons, List.length_append]
      rw [List.range'_append_1]
    · simp only [toRes, Ast.toRes, List.map_cons, List.flatten_cons, ih.groups, ihs.groups]
    · rw [toRes_map, Ast.toRes_map, List.map_eq_nil_iff, List.map_eq_nil_iff, ← List.length_eq_zero_iff, ihs.length, List.length_eq_zero_iff]
    · simp only [List.mem_cons, forall_eq_or_imp, ih.void, ihs.void, Ast.allVoid, Bool.and_eq_true]
    · simp only [oneEager, Ast.eagerOne, ih.eager, ihs.eager, ih.void]
      have : ((translateL T as (translate T a i).2).1.all (· = .empty)) = Ast.allVoid as := by
        rw [Bool.eq_iff_iff, ← ihs.void]; simp
      rw [this]
    · simp only [List.mem_cons, forall_eq_or_imp, ih.light, ihs.light, Ast.allWeightless, Bool.and_eq_true]
end

end CE
