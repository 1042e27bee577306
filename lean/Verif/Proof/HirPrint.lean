import Verif.Spec.Hir
import Verif.Proof.Compose
import Verif.Proof.Expand

/-! # Reading back a printed HIR -/

namespace CE.Regex
open Hir Spec

/-! ## Characters -/

theorem printChar_head (c : Char) : ∃ x t, printChar c = x :: t ∧ (x = '\\' ∨ isMeta x = false) := by
  unfold printChar
  by_cases h : isMeta c = true
  · rw [if_pos h]; exact ⟨_, _, rfl, .inl rfl⟩
  · rw [if_neg h]; exact ⟨_, _, rfl, .inr (by simpa using h)⟩

theorem lexOne_plain {c : Char} (h : isMeta c = false) (r : List Char) : lexOne c r = .ok (.lit c, r) := by
  unfold lexOne
  split <;> first | rfl | (exact absurd h (by decide))

theorem lexes_printChar (c : Char) : Lexes (printChar c) [.lit c] := by
  intro rest
  unfold printChar
  by_cases h : isMeta c = true
  · rw [if_pos h]
    simp only [List.cons_append, List.nil_append]
    exact lex_cons (by simp only [lexOne, escape_special h])
  · rw [if_neg h]
    exact lex_cons (lexOne_plain (by simpa using h) rest)

theorem lexes_printChars (cs : List Char) : Lexes (cs.map printChar).flatten (cs.map .lit) := by
  induction cs with
  | nil => exact .nil
  | cons c cs ih => exact (lexes_printChar c).append ih

/-! ## Classes -/

theorem clsPrim_printChar (c : Char) (r : List Char) : clsPrim (printChar c ++ r) = .ok (.single c, r) := by
  unfold printChar
  by_cases h : isMeta c = true
  · rw [if_pos h]
    simp only [List.cons_append, List.nil_append, clsPrim, escape_special h]
  · rw [if_neg h]
    refine clsPrim_other r ?_
    rintro rfl; exact h (by decide)

def printItem : CItem → List Char
  | .single a => printChar a
  | .range a b => printChar a ++ '-' :: printChar b
  | _ => []

def ItemOk : CItem → Prop
  | .single _ => True
  | .range a b => a ≤ b
  | _ => False

theorem printItem_head {i : CItem} (h : ItemOk i) : ∃ x t, printItem i = x :: t ∧ (x = '\\' ∨ isMeta x = false) := by
  cases i with
  | single a => exact printChar_head a
  | range a b =>
    obtain ⟨x, t, h1, h2⟩ := printChar_head a
    exact ⟨x, t ++ '-' :: printChar b, by simp [printItem, h1], h2⟩
  | _ => exact absurd h id

theorem clsRange_item {i : CItem} (h : ItemOk i) (q : List Char) (hq : ∃ x t, q = x :: t ∧ x ≠ '-') :
    clsRange (printItem i ++ q) = .ok (i, q) := by
  obtain ⟨x, t, rfl, hx⟩ := hq
  cases i with
  | single a =>
    unfold clsRange
    rw [printItem, clsPrim_printChar]
    simp only []
    split
    · rename_i h0; cases h0
    · rename_i h0; exact absurd (List.cons.inj h0).1 hx
    · rename_i h0; exact absurd (List.cons.inj h0).1 hx
    · rfl
  | range a b =>
    have h1 := clsPrim_printChar b (x :: t)
    obtain ⟨y, u, h2, h3⟩ := printChar_head b
    unfold clsRange
    rw [printItem, List.append_assoc, clsPrim_printChar]
    simp only [List.cons_append]
    rw [h2] at h1 ⊢
    simp only [List.cons_append] at h1 ⊢
    have hy : ¬ (y = ']' ∨ y = '-') := by
      rintro (rfl | rfl) <;> exact absurd h3 (by decide)
    rw [if_neg hy, h1]
    simp only []
    exact if_pos h
  | _ => exact absurd h id

theorem clsItems_printed (is : List CItem) (h : ∀ i ∈ is, ItemOk i) (rest : List Char) (n : Nat) (hn : is.length < n) :
    clsItems n ((is.map printItem).flatten ++ ']' :: rest) = .ok (is.map .item, rest) := by
  induction is generalizing n with
  | nil =>
    obtain ⟨n, rfl⟩ : ∃ k, n = k + 1 := ⟨n - 1, by omega⟩
    rfl
  | cons i is ih =>
    obtain ⟨n, rfl⟩ : ∃ k, n = k + 1 := ⟨n - 1, by omega⟩
    have ih := ih (fun j hj => h j (by simp [hj])) n (by simp at hn; omega)
    have hq : ∃ x t, (is.map printItem).flatten ++ ']' :: rest = x :: t ∧ x ≠ '-' := by
      cases is with
      | nil => exact ⟨_, _, rfl, by decide⟩
      | cons j is =>
        obtain ⟨x, t, h1, h2⟩ := printItem_head (h j (by simp))
        refine ⟨x, _, by simp [h1]; rfl, ?_⟩
        rintro rfl
        exact absurd h2 (by decide)
    have hr := clsRange_item (h i (by simp)) _ hq
    obtain ⟨x, t, h1, h2⟩ := printItem_head (h i (by simp))
    rw [List.map_cons, List.flatten_cons, List.append_assoc]
    rw [h1] at hr ⊢
    rw [List.cons_append] at hr ⊢
    refine clsItems_mk ?_ ?_ ?_ hr ih
    · rintro rfl; exact absurd h2 (by decide)
    · rintro rfl; exact absurd h2 (by decide)
    · intro d t' _
      refine ⟨?_, ?_, ?_⟩ <;> rintro ⟨rfl, -⟩ <;> exact absurd h2 (by decide)

theorem printed_length (is : List CItem) (h : ∀ i ∈ is, ItemOk i) : is.length ≤ (is.map printItem).flatten.length := by
  induction is with
  | nil => simp
  | cons i is ih =>
    have := ih (fun j hj => h j (by simp [hj]))
    obtain ⟨x, t, h1, -⟩ := printItem_head (h i (by simp))
    simp only [List.map_cons, List.flatten_cons, h1, List.length_append, List.length_cons]
    omega

theorem assemble_items (is js : List CItem) : assemble none js (is.map .item) = js ++ is := by
  induction is generalizing js with
  | nil => simp [assemble, popOp]
  | cons i is ih => simp [assemble, ih]

theorem lexes_class (is : List CItem) (hne : is ≠ []) (h : ∀ i ∈ is, ItemOk i) :
    Lexes ('[' :: (is.map printItem).flatten ++ [']']) [.cls ⟨false, is⟩] := by
  intro rest
  simp only [List.cons_append, List.append_assoc, List.nil_append]
  refine lex_cons ?_
  cases is with
  | nil => exact absurd rfl hne
  | cons i is =>
    obtain ⟨x, t, h1, h2⟩ := printItem_head (h i (by simp))
    have hi := clsItems_printed (i :: is) h rest ((((i :: is).map printItem).flatten ++ ']' :: rest).length + 1) (by
      have := printed_length (i :: is) h
      rw [List.length_append]
      simp only [List.length_cons] at this ⊢
      omega)
    have hh : clsHead (((i :: is).map printItem).flatten ++ ']' :: rest) =
        (false, [], ((i :: is).map printItem).flatten ++ ']' :: rest) := by
      rw [List.map_cons, List.flatten_cons, h1]
      simp only [List.cons_append]
      have hd : ∀ q, clsDashes (x :: q) = ([], x :: q) := by
        intro q
        rw [clsDashes]
        intro r h0
        have := (List.cons.inj h0).1
        subst this
        exact absurd h2 (by decide)
      rw [clsHead]
      · unfold clsLead
        rw [hd]
        split
        · rename_i h0
          have := (List.cons.inj (Prod.mk.inj h0).2).1
          subst this
          exact absurd h2 (by decide)
        · rfl
      · intro r h0
        have := (List.cons.inj h0).1
        subst this
        exact absurd h2 (by decide)
    have ho : clsOpen (((i :: is).map printItem).flatten ++ ']' :: rest) = .ok (⟨false, i :: is⟩, rest) := by
      unfold clsOpen
      rw [hh]
      simp only [hi, assemble_items, List.nil_append]
    simp only [lexOne, ho]

theorem lexes_void : Lexes ['[', 'a', '&', '&', 'b', ']'] [.cls ⟨false, classItems []⟩] := by
  intro rest
  have : clsOpen ('a' :: '&' :: '&' :: 'b' :: ']' :: rest) = .ok (⟨false, classItems []⟩, rest) := rfl
  simp only [List.cons_append, List.nil_append]
  exact lex_cons (by simp only [lexOne, this])

theorem printRange_eq (r : Char × Char) : printRange r = ((rangeItems r).map printItem).flatten := by
  unfold printRange rangeItems
  split
  · simp [printItem]
  · split <;> simp [printItem]

theorem printRanges_eq (rs : List (Char × Char)) :
    (rs.map printRange).flatten = ((rs.flatMap rangeItems).map printItem).flatten := by
  induction rs with
  | nil => rfl
  | cons r rs ih => simp [printRange_eq, ih]

theorem rangeItems_ok {r : Char × Char} (h : r.1 ≤ r.2) : rangeItems r ≠ [] ∧ ∀ i ∈ rangeItems r, ItemOk i := by
  unfold rangeItems
  split
  · exact ⟨by simp, by simp [ItemOk]⟩
  · split
    · exact ⟨by simp, by simp [ItemOk]⟩
    · exact ⟨by simp, by simpa [ItemOk] using h⟩

/-! ## Repetitions -/

theorem decDigits_decimal (n : Nat) {c : Char} (hc : c.isDigit = false) (rest : List Char) :
    decDigits (decimal n ++ c :: rest) = (decimal n, c :: rest) := by
  have : ∀ ds : List Char, (∀ d ∈ ds, d.isDigit = true) → decDigits (ds ++ c :: rest) = (ds, c :: rest) := by
    intro ds
    induction ds with
    | nil => intro _; simp [decDigits, hc]
    | cons d ds ih =>
      intro h
      rw [List.cons_append, decDigits, if_pos (h d (by simp)), ih fun x hx => h x (by simp [hx])]
  exact this _ fun d hd => isDigit_decimal hd

theorem numeral_decimal (n : Nat) {c : Char} (hc : c.isDigit = false) (hb : isBlank c = false) (rest : List Char) :
    numeral (decimal n ++ c :: rest) = (decimal n, c :: rest) := by
  have h : (decimal n ++ c :: rest).dropWhile isBlank = decimal n ++ c :: rest := by
    cases hd : decimal n with
    | nil => simp [hb]
    | cons d ds =>
      have h1 : d.isDigit = true := isDigit_decimal (n := n) (by rw [hd]; simp)
      have h2 : isBlank d = false := by
        simp only [Char.isDigit, Bool.and_eq_true, decide_eq_true_eq, ge_iff_le, UInt32.le_iff_toNat_le] at h1
        have h3 : 48 ≤ d.toNat := h1.1
        have h4 : d.toNat ≤ 57 := h1.2
        simp only [isBlank, Bool.or_eq_false_iff, Bool.and_eq_false_iff, decide_eq_false_iff_not, List.contains_eq_mem, List.mem_cons,
          List.not_mem_nil, or_false]
        omega
      simp [h2]
  unfold numeral
  rw [h, decDigits_decimal n hc]
  simp [hb]

theorem decVal_decimal (n : Nat) : decVal (decimal n) = n := Nat.ofDigitChars_ten_toDigits (n := n)

theorem decimal_ne_nil (n : Nat) : decimal n ≠ [] := by
  intro h
  have := congrArg List.length h
  have h2 := @Nat.length_toDigits_pos 10 n
  unfold decimal at this
  simp at this

def lazyToks (g : Bool) : List Tok := if g then [] else [.quest]

theorem lexes_lazy (g : Bool) : Lexes (printRep.lazy g) (lazyToks g) := by
  cases g
  · exact lexes_quest
  · exact .nil

def repToks : Nat → Option Nat → Bool → List Tok
  | 0, some 1, g => .quest :: lazyToks g
  | 0, none, g => .star :: lazyToks g
  | 1, none, g => .plus :: lazyToks g
  | 1, some 1, _ => []
  | m, none, g => .count m none :: lazyToks g
  | m, some n, g => if m = n then [.count m (some m)] else .count m (some n) :: lazyToks g

theorem lexes_star : Lexes ['*'] [.star] := fun rest => by
  rw [List.cons_append, lex_cons (t := .star) (r' := rest) rfl]

theorem lexes_plus : Lexes ['+'] [.plus] := fun rest => by
  rw [List.cons_append, lex_cons (t := .plus) (r' := rest) rfl]

theorem countTok_exact (m : Nat) (rest : List Char) : countTok (decimal m ++ '}' :: rest) = .ok (.count m (some m), rest) := by
  unfold countTok
  rw [numeral_decimal m (by decide) (by decide)]
  have h := decVal_decimal m
  cases hd : decimal m with
  | nil => exact absurd hd (decimal_ne_nil m)
  | cons d ds => rw [hd] at h; simp only [h]

theorem countTok_atLeast (m : Nat) (rest : List Char) : countTok (decimal m ++ ',' :: '}' :: rest) = .ok (.count m none, rest) := by
  unfold countTok
  rw [numeral_decimal m (by decide) (by decide)]
  have h := decVal_decimal m
  cases hd : decimal m with
  | nil => exact absurd hd (decimal_ne_nil m)
  | cons d ds => rw [hd] at h; simp only [h]

theorem countTok_between (m n : Nat) (hmn : m ≤ n) (rest : List Char) :
    countTok (decimal m ++ ',' :: (decimal n ++ '}' :: rest)) = .ok (.count m (some n), rest) := by
  have hm := decVal_decimal m
  have hn := decVal_decimal n
  have h1 := numeral_decimal n (c := '}') (by decide) (by decide) rest
  cases hdn : decimal n with
  | nil => exact absurd hdn (decimal_ne_nil n)
  | cons e es =>
    have he : e ≠ '}' := by
      rintro rfl
      have := isDigit_decimal (n := n) (c := '}') (by rw [hdn]; simp)
      exact absurd this (by decide)
    rw [hdn] at h1 hn
    simp only [List.cons_append] at h1 ⊢
    unfold countTok
    rw [numeral_decimal m (by decide) (by decide)]
    cases hd : decimal m with
    | nil => exact absurd hd (decimal_ne_nil m)
    | cons d ds =>
      rw [hd] at hm
      split <;> rename_i h0 <;> first | (cases h0; done) | skip
      · exact absurd (List.cons.inj (List.cons.inj (Prod.mk.inj h0).2).2).1 he
      · cases h0
        rw [h1]
        simp only [hm, hn]
        exact if_pos hmn
      all_goals exact absurd rfl (h0 _ _)

theorem lexes_count {cs : List Char} {t : Tok} (h : ∀ rest, countTok (cs ++ rest) = .ok (t, rest)) : Lexes ('{' :: cs) [t] :=
  fun rest => by
    rw [List.cons_append]
    exact lex_cons (by simp only [lexOne, h])

theorem repToks_atLeast {m : Nat} {g : Bool} (h0 : m ≠ 0) (h1 : m ≠ 1) : repToks m none g = .count m none :: lazyToks g := by
  unfold repToks; split <;> simp_all

theorem repToks_between {m k : Nat} {g : Bool} (h0 : ¬ (m = 0 ∧ k = 1)) (h1 : ¬ (m = 1 ∧ k = 1)) :
    repToks m (some k) g = if m = k then [.count m (some m)] else .count m (some k) :: lazyToks g := by
  unfold repToks; split <;> simp_all

theorem lexes_rep (m : Nat) (n : Option Nat) (g : Bool) (h : ∀ k, n = some k → m ≤ k) :
    Lexes (printRep m n g) (repToks m n g) := by
  unfold printRep
  split
  · exact lexes_quest.append (lexes_lazy g)
  · exact lexes_star.append (lexes_lazy g)
  · exact lexes_plus.append (lexes_lazy g)
  · exact .nil
  · rename_i h0 h1
    rw [repToks_atLeast h0 h1]
    have := lexes_count (cs := decimal m ++ [',', '}']) (t := .count m none) (fun rest => by
      simpa using countTok_atLeast m rest)
    simpa using this.append (lexes_lazy g)
  · rename_i k h0 h1
    rw [repToks_between (fun e => h0 e.1 (by rw [e.2])) (fun e => h1 e.1 (by rw [e.2]))]
    split
    · have := lexes_count (cs := decimal m ++ ['}']) (t := .count m (some m)) (fun rest => by
        simpa using countTok_exact m rest)
      simpa using this
    · have := lexes_count (cs := decimal m ++ [','] ++ decimal k ++ ['}']) (t := .count m (some k)) (fun rest => by
        simpa using countTok_between m k (h k rfl) rest)
      have := this.append (lexes_lazy g)
      simpa using this

/-! ## The stack machine -/

/-- The tokens add one item that a following `?` does not make lazy. -/
def Atom (ts : List Tok) (r : Re) : Prop :=
  ∀ st br it fr rest, build st ⟨br, it, fr⟩ (ts ++ rest) = build st ⟨br, r :: it, false⟩ rest

theorem Atom.readsAs {ts : List Tok} {r : Re} (h : Atom ts r) : ReadsAs ts [r] :=
  fun fr => ⟨false, fun st br it rest => h st br it fr rest⟩

theorem Atom.grouped {bs : List (List Tok × List Re)} (hne : bs ≠ []) (hb : ∀ b ∈ bs, ReadsAs b.1 b.2) :
    Atom (.group :: barred (bs.map (·.1)) ++ [.close]) (altL (bs.map (fun b => catL b.2))) := by
  intro st br it fr rest
  obtain ⟨f, h⟩ := readBranches bs hne hb false
  obtain ⟨it', br', h1, h2⟩ := h ((.group, ⟨br, it, fr⟩) :: st) [] (.close :: rest)
  simp only [List.cons_append, List.append_assoc, List.nil_append, build, Frame.start]
  rw [h1]
  simp only [List.append_nil] at h2
  simp [build, Frame.push, Kind.wrap, Frame.finish, h2]

theorem Atom.captured {name : Option (List Char)} {ts : List Tok} {r : Re} (h : ReadsAs ts [r]) :
    Atom (.capture name :: ts ++ [.close]) (.cap name r) := by
  intro st br it fr rest
  obtain ⟨f, h⟩ := h false
  simp only [List.cons_append, List.append_assoc, build, Frame.start]
  rw [h]
  simp [build, Frame.push, Kind.wrap, Frame.finish, altL, catL]

/-- The tokens of a repetition are read as the repetition, and a `?` after them would make it lazy only if it is eager. -/
theorem build_rep {ts : List Tok} {r : Re} (h : ReadsAs ts [r]) (m : Nat) (n : Option Nat) (g : Bool)
    (h1 : ¬ (m = 1 ∧ n = some 1)) (h2 : m = 0 ∧ n = some 1 → Atom ts r) (st : List (Kind × Frame)) (br : List Re) (it : List Re) (fr : Bool)
    (rest : List Tok) : build st ⟨br, it, fr⟩ (ts ++ repToks m n g ++ rest) =
      build st ⟨br, .rep r m n (n == some m || g) :: it, n == some m || g⟩ rest := by
  have key : ∀ (op : Tok) (g' : Bool), (∀ fr', (m = 0 ∧ n = some 1 → fr' = false) → build st ⟨br, r :: it, fr'⟩ (op :: (lazyToks g' ++ rest)) =
      build st ⟨br, .rep r m n true :: it, true⟩ (lazyToks g' ++ rest)) →
      build st ⟨br, it, fr⟩ (ts ++ (op :: lazyToks g') ++ rest) = build st ⟨br, .rep r m n g' :: it, g'⟩ rest := by
    intro op g' hop
    have hts : ∃ fr', (m = 0 ∧ n = some 1 → fr' = false) ∧ ∀ rest, build st ⟨br, it, fr⟩ (ts ++ rest) = build st ⟨br, r :: it, fr'⟩ rest := by
      by_cases hq : m = 0 ∧ n = some 1
      · exact ⟨false, fun _ => rfl, fun rest => h2 hq st br it fr rest⟩
      · obtain ⟨fr', h⟩ := h fr
        exact ⟨fr', fun h => absurd h hq, fun rest => h st br it rest⟩
    obtain ⟨fr', hf, hts⟩ := hts
    rw [List.append_assoc, hts, List.cons_append, hop fr' hf]
    cases g'
    · rfl
    · rfl
  unfold repToks
  split
  · exact key .quest g (fun fr' hf => by rw [hf ⟨rfl, rfl⟩]; rfl)
  · exact key .star g (fun _ _ => rfl)
  · exact key .plus g (fun _ _ => rfl)
  · exact absurd ⟨rfl, rfl⟩ h1
  · simpa using key (.count m none) g (fun _ _ => rfl)
  · rename_i k _ _
    split
    · rename_i hmk
      subst hmk
      simpa [lazyToks] using key (.count m (some m)) true (fun _ _ => rfl)
    · rename_i hmk
      have : (some k == some m) = false := by simpa using fun h => hmk h.symm
      rw [this, Bool.false_or]
      exact key (.count m (some k)) g (fun _ _ => rfl)

/-! ## Group names -/

theorem captureChar_ascii {b : Bool} {c : Char} (h : isCaptureChar b c = true) : c ≠ '>' ∧ ¬ 128 ≤ c.toNat := by
  have ascii : ∀ {a b : Char}, a.toNat ≤ c.toNat → c.toNat ≤ b.toNat → b.toNat < 128 → ¬ 128 ≤ c.toNat := by
    intro a b _ h2 h3; omega
  constructor
  · rintro rfl; cases b <;> exact absurd h (by decide)
  · intro h128
    have hu : c.isUpper = false := by
      simp only [Char.isUpper]; simp; intro _; show ('Z' : Char).val < c.val
      rw [UInt32.lt_iff_toNat_lt]; exact Nat.lt_of_lt_of_le (by decide) h128
    have hl : c.isLower = false := by
      simp only [Char.isLower]; simp; intro _; show ('z' : Char).val < c.val
      rw [UInt32.lt_iff_toNat_lt]; exact Nat.lt_of_lt_of_le (by decide) h128
    have hd : c.isDigit = false := by
      simp only [Char.isDigit]; simp; intro _; show ('9' : Char).val < c.val
      rw [UInt32.lt_iff_toNat_lt]; exact Nat.lt_of_lt_of_le (by decide) h128
    simp only [isCaptureChar, Char.isAlphanum, Char.isAlpha, hu, hl, hd] at h
    have hne : ∀ d : Char, d.toNat < 128 → c ≠ d := by rintro d hd rfl; omega
    cases b <;> simp [hne _ (by decide : ('_' : Char).toNat < 128), hne _ (by decide : ('.' : Char).toNat < 128),
      hne _ (by decide : ('[' : Char).toNat < 128), hne _ (by decide : (']' : Char).toNat < 128)] at h

theorem capName_valid {n : List Char} (h : ValidName n) (rest : List Char) : capName true (n ++ '>' :: rest) = .ok (n, rest) := by
  obtain ⟨c, r, rfl, hc, hr⟩ := h
  have hrest : ∀ r : List Char, (∀ d ∈ r, isCaptureChar false d = true) → capName false (r ++ '>' :: rest) = .ok (r, rest) := by
    intro r
    induction r with
    | nil => intro _; simp [capName]
    | cons d r ih =>
      intro h
      obtain ⟨h1, h2⟩ := captureChar_ascii (h d (by simp))
      rw [List.cons_append, capName, if_neg h1, if_neg h2, if_pos (h d (by simp)), ih fun x hx => h x (by simp [hx])]
  obtain ⟨h1, h2⟩ := captureChar_ascii hc
  rw [List.cons_append, capName, if_neg h1, if_neg h2, if_pos hc, hrest r hr]

theorem validName_groupName (id k : Nat) : ValidName (groupName id k) := by
  refine ⟨'_', '_' :: (decimal id ++ ['_'] ++ decimal k), by simp [groupName], by decide, ?_⟩
  intro d hd
  have hdig : ∀ d : Char, d.isDigit = true → isCaptureChar false d = true := by
    intro d h; simp [isCaptureChar, Char.isAlphanum, h]
  simp only [List.mem_cons, List.mem_append, List.not_mem_nil, or_false] at hd
  rcases hd with rfl | (h | rfl) | h
  · decide
  · exact hdig _ (isDigit_decimal h)
  · decide
  · exact hdig _ (isDigit_decimal h)

/-! ## Conditions on positions -/

def markToks : Mark → List Tok
  | .word => [.mark .word]
  | .nonWord => [.mark .nonWord]
  | .lineStart => [.group, .mark .lineStart, .close]
  | .lineEnd => [.group, .mark .lineEnd, .close]

theorem lexes_mark (k : Mark) (t : List (Char × Char)) : Lexes (Hir.look (.mark k t)).print (markToks k) := by
  have line : ∀ (c : Char) (u : Tok), (∀ r, lexOne c r = .ok (u, r)) → (∀ c, u ≠ .capture c) → u ≠ .group → u ≠ .close →
      Lexes ['(', '?', 'm', ':', c, ')'] [.group, u.under { multi := true } c, .close] := by
    intro c u hu h1 h2 h3 rest
    have e1 : rawOne '(' ('?' :: 'm' :: ':' :: c :: ')' :: rest) = .ok (.scope [(.m, true)], c :: ')' :: rest) := rfl
    have e2 := rawOne_of (hu (')' :: rest))
    have e3 : rawOne ')' rest = .ok (.tok ')' .close, rest) := rfl
    have e4 : (RTok.tok c u).step { multi := true } [{}] = ([u.under { multi := true } c], { multi := true }, [{}]) := by
      cases u <;> first | rfl | exact absurd rfl (h1 _) | exact absurd rfl h2 | exact absurd rfl h3
    simp only [List.cons_append, List.nil_append, lex, List.length_cons, lexF, e1, e2, e3]
    rw [lexF_enough (rest.length + 1 + 1 + 1) rest.length rest (by omega) (Nat.le_refl _)]
    cases lexF rest.length rest with
    | error e => rfl
    | ok ts =>
      simp only []
      rw [resolve]
      · show prep [.group] (resolve { multi := true } [{}] (.tok c u :: .tok ')' .close :: ts)) = _
        rw [resolve_tok, e4]
        show prep [.group] (prep [_] (prep [.close] (resolve {} [] ts))) = _
        rw [prep_prep, prep_prep]
        rfl
      · intro l h; cases h
  cases k with
  | word => intro rest; simp only [Hir.print, List.cons_append, List.nil_append]; exact lex_cons rfl
  | nonWord => intro rest; simp only [Hir.print, List.cons_append, List.nil_append]; exact lex_cons rfl
  | lineStart => exact line '^' .bol (fun _ => rfl) (by simp) (by simp) (by simp)
  | lineEnd => exact line '$' .eol (fun _ => rfl) (by simp) (by simp) (by simp)

theorem atom_mark (k : Mark) : Atom (markToks k) (.mark k) := by
  cases k <;> exact fun _ _ _ _ _ => rfl

/-! ## The whole tree -/

mutual
def hirToks : Hir → List Tok
  | .empty => [.group, .close]
  | .literal cs => if 1 < cs.length then .group :: cs.map .lit ++ [.close] else cs.map .lit
  | .cls rs => [.cls ⟨false, classItems rs⟩]
  | .look .start => [.bol]
  | .look .finish => [.eol]
  | .look (.mark k _) => markToks k
  | .repetition m n g sub => hirToks sub ++ repToks m n g
  | .capture _ name sub => .capture name :: hirToks sub ++ [.close]
  | .concat subs => .group :: catToks subs ++ [.close]
  | .alternation subs => .group :: barred (listToks subs) ++ [.close]
def catToks : List Hir → List Tok
  | [] => []
  | h :: hs => hirToks h ++ catToks hs
def listToks : List Hir → List (List Tok)
  | [] => []
  | h :: hs => hirToks h :: listToks hs
end

theorem listToks_eq (hs : List Hir) : listToks hs = hs.map hirToks := by
  induction hs with
  | nil => rfl
  | cons h hs ih => simp [listToks, ih]

theorem toRes_eq (hs : List Hir) : toRes hs = hs.map toRe := by
  induction hs with
  | nil => rfl
  | cons h hs ih => simp [toRes, ih]

theorem print_head : ∀ h : Hir, h.Wf → ∃ c t, h.print = c :: t ∧ c ≠ '?'
  | .empty, _ => ⟨_, _, rfl, by decide⟩
  | .literal cs, hw => by
    simp only [print]
    split
    · exact ⟨_, _, rfl, by decide⟩
    · cases cs with
      | nil => exact absurd rfl hw
      | cons c cs =>
        obtain ⟨x, t, h1, h2⟩ := printChar_head c
        refine ⟨x, t ++ (cs.map printChar).flatten, by simp [h1], ?_⟩
        rintro rfl
        exact absurd h2 (by decide)
  | .cls rs, hw => by
    simp only [print]
    split
    · exact ⟨_, _, rfl, by decide⟩
    · exact ⟨_, _, rfl, by decide⟩
  | .look .start, _ => ⟨_, _, rfl, by decide⟩
  | .look .finish, _ => ⟨_, _, rfl, by decide⟩
  | .look (.mark k _), _ => by cases k <;> exact ⟨_, _, rfl, by decide⟩
  | .repetition m n g sub, hw => by
    obtain ⟨c, t, h1, h2⟩ := print_head sub hw.1
    exact ⟨c, t ++ printRep m n g, by simp [print, h1], h2⟩
  | .capture _ none _, _ => ⟨_, _, rfl, by decide⟩
  | .capture _ (some _) _, _ => ⟨_, _, rfl, by decide⟩
  | .concat _, _ => ⟨_, _, rfl, by decide⟩
  | .alternation _, _ => ⟨_, _, rfl, by decide⟩

/-- The printed HIR is read as its meaning. -/
def Good (h : Hir) : Prop :=
  Lexes h.print (hirToks h) ∧ ReadsAs (hirToks h) [h.toRe] ∧ (h.eager = false → Atom (hirToks h) h.toRe)

theorem Good.of_atom {h : Hir} (h1 : Lexes h.print (hirToks h)) (h2 : Atom (hirToks h) h.toRe) : Good h :=
  ⟨h1, h2.readsAs, fun _ => h2⟩

theorem not_one {m : Nat} {n : Option Nat} {g : Bool} {sub : Hir} (h : mkRepetition m n g sub = .repetition m n g sub) :
    ¬ (m = 1 ∧ n = some 1) := by
  rintro ⟨rfl, rfl⟩
  have h1 : mkRepetition 1 (some 1) g sub = sub := by
    unfold mkRepetition
    by_cases h0 : sub.maxLen = some 0 <;> simp [h0]
  rw [h1] at h
  have := congrArg sizeOf h
  simp at this

mutual
theorem good : ∀ h : Hir, h.Wf → Good h
  | .empty, _ => .of_atom (lexes_open.append lexes_close) (fun _ _ _ _ _ => rfl)
  | .literal cs, hw => by
    refine .of_atom ?_ ?_
    · simp only [print, hirToks]
      split
      · exact (lexes_open.append (lexes_printChars cs)).append lexes_close
      · exact lexes_printChars cs
    · simp only [hirToks, toRe]
      split
      · have := Atom.grouped (bs := [(cs.map .lit, cs.map .lit)]) (by simp) (by simpa using ReadsAs.lits cs)
        simpa [barred, altL] using this
      · rename_i hlen
        cases cs with
        | nil => exact absurd rfl hw
        | cons c cs =>
          cases cs with
          | nil => exact fun _ _ _ _ _ => rfl
          | cons d cs => simp at hlen
  | .cls rs, hw => by
    have hok : ∀ i ∈ rs.flatMap rangeItems, ItemOk i := by
      intro i hi
      obtain ⟨r, hr, hi⟩ := List.mem_flatMap.1 hi
      exact (rangeItems_ok (hw r hr)).2 i hi
    refine .of_atom ?_ (fun _ _ _ _ _ => rfl)
    cases rs with
    | nil => exact lexes_void
    | cons r rs =>
      have := lexes_class _ (by have := (rangeItems_ok (hw r (by simp))).1; simp [this]) hok
      rw [← printRanges_eq] at this
      simpa [print, hirToks, classItems] using this
  | .look .start, _ => .of_atom (fun rest => by simp only [print, List.cons_append, List.nil_append]; exact lex_cons rfl)
      (fun _ _ _ _ _ => rfl)
  | .look .finish, _ => .of_atom (fun rest => by simp only [print, List.cons_append, List.nil_append]; exact lex_cons rfl)
      (fun _ _ _ _ _ => rfl)
  | .look (.mark k t), _ => .of_atom (lexes_mark k t) (atom_mark k)
  | .repetition m n g sub, hw => by
    obtain ⟨h1, h2, h3, h4⟩ := hw
    obtain ⟨g1, g2, g3⟩ := good sub h1
    have hb := build_rep g2 m n g (not_one h4) (fun h => g3 (by
      cases he : sub.eager
      · rfl
      · exact absurd ⟨he, h⟩ h2))
    refine ⟨g1.append (lexes_rep m n g h3), fun fr => ⟨n == some m || g, fun st br it rest => hb st br it fr rest⟩, fun he st br it fr rest => ?_⟩
    have := hb st br it fr rest
    simp only [eager] at he
    simp only [he] at this
    simpa only [hirToks, toRe, he] using this
  | .capture i name sub, hw => by
    obtain ⟨h1, h2⟩ := hw
    obtain ⟨g1, g2, g3⟩ := good sub h1
    refine .of_atom ?_ (Atom.captured g2)
    cases name with
    | none =>
      intro rest
      simp only [print, hirToks, List.cons_append, List.append_assoc, List.nil_append]
      have : lexOne '(' (sub.print ++ ')' :: rest) = .ok (.capture none, sub.print ++ ')' :: rest) := by
        obtain ⟨c, t, hc, hne⟩ := print_head sub h1
        rw [hc]
        exact groupOpen_other _ hne
      rw [lex_cons this, g1 (')' :: rest), lex_cons (t := .close) (r' := rest) rfl, prep_prep, prep_prep]
      rfl
    | some nm =>
      have hn := h2 nm rfl
      intro rest
      simp only [print, hirToks, List.cons_append, List.append_assoc, List.nil_append]
      have : lexOne '(' ('?' :: 'P' :: '<' :: (nm ++ '>' :: (sub.print ++ ')' :: rest))) =
          .ok (.capture (some nm), sub.print ++ ')' :: rest) := by
        simp only [lexOne, groupOpen, capName_valid hn]
      rw [lex_cons this, g1 (')' :: rest), lex_cons (t := .close) (r' := rest) rfl, prep_prep, prep_prep]
      rfl
  | .concat subs, hw => by
    have hg := goods subs hw
    refine .of_atom ?_ ?_
    · refine (lexes_open.append ?_).append lexes_close
      clear hw
      induction subs with
      | nil => exact .nil
      | cons h hs ih => exact (hg h (by simp)).1.append (ih fun x hx => hg x (by simp [hx]))
    · have hr : ReadsAs (catToks subs) (toRes subs) := by
        clear hw
        induction subs with
        | nil => exact .nil
        | cons h hs ih => exact (hg h (by simp)).2.1.append (ih fun x hx => hg x (by simp [hx]))
      have := Atom.grouped (bs := [(catToks subs, toRes subs)]) (by simp) (by simpa using hr)
      simpa [hirToks, toRe, barred, altL] using this
  | .alternation subs, hw => by
    have hg := goods subs hw.2
    refine .of_atom ?_ ?_
    · refine (lexes_open.append ?_).append lexes_close
      clear hw
      induction subs with
      | nil => exact .nil
      | cons h hs ih =>
        have ih := ih fun x hx => hg x (by simp [hx])
        cases hs with
        | nil => exact (hg h (by simp)).1
        | cons k hs => exact (hg h (by simp)).1.append (lexes_bar.append ih)
    · have := Atom.grouped (bs := subs.map fun h => (hirToks h, [h.toRe])) (by simpa using hw.1) (by
        intro b hb
        obtain ⟨h, hh, rfl⟩ := List.mem_map.1 hb
        exact (hg h hh).2.1)
      simpa [hirToks, toRe, listToks_eq, toRes_eq, List.map_map, Function.comp_def, catL] using this
theorem goods : ∀ hs : List Hir, WfAll hs → ∀ h ∈ hs, Good h
  | [], _, _, hm => absurd hm (by simp)
  | h :: hs, hw, x, hm => by
    by_cases hx : x = h
    · rw [hx]; exact good h hw.1
    · exact goods hs hw.2 x ((List.mem_cons.1 hm).resolve_left hx)
termination_by structural hs => hs
end

/-- A printed HIR is a regular expression: that of the HIR. -/
theorem parse_print {h : Hir} (hw : h.Wf) (hn : h.toRe.names.Nodup) : parse h.print = .ok h.toRe := by
  obtain ⟨h1, h2, _⟩ := good h hw
  obtain ⟨f, h2⟩ := h2 false
  have h3 := h2 [] [] [] []
  have h4 : build [] .start (hirToks h) = .ok h.toRe := by
    simp only [List.append_nil] at h3
    rw [Frame.start, h3]
    simp [build, Frame.finish, altL, catL]
  simp only [parse, h1.lex, h4, if_pos hn]

end CE.Regex
