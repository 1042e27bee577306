import Verif.Proof.HirSearch

/-! # The syntax tree of the generated pattern, with its non-capturing groups -/

namespace CE.Regex
open CE.Spec

/-- The tokens `ts` add the items `as` to the current branch. -/
def AReadsAs (ts : List Tok) (as : List Ast) : Prop :=
  ∀ fr, ∃ fr', ∀ st br it rest, buildA st ⟨br, it, fr⟩ (ts ++ rest) = buildA st ⟨br, as.reverse ++ it, fr'⟩ rest

theorem AReadsAs.nil : AReadsAs [] [] := fun fr => ⟨fr, fun _ _ _ _ => rfl⟩

theorem AReadsAs.append {ts us : List Tok} {rs qs : List Ast} (h : AReadsAs ts rs) (h' : AReadsAs us qs) :
    AReadsAs (ts ++ us) (rs ++ qs) := by
  intro fr
  obtain ⟨f1, h1⟩ := h fr
  obtain ⟨f2, h2⟩ := h' f1
  refine ⟨f2, fun st br it rest => ?_⟩
  rw [List.append_assoc, h1, h2, List.reverse_append, List.append_assoc]

theorem AReadsAs.lits (u : List Char) : AReadsAs (u.map .lit) (u.map .lit) := by
  induction u with
  | nil => exact .nil
  | cons c u ih => exact AReadsAs.append (ts := [.lit c]) (rs := [.lit c]) (fun _ => ⟨false, fun _ _ _ _ => rfl⟩) ih

theorem AReadsAs.flatten {α : Type} {t : α → List Tok} {r : α → List Ast} (as : List α) (h : ∀ a ∈ as, AReadsAs (t a) (r a)) :
    AReadsAs (as.map t).flatten (as.map r).flatten := by
  induction as with
  | nil => exact .nil
  | cons a as ih => exact (h a (by simp)).append (ih fun b hb => h b (by simp [hb]))

/-- Reading branches until the end of the group. -/
theorem areadBranches : ∀ (bs : List (List Tok × List Ast)) (_ : bs ≠ []) (_ : ∀ b ∈ bs, AReadsAs b.1 b.2) (fr : Bool),
    ∃ fr', ∀ st br rest, ∃ it br', buildA st ⟨br, [], fr⟩ (barred (bs.map (·.1)) ++ rest) =
        buildA st ⟨br', it, fr'⟩ rest ∧ catA it.reverse :: br' = (bs.map (fun b => catA b.2)).reverse ++ br
  | [], h, _, _ => absurd rfl h
  | [b], _, hb, fr => by
    obtain ⟨f, h⟩ := hb b (by simp) fr
    refine ⟨f, fun st br rest => ⟨b.2.reverse, br, ?_, ?_⟩⟩
    · simpa [barred] using h st br [] rest
    · simp
  | b :: b' :: bs, _, hb, fr => by
    obtain ⟨f, h⟩ := hb b (by simp) fr
    obtain ⟨f', h'⟩ := areadBranches (b' :: bs) (by simp) (fun x hx => hb x (by simp [hx])) false
    refine ⟨f', fun st br rest => ?_⟩
    obtain ⟨it, br', h1, h2⟩ := h' st (catA b.2 :: br) rest
    refine ⟨it, br', ?_, ?_⟩
    · rw [← h1]
      simp only [List.map_cons, barred, List.append_assoc, List.cons_append]
      rw [h]
      simp [buildA]
    · rw [h2]; simp

theorem AReadsAs.group {bs : List (List Tok × List Ast)} (hne : bs ≠ []) (hb : ∀ b ∈ bs, AReadsAs b.1 b.2) :
    AReadsAs (.group :: barred (bs.map (·.1)) ++ [.close]) [.group (altA (bs.map (fun b => catA b.2)))] := by
  intro fr
  obtain ⟨f, h⟩ := areadBranches bs hne hb false
  refine ⟨false, fun st br it rest => ?_⟩
  obtain ⟨it', br', h1, h2⟩ := h ((.group, ⟨br, it, fr⟩) :: st) [] (.close :: rest)
  simp only [List.cons_append, List.append_assoc, List.nil_append, buildA, AFrame.start]
  rw [h1]
  simp only [List.append_nil] at h2
  simp [buildA, AFrame.push, Kind.wrapA, AFrame.finish, h2]

theorem AReadsAs.optionalGroup {ts : List Tok} {rs : List Ast} (h : AReadsAs ts rs) :
    AReadsAs (.group :: ts ++ [.close, .quest]) [.rep (.group (catA rs)) 0 (some 1) true] := by
  intro fr
  obtain ⟨f, h⟩ := h false
  refine ⟨true, fun st br it rest => ?_⟩
  simp only [List.cons_append, List.append_assoc, buildA, AFrame.start]
  rw [h]
  simp [buildA, AFrame.push, Kind.wrapA, AFrame.finish, altA, AFrame.quest, AFrame.repeated]

/-! ## Built-in parameters -/

def astDigits : Ast := .rep (.cls digitCls) 1 none true
def astDigits0 : Ast := .rep (.cls digitCls) 0 none true
def astSign : Ast := .rep (.cls ⟨false, [.single '+', .single '-']⟩) 0 (some 1) true
def intAst : Ast := .cap none (.alt [.group (.concat [.rep (.lit '-') 0 (some 1) true, astDigits]), .group astDigits])
def mantissaAst : Ast := .alt [astDigits, .concat [astDigits, .lit '.', astDigits0], .concat [astDigits0, .lit '.', astDigits]]
def exponentAst : Ast := .concat [.cls ⟨false, [.single 'e', .single 'E']⟩, astSign, astDigits]
def floatAst : Ast := .cap none (.concat [astSign, .group (.alt [.concat [.lit 'i', .lit 'n', .lit 'f'],
  .concat [.lit 'N', .lit 'a', .lit 'N'], .concat [.group mantissaAst, .rep (.group exponentAst) 0 (some 1) true]])])
def wordAst : Ast := .cap none (.rep (.cls ⟨true, [.perl false .space]⟩) 1 none true)
def anonAst : Ast := .cap none (.rep .dot 0 none true)
def notQuoteAst (q : Char) : Ast := .rep (.cls ⟨true, [.single q, .single '\\']⟩) 0 none true
def quotedAst (q : Char) (id k : Nat) : Ast :=
  .concat [.lit q, .cap (some (groupName id k)) (.concat [notQuoteAst q,
    .rep (.group (.concat [.lit '\\', .dot, notQuoteAst q])) 0 none true]), .lit q]
def stringAst (id : Nat) : Ast := .group (.alt [quotedAst '"' id 0, quotedAst '\'' id 1])

def builtinAst : Spec.Builtin → Nat → Ast
  | .int, _ => intAst
  | .float, _ => floatAst
  | .word, _ => wordAst
  | .string, id => stringAst id
  | .anonymous, _ => anonAst

theorem areads_builtin (b : Spec.Builtin) (id : Nat) : AReadsAs (builtinToks b id) [builtinAst b id] := by
  cases b <;> exact fun _ => ⟨false, fun _ _ _ _ => rfl⟩

theorem toRe_builtin (b : Spec.Builtin) (id : Nat) : (builtinAst b id).toRe = builtinRe b id := by
  cases b <;> rfl

end CE.Regex

namespace CE
open Spec Regex

/-! ## Expressions -/

def altAsts : Alternative → List Ast
  | .text t => (unescape t.frag).map .lit
  | .optional o => [.rep (.group (catA ((unescape o.input.frag).map .lit))) 0 (some 1) true]

def branchAsts (b : SingleAlternation) : List Ast := (b.map altAsts).flatten

def elemAsts (ap : Parameter → Ast) : SingleExpression → List Ast
  | .text t => (unescape t.frag).map .lit
  | .whitespaces t => (unescape t.frag).map .lit
  | .optional o => altAsts (.optional o)
  | .alternation a => [.group (altA (a.map fun b => catA (branchAsts b)))]
  | .parameter p => [ap p]

theorem areads_alt (a : Alternative) : AReadsAs (altToks a) (altAsts a) := by
  cases a with
  | text t => exact AReadsAs.lits _
  | optional o => exact AReadsAs.optionalGroup (AReadsAs.lits _)

theorem areads_elem {tp : Parameter → List Tok} {ap : Parameter → Ast} (e : SingleExpression) (hne : e ≠ .alternation [])
    (h : ∀ p, e = .parameter p → AReadsAs (tp p) [ap p]) : AReadsAs (elemToks tp e) (elemAsts ap e) := by
  cases e with
  | text t => exact AReadsAs.lits _
  | whitespaces t => exact AReadsAs.lits _
  | optional o => exact areads_alt (.optional o)
  | alternation a =>
    have := AReadsAs.group (bs := a.map fun b => (branchToks b, branchAsts b)) (by simpa using hne) (by
      intro b hb
      obtain ⟨c, -, rfl⟩ := List.mem_map.1 hb
      exact AReadsAs.flatten c (fun a _ => areads_alt a))
    simpa [elemToks, elemAsts, List.map_map, Function.comp_def] using this
  | parameter p => exact h p rfl

def exprAst (ap : Parameter → Ast) (e : Expression) : Ast := .concat (.bol :: ((e.map (elemAsts ap)).flatten ++ [.eol]))

theorem catA_two (a b : Ast) (as : List Ast) : catA (a :: (as ++ [b])) = .concat (a :: (as ++ [b])) := by
  cases as <;> rfl

/-- The tree of a pattern that is accepted. -/
theorem ast_pattern {pp : Parameter → List Char} {tp : Parameter → List Tok} {ap : Parameter → Ast} {e : Expression} {r : Re}
    (hne : NonemptyAlts e) (h : ∀ p ∈ params e, Lexes (pp p) (tp p) ∧ AReadsAs (tp p) [ap p])
    (hr : Regex.parse (['^'] ++ exprPat pp e ++ ['$']) = .ok r) :
    Ast.parse (['^'] ++ exprPat pp e ++ ['$']) = .ok (exprAst ap e) := by
  obtain ⟨a, ha, -⟩ := ast_of_parse hr
  have h1 : Lexes (exprPat pp e) (e.map (elemToks tp)).flatten := Lexes.flatten e fun x hx => lexes_elem x fun p hp =>
    (h p (mem_params.2 (hp ▸ hx))).1
  have h2 : AReadsAs (e.map (elemToks tp)).flatten (e.map (elemAsts ap)).flatten := AReadsAs.flatten e fun x hx =>
    areads_elem x (fun hx' => hne (hx' ▸ hx)) fun p hp => (h p (mem_params.2 (hp ▸ hx))).2
  have h3 := ((lexes_bol.append h1).append lexes_eol).lex
  obtain ⟨f, h4⟩ := h2 false
  have h5 : buildA [] .start ([.bol] ++ (e.map (elemToks tp)).flatten ++ [.eol]) = .ok (exprAst ap e) := by
    simp only [List.cons_append, List.nil_append, buildA, AFrame.start, AFrame.push]
    rw [h4]
    simp [buildA, AFrame.push, AFrame.finish, altA, exprAst, catA_two]
  rw [ha]
  simp only [Ast.parse, h3, h5] at ha
  split at ha
  · cases ha; rfl
  · cases ha

def bAst (p : Parameter) : Ast := match builtinNamed p.input.frag with
  | some b => builtinAst b p.id
  | none => .empty

theorem bAst_named {p : Parameter} {b : Builtin} (h : p.input.frag = b.name) : bAst p = builtinAst b p.id := by
  simp [bAst, builtinNamed_some.2 h]

theorem hir_builtin (T : Tables) {e : Expression} (hne : NonemptyAlts e) (hid : ((params e).map Parameter.id).Nodup)
    (hb : ∀ p ∈ params e, IsBuiltin p) :
    hirOf T (['^'] ++ exprPat bPat e ++ ['$']) = some (translate T (exprAst bAst e) 1).1 := by
  have := ast_pattern (tp := bToks) (ap := bAst) hne (fun p hp => by
    obtain ⟨b, h⟩ := hb p hp
    rw [bAst_named h]
    simp only [bPat, bToks, builtinNamed_some.2 h]
    exact ⟨lexes_builtin b p.id, areads_builtin b p.id⟩) (parse_builtin hne hid hb)
  simp only [hirOf, this]

/-! ## Nothing is moved in the patterns of built-in parameters -/

theorem mkRepetition_heavy {m : Nat} {n : Option Nat} {g : Bool} {h : Hir} (hl : ¬ h.Light) (h0 : n ≠ some 0) (h1 : m ≠ 1 ∨ n ≠ some 1) :
    Hir.mkRepetition m n g h = .repetition m n g h := by
  unfold Hir.mkRepetition
  rw [if_neg hl]
  simp only []
  rw [if_neg (fun h => h0 h.2), if_neg (fun h => h1.elim (· h.1) (· h.2))]

theorem validName_group (id k : Nat) : Hir.ValidName (groupName id k) := validName_capName (capName_group id k [])

variable (T : Tables)

theorem translate_rep_cls (k : Cls) {m : Nat} {n : Option Nat} (h0 : n ≠ some 0) (h1 : m ≠ 1 ∨ n ≠ some 1) (i : Nat) :
    translate T (.rep (.cls k) m n true) i = (.repetition m n true (Hir.mkClass (T.cls k)), i) := by
  simp only [translate, mkRepetition_heavy Hir.light_mkClass h0 h1]

theorem valid_builtin (b : Builtin) (id : Nat) : (builtinAst b id).Valid := by
  cases b <;>
    simp [builtinAst, intAst, floatAst, wordAst, stringAst, anonAst, quotedAst, notQuoteAst, mantissaAst, exponentAst, astDigits, astDigits0,
      astSign, digitCls, Ast.Valid, Ast.AllValid, CItem.Valid, validName_group]

theorem concats_none {h : Hir} {hs : List Hir} (hm : h ∈ hs) (hn : ∀ ks, h ≠ .concat ks) : Hir.concats hs = none := by
  cases hc : Hir.concats hs with
  | none => rfl
  | some cs =>
    rw [Hir.concats_eq hs cs hc] at hm
    obtain ⟨k, -, rfl⟩ := List.mem_map.1 hm
    exact absurd rfl (hn k)

theorem mixedRanges_mem : ∀ {hs : List Hir} {rs : List (Char × Char)}, Hir.mixedRanges hs = some rs → ∀ h ∈ hs,
    (∃ c, h = .literal [c]) ∨ ∃ r, h = .cls r
  | [], _, _ => by simp
  | k :: hs, rs, h => by
    unfold Hir.mixedRanges at h
    split at h
    · rename_i he; cases he
    · rename_i c hs' he
      cases he
      obtain ⟨ts, h1, -⟩ := Option.map_eq_some_iff.1 h
      intro x hx
      rcases List.mem_cons.1 hx with rfl | hx
      · exact .inl ⟨_, rfl⟩
      · exact mixedRanges_mem h1 x hx
    · rename_i c hs' he
      cases he
      obtain ⟨ts, h1, -⟩ := Option.map_eq_some_iff.1 h
      intro x hx
      rcases List.mem_cons.1 hx with rfl | hx
      · exact .inr ⟨_, rfl⟩
      · exact mixedRanges_mem h1 x hx
    · cases h

theorem charRanges_none {h : Hir} {hs : List Hir} (hm : h ∈ hs) (hn : ∀ c, h ≠ .literal [c]) (hn' : ∀ r, h ≠ .cls r) :
    Hir.charRanges hs = none := by
  cases hc : Hir.charRanges hs with
  | none => rfl
  | some rs =>
    rcases mixedRanges_mem (Hir.charRanges_mixed hc) h hm with ⟨c, hc⟩ | ⟨r, hr⟩
    · exact absurd hc (hn c)
    · exact absurd hr (hn' r)

theorem flatAlternation_id : ∀ {hs : List Hir}, (∀ h ∈ hs, ∀ ks, h ≠ .alternation ks) → Hir.flatAlternation hs = hs
  | [], _ => rfl
  | k :: hs, h => by
    have ih := flatAlternation_id fun x hx => h x (List.mem_cons_of_mem _ hx)
    cases k with
    | alternation ks => exact absurd rfl (h _ (by simp) ks)
    | _ => rw [Hir.flatAlternation, ih]; simp

theorem unlifted_plain {h : Hir} {hs : List Hir} (hf : ∀ h ∈ hs, ∀ ks, h ≠ .alternation ks) (hm : h ∈ hs)
    (h1 : ∀ ks, h ≠ .concat ks) (h2 : ∀ c, h ≠ .literal [c]) (h3 : ∀ r, h ≠ .cls r) : Hir.Unlifted hs := by
  unfold Hir.Unlifted
  rw [flatAlternation_id hf, concats_none hm h1, charRanges_none hm h2 h3]
  exact ⟨fun _ _ h => (by cases h), fun _ h => (by cases h)⟩

theorem mkAlternation_plain {h : Hir} {hs : List Hir} (hl : 2 ≤ hs.length) (hf : ∀ h ∈ hs, ∀ ks, h ≠ .alternation ks) (hm : h ∈ hs)
    (h1 : ∀ ks, h ≠ .concat ks) (h2 : ∀ c, h ≠ .literal [c]) (h3 : ∀ r, h ≠ .cls r) : Hir.mkAlternation hs = .alternation hs := by
  have e1 := concats_none hm h1
  have e2 := charRanges_none hm h2 h3
  rw [Hir.mkAlternation, Hir.mkAlternationF, flatAlternation_id hf]
  match hs, hl with
  | _ :: _ :: _, _ => simp only [e1, e2]

theorem heavy_cls (k : Cls) (i : Nat) : ¬ (translate T (.cls k) i).1.Light := by
  rw [translate]; exact Hir.light_mkClass

theorem heavy_lit (c : Char) (i : Nat) : ¬ (translate T (.lit c) i).1.Light :=
  fun h => absurd ((Hir.light_literal _).1 h) (by simp)

theorem settled_int (i : Nat) : Settled T intAst i := by
  have d := translate_rep_cls T digitCls (m := 1) (n := none) (by simp) (by simp)
  have hm : ∀ i, translate T (.rep (.lit '-') 0 (some 1) true) i = (.repetition 0 (some 1) true (.literal ['-']), i) := fun _ => rfl
  unfold intAst astDigits
  refine ⟨⟨⟨⟨trivial, heavy_lit T _ _⟩, ⟨trivial, heavy_cls T _ _⟩, trivial⟩, ⟨trivial, heavy_cls T _ _⟩, trivial⟩, ?_⟩
  simp only [translateL, translate.eq_9, translate.eq_10, d, hm]
  exact unlifted_plain (h := .repetition 1 none true (Hir.mkClass (T.cls digitCls))) (by simp [Hir.mkConcat, Hir.flatConcat, Hir.joinLits]) (by simp)
    (by simp) (by simp) (by simp)

theorem settled_float (i : Nat) : Settled T floatAst i := by
  have d := translate_rep_cls T digitCls (m := 1) (n := none) (by simp) (by simp)
  have d0 := translate_rep_cls T digitCls (m := 0) (n := none) (by simp) (by simp)
  have sg := translate_rep_cls T ⟨false, [.single '+', .single '-']⟩ (m := 0) (n := some 1) (by simp) (by simp)
  have hl : ∀ c i, translate T (.lit c) i = (.literal [c], i) := fun _ _ => rfl
  let R1 : Hir := .repetition 1 none true (Hir.mkClass (T.cls digitCls))
  let R0 : Hir := .repetition 0 none true (Hir.mkClass (T.cls digitCls))
  have hM : ∀ i, translateL T [astDigits, .concat [astDigits, .lit '.', astDigits0], .concat [astDigits0, .lit '.', astDigits]] i =
      ([R1, .concat [R1, .literal ['.'], R0], .concat [R0, .literal ['.'], R1]], i) := by
    intro i
    simp only [astDigits, astDigits0, translateL, translate.eq_10, d, d0, hl]
    rfl
  have hM' : ∀ i, translate T mantissaAst i = (.alternation [R1, .concat [R1, .literal ['.'], R0], .concat [R0, .literal ['.'], R1]], i) := by
    intro i
    rw [mantissaAst, translate, hM, mkAlternation_plain (h := R1) (by simp) (by simp [R1]) (by simp) (by simp [R1]) (by simp [R1]) (by simp [R1])]
  have sD : ∀ i, Settled T astDigits i := fun i => ⟨trivial, heavy_cls T _ _⟩
  have sD0 : ∀ i, Settled T astDigits0 i := fun i => ⟨trivial, heavy_cls T _ _⟩
  have sS : ∀ i, Settled T astSign i := fun i => ⟨trivial, heavy_cls T _ _⟩
  have sM : ∀ i, Settled T mantissaAst i := by
    intro i
    refine ⟨⟨sD _, ⟨sD _, trivial, sD0 _, trivial⟩, ⟨sD0 _, trivial, sD _, trivial⟩, trivial⟩, ?_⟩
    rw [hM]
    exact unlifted_plain (h := R1) (by simp [R1]) (by simp) (by simp [R1]) (by simp [R1]) (by simp [R1])
  have sE : ∀ i, Settled T exponentAst i := fun i => ⟨trivial, sS _, sD _, trivial⟩
  have hE : ∀ i, ¬ (translate T exponentAst i).1.Light := by
    intro i h
    rw [exponentAst, translate, Hir.light_mkConcat] at h
    exact Hir.light_mkClass (h _ (by simp only [translateL, translate]; exact List.mem_cons_self))
  refine ⟨sS _, ⟨⟨⟨trivial, trivial, trivial, trivial⟩, ⟨trivial, trivial, trivial, trivial⟩, ⟨sM _, ⟨sE _, hE _⟩, trivial⟩, trivial⟩, ?_⟩, trivial⟩
  simp only [translateL, translate.eq_10, translate.eq_9, hl, hM', translate.eq_12, mkRepetition_heavy (hE _) (show (some 1 : Option Nat) ≠ some 0 by simp) (.inl (show (0 : Nat) ≠ 1 by simp))]
  refine unlifted_plain (h := .literal ['i', 'n', 'f']) ?_ (by simp [Hir.mkConcat, Hir.flatConcat, Hir.joinLits])
    (by simp) (by simp) (by simp)
  simp [Hir.mkConcat, Hir.flatConcat, Hir.joinLits]

theorem settled_quoted (q : Char) (id k i : Nat) : Settled T (quotedAst q id k) i := by
  have sN : ∀ i, Settled T (notQuoteAst q) i := fun i => ⟨trivial, heavy_cls T _ _⟩
  refine ⟨trivial, ⟨sN _, ⟨⟨trivial, trivial, sN _, trivial⟩, ?_⟩, trivial⟩, trivial, trivial⟩
  intro h
  rw [translate.eq_9, translate.eq_10, Hir.light_mkConcat] at h
  exact heavy_lit T _ _ (h _ (by simp only [translateL]; exact List.mem_cons_self))

theorem translate_quoted (q : Char) (id k i : Nat) : ∃ h j, translate T (quotedAst q id k) i = (.concat [.literal [q], h, .literal [q]], j) :=
  ⟨_, _, rfl⟩

theorem settled_string (id i : Nat) : Settled T (stringAst id) i := by
  refine ⟨⟨settled_quoted T _ _ _ _, settled_quoted T _ _ _ _, trivial⟩, ?_⟩
  obtain ⟨h1, j, e1⟩ := translate_quoted T '"' id 0 i
  obtain ⟨h2, k, e2⟩ := translate_quoted T '\'' id 1 j
  simp only [translateL, e1, e2]
  constructor
  · intro c cs hc
    cases hc
    rfl
  · intro rs hr; cases hr

theorem settled_builtin (b : Builtin) (id i : Nat) : Settled T (builtinAst b id) i := by
  cases b
  · exact settled_int T i
  · exact settled_float T i
  · exact ⟨trivial, heavy_cls T _ _⟩
  · exact settled_string T id i
  · refine ⟨trivial, ?_⟩
    rw [translate]; exact Hir.light_mkClass (rs := dotRanges)

end CE
