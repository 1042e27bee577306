import Verif.Spec.Language
import Verif.Prop.Expand
import Verif.Prop.Algebra

/-! # C68, C69: which texts an expression matches at all, and exchanging the types of parameters -/

namespace CE
open Spec Regex

variable {U : Classes}

/-! ## The language without captures -/

/-- The texts an element matches. -/
def pLang (U : Classes) : SingleExpression → List Char → Prop
  | .text t, x => x = unescape t.frag
  | .whitespaces t, x => x = t.frag
  | .optional o, x => x = [] ∨ x = unescape o.input.frag
  | .alternation a, x => ∃ b ∈ a, BranchLang b x
  | .parameter q, x => ∃ b : Builtin, q.input.frag = b.name ∧ b.Lang U x

def sLang (U : Classes) : Expression → List Char → Prop
  | [], w => w = []
  | e :: es, w => ∃ x y, w = x ++ y ∧ pLang U e x ∧ sLang U es y

theorem captures_exist (b : Builtin) (g p : Nat) {x : List Char} (h : b.Lang U x) : ∃ l, b.Captures g p x l := by
  cases b with
  | string =>
    obtain ⟨q, i, rfl | rfl, rfl, -⟩ := h
    · exact ⟨_, i, .inl ⟨rfl, rfl⟩⟩
    · exact ⟨_, i, .inr ⟨rfl, rfl⟩⟩
  | _ => exact ⟨_, rfl⟩

theorem pLang_iff (e : SingleExpression) (g p : Nat) (x : List Char) : pLang U e x ↔ ∃ l, e.Piece U g p x l := by
  cases e with
  | parameter q =>
    constructor
    · rintro ⟨b, h1, h2⟩; obtain ⟨l, hl⟩ := captures_exist b g p h2; exact ⟨l, b, h1, h2, hl⟩
    · rintro ⟨l, b, h1, h2, -⟩; exact ⟨b, h1, h2⟩
  | _ => simp [pLang, SingleExpression.Piece]

theorem sLang_iff (e : Expression) (g p : Nat) (w : List Char) : sLang U e w ↔ ∃ l, Splits U e g p w l := by
  induction e generalizing g p w with
  | nil =>
    constructor
    · rintro rfl; exact ⟨_, .nil _ _⟩
    · rintro ⟨l, h⟩; cases h; rfl
  | cons e es ih =>
    constructor
    · rintro ⟨x, y, rfl, hx, hy⟩
      obtain ⟨k, hk⟩ := (pLang_iff e g p x).1 hx
      obtain ⟨l, hl⟩ := (ih (g + e.groupCount) (p + x.length) y).1 hy
      exact ⟨_, .cons e es g p x y k l hk hl⟩
    · rintro ⟨l, h⟩
      cases h with
      | cons _ _ _ _ x y k l hk hl => exact ⟨x, y, rfl, (pLang_iff e g p x).2 ⟨k, hk⟩, (ih _ _ y).2 ⟨l, hl⟩⟩

theorem lang_sLang (e : Expression) (w : List Char) : e.Lang U w ↔ sLang U e w := (sLang_iff e 1 0 w).symm

theorem match_iff {src : List Char} {e : Expression} (h : Expression.parse src = .ok e) (hb : AllBuiltin e) :
    ∃ c, Expression.regex src = .ok c ∧ ∀ (U : Classes) (w : List Char), c.re.IsMatch U w ↔ sLang U e w := by
  obtain ⟨c, h1, h2⟩ := C23_language src e h hb
  exact ⟨c, h1, fun U w => (h2 U w).trans (lang_sLang e w)⟩

/-! ## C68: the shortest text -/

theorem branch_shortest (b : SingleAlternation) :
    (∀ x, BranchLang b x → branchShortest b ≤ x.length) ∧ ∃ x, BranchLang b x ∧ x.length = branchShortest b := by
  induction b with
  | nil => exact ⟨fun x _ => Nat.zero_le _, [], rfl, rfl⟩
  | cons a b ih =>
    obtain ⟨h1, y, h2, h3⟩ := ih
    cases a with
    | text t =>
      refine ⟨?_, unescape t.frag ++ y, ⟨_, y, rfl, rfl, h2⟩, by simp [branchShortest, h3]⟩
      rintro x ⟨u, v, rfl, rfl, hv⟩
      simp [branchShortest, h1 v hv]
    | optional o =>
      refine ⟨?_, y, ⟨[], y, rfl, .inl rfl, h2⟩, by simp [branchShortest, h3]⟩
      rintro x ⟨u, v, rfl, -, hv⟩
      simp only [branchShortest, List.length_append]
      exact Nat.le_trans (h1 v hv) (Nat.le_add_left _ _)

theorem builtin_shortest (U : Classes) (hd : U.digit '0') (hs : ¬ U.space '0') (b : Builtin) :
    let n := if b.name = Builtin.string.name then 2 else if b.name = [] then 0 else 1
    (∀ x, b.Lang U x → n ≤ x.length) ∧ ∃ x, b.Lang U x ∧ x.length = n := by
  cases b with
  | int =>
    refine ⟨?_, ['0'], ⟨['0'], ⟨by simp, by simpa [Digits0] using hd⟩, .inl rfl⟩, rfl⟩
    rintro x ⟨d, ⟨hd, -⟩, rfl | rfl⟩
    · exact List.length_pos_iff.2 hd
    · simp [Builtin.name]
  | float =>
    refine ⟨?_, ['0'], ⟨[], ['0'], rfl, .inl rfl, .inr (.inr ⟨['0'], [], rfl,
      .inl ⟨by simp, by simpa [Digits0] using hd⟩, .inl rfl⟩)⟩, rfl⟩
    rintro x ⟨s, b, rfl, -, rfl | rfl | ⟨m, e, rfl, hm, -⟩⟩
    · simp [Builtin.name]
    · simp [Builtin.name]
    · have : 1 ≤ m.length := by
        rcases hm with ⟨h, -⟩ | ⟨a, b, rfl, -⟩
        · exact List.length_pos_iff.2 h
        · simp; omega
      simp [Builtin.name]; omega
  | word =>
    refine ⟨?_, ['0'], ⟨by simp, by simpa using hs⟩, rfl⟩
    rintro x ⟨hx, -⟩
    exact List.length_pos_iff.2 hx
  | string =>
    refine ⟨?_, ['"', '"'], ⟨'"', [], .inl rfl, rfl, .nil⟩, rfl⟩
    rintro x ⟨q, i, -, rfl, -⟩
    simp [Builtin.name]
  | anonymous => exact ⟨fun x _ => Nat.zero_le _, [], by simp [Builtin.Lang], rfl⟩

theorem min_getD {l : List Nat} (h : l ≠ []) : l.min?.getD 0 ∈ l ∧ ∀ x ∈ l, l.min?.getD 0 ≤ x := by
  cases hm : l.min? with
  | none => simp at hm; exact absurd hm h
  | some m => exact List.min?_eq_some_iff.1 hm

theorem piece_shortest (hd : U.digit '0') (hs : ¬ U.space '0') (e : SingleExpression) (hne : e ≠ .alternation [])
    (hb : ∀ p, e = .parameter p → ∃ b : Builtin, p.input.frag = b.name) :
    (∀ x, pLang U e x → e.shortest ≤ x.length) ∧ ∃ x, pLang U e x ∧ x.length = e.shortest := by
  cases e with
  | text t => exact ⟨by rintro x rfl; exact Nat.le_refl _, _, rfl, rfl⟩
  | whitespaces t => exact ⟨by rintro x rfl; exact Nat.le_refl _, _, rfl, rfl⟩
  | optional o => exact ⟨fun x _ => Nat.zero_le _, [], .inl rfl, rfl⟩
  | alternation a =>
    obtain ⟨h1, h2⟩ := min_getD (l := a.map branchShortest) (by simpa using hne)
    constructor
    · rintro x ⟨b, hb, hx⟩
      exact Nat.le_trans (h2 _ (List.mem_map_of_mem hb)) ((branch_shortest b).1 x hx)
    · obtain ⟨b, hb, h⟩ := List.mem_map.1 h1
      obtain ⟨x, hx, hl⟩ := (branch_shortest b).2
      exact ⟨x, ⟨b, hb, hx⟩, hl.trans h⟩
  | parameter p =>
    obtain ⟨b, hb⟩ := hb p rfl
    have := builtin_shortest U hd hs b
    simp only [pLang, SingleExpression.shortest, hb]
    refine ⟨?_, ?_⟩
    · rintro x ⟨b', h', hx⟩
      have : b = b' := by cases b <;> cases b' <;> simp [Builtin.name] at h' ⊢
      subst this
      exact (builtin_shortest U hd hs b).1 x hx
    · obtain ⟨x, hx, hl⟩ := (builtin_shortest U hd hs b).2
      exact ⟨x, ⟨b, rfl, hx⟩, hl⟩

theorem sLang_shortest (hd : U.digit '0') (hs : ¬ U.space '0') (e : Expression) (hne : NonemptyAlts e) (hb : AllBuiltin e) :
    (∀ w, sLang U e w → e.shortest ≤ w.length) ∧ ∃ w, sLang U e w ∧ w.length = e.shortest := by
  induction e with
  | nil => exact ⟨fun w _ => Nat.zero_le _, [], rfl, rfl⟩
  | cons x e ih =>
    obtain ⟨h1, y, h2, h3⟩ := ih (fun h => hne (by simp [h])) (fun p hp => hb p (by simp [hp]))
    obtain ⟨h4, u, h5, h6⟩ := piece_shortest hd hs x (fun h => hne (by simp [h])) (fun p hp => hb p (by simp [hp]))
    refine ⟨?_, u ++ y, ⟨u, y, rfl, h5, h2⟩, by simp [Expression.shortest, h6, h3]⟩
    rintro w ⟨u, v, rfl, hu, hv⟩
    have a := h4 u hu
    have b := h1 v hv
    simp only [Expression.shortest, List.map_cons, List.sum_cons, List.length_append] at b ⊢
    omega

/-- C68: every expression matches some text; `shortest` is the length of the shortest one. -/
theorem C68_shortest (src : List Char) (e : Expression) (h : Expression.parse src = .ok e) (hb : AllBuiltin e) :
    ∃ c, Expression.regex src = .ok c ∧ ∀ (U : Classes), U.digit '0' → ¬ U.space '0' →
      (∃ w, c.re.IsMatch U w ∧ w.length = e.shortest) ∧ ∀ w, c.re.IsMatch U w → e.shortest ≤ w.length := by
  obtain ⟨c, h1, h2⟩ := match_iff h hb
  refine ⟨c, h1, fun U hd hs => ?_⟩
  have := sLang_shortest hd hs e (parse_nonemptyAlts h) hb
  simp only [h2]
  exact ⟨this.2, this.1⟩

theorem unescape_nonempty {stops t : List Char} (h : Escd stops t) (hne : t ≠ []) : unescape t ≠ [] := by
  cases h with
  | nil => exact absurd rfl hne
  | char c cs hc _ _ => unfold unescape; split <;> simp_all
  | esc d cs => simp [unescape]

theorem branchShortest_pos {b : SingleAlternation} (h : ∃ s, .text s ∈ b) (hw : ∀ q ∈ b, wfAlternative q) :
    0 < branchShortest b := by
  obtain ⟨s, hs⟩ := h
  induction b with
  | nil => simp at hs
  | cons a b ih =>
    rcases List.mem_cons.1 hs with rfl | hs
    · have := hw (.text s) (by simp)
      have := List.length_pos_iff.2 (unescape_nonempty this.2 this.1)
      simp only [branchShortest]; omega
    · have := ih (fun q hq => hw q (by simp [hq])) hs
      cases a <;> simp only [branchShortest] <;> omega

/-- C68: the empty text is matched exactly by expressions of optionals and `{}`. -/
theorem C68_empty (src : List Char) (e : Expression) (h : Expression.parse src = .ok e) (hb : AllBuiltin e) :
    ∃ c, Expression.regex src = .ok c ∧ ∀ (U : Classes),
      c.re.IsMatch U [] ↔ ∀ x ∈ e, (∃ o, x = .optional o) ∨ ∃ p, x = .parameter p ∧ p.input.frag = [] := by
  obtain ⟨c, h1, h2⟩ := match_iff h hb
  refine ⟨c, h1, fun U => ?_⟩
  rw [h2]
  have hwf := C09_wellFormed src e h
  have hal := C11_alternations src e h
  clear h h1 h2
  induction e with
  | nil => simp [sLang]
  | cons x e ih =>
    have ih := ih (fun p hp => hb p (by simp [hp])) (fun y hy => hwf y (by simp [hy])) (fun a ha => hal a (by simp [ha]))
    have hx : pLang U x [] ↔ (∃ o, x = .optional o) ∨ ∃ p, x = .parameter p ∧ p.input.frag = [] := by
      have hw := hwf x (by simp)
      cases x with
      | text t =>
        have h1 : ¬ pLang U (.text t) [] := fun hn => unescape_nonempty hw.2 hw.1 hn.symm
        simp [h1]
      | whitespaces t =>
        have h1 : ¬ pLang U (.whitespaces t) [] := fun hn => hw.1 hn.symm
        simp [h1]
      | optional o => simp [pLang]
      | alternation a =>
        simp only [pLang, reduceCtorEq, false_and, exists_false, or_false, iff_false, not_exists, not_and]
        intro b hba hl
        obtain ⟨h3, h4, -⟩ := (hal a (by simp)).2 b hba
        have := (branch_shortest b).1 [] hl
        have := branchShortest_pos h3 h4
        simp at *; omega
      | parameter p =>
        simp only [pLang, reduceCtorEq, exists_false, false_or, SingleExpression.parameter.injEq]
        constructor
        · rintro ⟨b, h5, h6⟩
          cases b with
          | anonymous => exact ⟨p, rfl, h5⟩
          | int =>
            obtain ⟨d, h7, h8 | h8⟩ := h6
            · exact absurd h8.symm h7.1
            · exact absurd h8 (by simp)
          | float =>
            obtain ⟨s, b, h7, -, h8⟩ := h6
            simp at h7
            rcases h8 with h8 | h8 | ⟨m, f, h8, h9, -⟩
            · simp [h7] at h8
            · simp [h7] at h8
            · rw [h7.2] at h8; simp at h8
              rcases h9 with h9 | ⟨a, b, h9, -⟩
              · exact absurd h8.1 h9.1
              · simp [h8.1] at h9
          | word => exact absurd rfl h6.1
          | string => obtain ⟨q, i, -, h7, -⟩ := h6; simp at h7
        · rintro ⟨q, rfl, h5⟩; exact ⟨.anonymous, h5, by simp [Builtin.Lang]⟩
    simp only [List.mem_cons, forall_eq_or_imp, ← ih, ← hx]
    constructor
    · rintro ⟨u, v, h3, h4, h5⟩
      simp at h3
      obtain ⟨rfl, rfl⟩ := h3
      exact ⟨h4, h5⟩
    · rintro ⟨h4, h5⟩; exact ⟨[], [], rfl, h4, h5⟩

/-! ## C68: all texts -/

theorem mem_crossTexts {A B : List (List Char)} {w : List Char} : w ∈ cross A B ↔ ∃ x y, w = x ++ y ∧ x ∈ A ∧ y ∈ B := by
  simp only [cross, List.mem_flatMap, List.mem_map]
  constructor
  · rintro ⟨x, hx, y, hy, rfl⟩; exact ⟨x, y, rfl, hx, hy⟩
  · rintro ⟨x, y, rfl, hx, hy⟩; exact ⟨x, hx, y, hy, rfl⟩

theorem mem_branchTexts (b : SingleAlternation) (x : List Char) : x ∈ branchTexts b ↔ BranchLang b x := by
  induction b generalizing x with
  | nil => simp [branchTexts, BranchLang]
  | cons a b ih => cases a <;> simp [branchTexts, BranchLang, mem_crossTexts, ih, Alternative.Lang]

theorem mem_exprTexts (e : Expression) (hp : ∀ p, .parameter p ∉ e) (w : List Char) : w ∈ e.texts ↔ sLang U e w := by
  induction e generalizing w with
  | nil => simp [Expression.texts, sLang]
  | cons x e ih =>
    have hx : ∀ u, u ∈ x.texts ↔ pLang U x u := by
      intro u
      cases x with
      | alternation a => simp [SingleExpression.texts, pLang, mem_branchTexts]
      | parameter p => exact absurd (by simp) (hp p)
      | _ => simp [SingleExpression.texts, pLang]
    simp [Expression.texts, sLang, mem_crossTexts, ih (fun p h => hp p (by simp [h])), hx]

/-- C68: without parameters, an expression matches exactly the texts of an explicit finite list. -/
theorem C68_finite (src : List Char) (e : Expression) (h : Expression.parse src = .ok e) (hp : ∀ p, .parameter p ∉ e) :
    ∃ c, Expression.regex src = .ok c ∧ ∀ (U : Classes) (w : List Char), c.re.IsMatch U w ↔ w ∈ e.texts := by
  obtain ⟨c, h1, h2⟩ := match_iff h (fun p h => absurd h (hp p))
  exact ⟨c, h1, fun U w => (h2 U w).trans (mem_exprTexts e hp w).symm⟩

theorem builtin_long (hd : U.digit '0') (hs : ¬ U.space '0') (b : Builtin) (n : Nat) : ∃ x, b.Lang U x ∧ n ≤ x.length := by
  have h0 : Digits U (List.replicate (n + 1) '0') :=
    ⟨by simp, fun c hc => by rw [List.eq_of_mem_replicate hc]; exact hd⟩
  cases b with
  | int => exact ⟨_, ⟨_, h0, .inl rfl⟩, by simp⟩
  | float => exact ⟨_, ⟨[], _, rfl, .inl rfl, .inr (.inr ⟨_, [], (List.append_nil _).symm, .inl h0, .inl rfl⟩)⟩, by simp⟩
  | word => exact ⟨List.replicate (n + 1) '0', ⟨by simp, fun c hc => by rw [List.eq_of_mem_replicate hc]; exact hs⟩, by simp⟩
  | string =>
    refine ⟨'"' :: (List.replicate n '0' ++ ['"']), ⟨'"', _, .inl rfl, rfl, ?_⟩, by simp; omega⟩
    induction n with
    | zero => exact .nil
    | succ n ih => exact .char _ _ (by decide) (by decide) (ih ⟨by simp, fun c hc => by rw [List.eq_of_mem_replicate hc]; exact hd⟩)
  | anonymous =>
    refine ⟨List.replicate n '0', ?_, by simp⟩
    intro h
    exact absurd (List.eq_of_mem_replicate h) (by decide)

/-- C68: with a parameter, an expression matches texts of any length. -/
theorem C68_infinite (src : List Char) (e : Expression) (h : Expression.parse src = .ok e) (hb : AllBuiltin e)
    (p : Parameter) (hp : .parameter p ∈ e) :
    ∃ c, Expression.regex src = .ok c ∧ ∀ (U : Classes), U.digit '0' → ¬ U.space '0' →
      ∀ n, ∃ w, c.re.IsMatch U w ∧ n ≤ w.length := by
  obtain ⟨c, h1, h2⟩ := match_iff h hb
  refine ⟨c, h1, fun U hd hs n => ?_⟩
  have hne := parse_nonemptyAlts h
  simp only [h2]
  clear h h1 h2
  induction e with
  | nil => simp at hp
  | cons x e ih =>
    have hne' : NonemptyAlts e := fun h => hne (by simp [h])
    have hb' : AllBuiltin e := fun p hp => hb p (by simp [hp])
    rcases List.mem_cons.1 hp with rfl | hp
    · obtain ⟨b, hb⟩ := hb p (by simp)
      obtain ⟨u, hu, hl⟩ := builtin_long hd hs b n
      obtain ⟨v, hv, -⟩ := (sLang_shortest hd hs e hne' hb').2
      exact ⟨u ++ v, ⟨u, v, rfl, ⟨b, hb, hu⟩, hv⟩, by simp; omega⟩
    · obtain ⟨v, hv, hl⟩ := ih hb' hp hne'
      obtain ⟨u, hu, -⟩ := (piece_shortest hd hs x (fun h => hne (by simp [h])) (fun p hp => hb p (by simp [hp]))).2
      exact ⟨u ++ v, ⟨u, v, rfl, hu, hv⟩, by simp; omega⟩

/-- Non-vacuity: the shortest text and all texts of an expression. -/
example : ∃ e, Expression.parse "a(b)/cd {int}".toList = .ok e ∧ AllBuiltin e ∧ e.shortest = 3 ∧
    Expression.texts e.dropLast = ["a ".toList, "ab ".toList, "cd ".toList] := by
  refine ⟨_, rfl, ?_, rfl, rfl⟩
  intro p hp
  simp at hp
  exact ⟨.int, by rw [hp]; rfl⟩

/-! ## C69: exchanging the types of parameters -/

theorem Spec.Ordinary.not_digit (h : Ordinary U) {c : Char} (hc : c.toNat < 128) (hd : c.isDigit = false) : ¬ U.digit c := by
  rw [h.digit c hc, hd]; simp

theorem Spec.Ordinary.not_space (h : Ordinary U) {c : Char} (hc : c.toNat < 128)
    (hd : c ∉ [' ', '\t', '\n', '\x0b', '\x0c', '\r']) : ¬ U.space c := by
  rw [h.space c hc]; exact hd

theorem int_in_float {x : List Char} (h : Builtin.int.Lang U x) : Builtin.float.Lang U x := by
  obtain ⟨d, h1, rfl | rfl⟩ := h
  · exact ⟨[], x, rfl, .inl rfl, .inr (.inr ⟨x, [], (List.append_nil _).symm, .inl h1, .inl rfl⟩)⟩
  · exact ⟨['-'], d, rfl, .inr (.inr rfl), .inr (.inr ⟨d, [], (List.append_nil _).symm, .inl h1, .inl rfl⟩)⟩

theorem float_in_word (h : Ordinary U) {x : List Char} (hx : Builtin.float.Lang U x) : Builtin.word.Lang U x := by
  have hsign : ∀ s, Sign s → ∀ c ∈ s, ¬ U.space c := by
    rintro s (rfl | rfl | rfl) c hc <;> simp at hc <;> subst hc <;> exact h.not_space (by decide) (by decide)
  have hdig : ∀ d, Digits0 U d → ∀ c ∈ d, ¬ U.space c := fun d hd c hc => h.disjoint c (hd c hc)
  have hman : ∀ m, Mantissa U m → m ≠ [] ∧ ∀ c ∈ m, ¬ U.space c := by
    rintro m (h1 | ⟨a, b, rfl, h2, h3, -⟩)
    · exact ⟨h1.1, hdig m h1.2⟩
    · refine ⟨by simp, fun c hc => ?_⟩
      rcases List.mem_append.1 hc with hc | hc
      · exact hdig a h2 c hc
      rcases List.mem_cons.1 hc with rfl | hc
      · exact h.not_space (by decide) (by decide)
      · exact hdig b h3 c hc
  obtain ⟨s, b, rfl, hs, hb⟩ := hx
  have hb' : b ≠ [] ∧ ∀ c ∈ b, ¬ U.space c := by
    rcases hb with rfl | rfl | ⟨m, e, rfl, hm, he⟩
    · refine ⟨by simp, fun c hc => ?_⟩
      simp at hc
      rcases hc with rfl | rfl | rfl <;> exact h.not_space (by decide) (by decide)
    · refine ⟨by simp, fun c hc => ?_⟩
      simp at hc
      rcases hc with rfl | rfl | rfl <;> exact h.not_space (by decide) (by decide)
    · refine ⟨by simp [(hman m hm).1], fun c hc => ?_⟩
      rcases List.mem_append.1 hc with hc | hc
      · exact (hman m hm).2 c hc
      rcases he with rfl | ⟨k, t, d, rfl, hk, ht, hd⟩
      · simp at hc
      · rcases List.mem_cons.1 hc with rfl | hc
        · rcases hk with rfl | rfl <;> exact h.not_space (by decide) (by decide)
        rcases List.mem_append.1 hc with hc | hc
        · exact hsign t ht c hc
        · exact hdig d hd.2 c hc
  refine ⟨by simp [hb'.1], fun c hc => ?_⟩
  rcases List.mem_append.1 hc with hc | hc
  · exact hsign s hs c hc
  · exact hb'.2 c hc

theorem word_anonymous (h : Ordinary U) {x : List Char} (hx : Builtin.word.Lang U x) : Builtin.anonymous.Lang U x :=
  fun hn => hx.2 '\n' hn ((h.space '\n' (by decide)).2 (by decide))

theorem float_first {c : Char} {x : List Char} (hx : Builtin.float.Lang U (c :: x)) :
    U.digit c ∨ c ∈ ['+', '-', '.', 'i', 'N'] := by
  have hm : ∀ m e, Mantissa U m → c :: x = m ++ e → U.digit c ∨ c = '.' := by
    rintro m e (h1 | ⟨a, b, rfl, h2, h3, -⟩) he
    · cases m with
      | nil => exact absurd rfl h1.1
      | cons d m => simp at he; exact .inl (he.1 ▸ h1.2 d (by simp))
    · cases a with
      | nil => simp at he; exact .inr he.1
      | cons d a => simp at he; exact .inl (he.1 ▸ h2 d (by simp))
  obtain ⟨s, b, h1, rfl | rfl | rfl, hb⟩ := hx
  · rw [List.nil_append] at h1
    subst h1
    rcases hb with hb | hb | ⟨m, e, hb, h2, -⟩
    · simp at hb; simp [hb.1]
    · simp at hb; simp [hb.1]
    · rcases hm m e h2 hb with h | rfl
      · exact .inl h
      · simp
  · simp at h1; simp [h1.1]
  · simp at h1; simp [h1.1]

theorem word_within (h : Ordinary U) {b : Builtin} (hb : ∀ x, Builtin.word.Lang U x → b.Lang U x) : b = .word ∨ b = .anonymous := by
  have hN := hb ['a'] ⟨by simp, by simpa using h.not_space (c := 'a') (by decide) (by decide)⟩
  cases b with
  | word => simp
  | anonymous => simp
  | int =>
    obtain ⟨d, h1, rfl | h2⟩ := hN
    · exact absurd (h1.2 'a' (by simp)) (h.not_digit (by decide) (by decide))
    · simp at h2
  | float =>
    rcases float_first hN with h1 | h1
    · exact absurd h1 (h.not_digit (by decide) (by decide))
    · simp at h1
  | string => obtain ⟨q, i, hq, h2, -⟩ := hN; simp at h2

/-- C69: which types of parameters are contained in which. -/
theorem C69_types (U : Classes) (h : Ordinary U) (b b' : Builtin) :
    (∀ x, b.Lang U x → b'.Lang U x) ↔ b.within b' = true := by
  have h0 : Digits U ['0'] := ⟨by simp, by simpa [Digits0] using (h.digit '0' (by decide)).2 (by decide)⟩
  constructor
  · intro hb
    cases b with
    | int =>
      cases b' with
      | string => obtain ⟨q, i, -, h2, -⟩ := hb ['0'] ⟨_, h0, .inl rfl⟩; simp at h2
      | _ => rfl
    | float =>
      have hi := hb ['i', 'n', 'f'] ⟨[], _, rfl, .inl rfl, .inl rfl⟩
      cases b' with
      | string => obtain ⟨q, i, hq, h2, -⟩ := hi; simp at h2; rcases hq with rfl | rfl <;> simp at h2
      | int =>
        obtain ⟨d, h1, rfl | h2⟩ := hi
        · exact absurd (h1.2 'i' (by simp)) (h.not_digit (by decide) (by decide))
        · simp at h2
      | _ => rfl
    | word => rcases word_within h hb with rfl | rfl <;> rfl
    | string =>
      have hq := hb ['"', '\n', '"'] ⟨'"', ['\n'], .inl rfl, rfl, .char _ _ (by decide) (by decide) .nil⟩
      cases b' with
      | string => rfl
      | int =>
        obtain ⟨d, h1, rfl | h2⟩ := hq
        · exact absurd (h1.2 '"' (by simp)) (h.not_digit (by decide) (by decide))
        · simp at h2
      | float =>
        rcases float_first hq with h1 | h1
        · exact absurd h1 (h.not_digit (by decide) (by decide))
        · simp at h1
      | word => exact absurd ((h.space '\n' (by decide)).2 (by decide)) (hq.2 '\n' (by simp))
      | anonymous => exact absurd (by simp) hq
    | anonymous =>
      have he := hb [] (by simp [Builtin.Lang])
      cases b' with
      | anonymous => rfl
      | int =>
        obtain ⟨d, h1, h2 | h2⟩ := he
        · exact absurd h2.symm h1.1
        · exact absurd h2 (by simp)
      | float =>
        have := (builtin_shortest U ((h.digit '0' (by decide)).2 (by decide)) (h.not_space (by decide) (by decide)) .float).1 [] he
        simp [Builtin.name] at this
      | word => exact absurd rfl he.1
      | string => obtain ⟨q, i, -, h2, -⟩ := he; exact absurd h2 (by simp)
  · intro hb x hx
    cases b <;> cases b' <;> simp [Builtin.within] at hb <;>
      first
      | exact hx
      | exact int_in_float hx
      | exact float_in_word h hx
      | exact word_anonymous h hx
      | exact float_in_word h (int_in_float hx)
      | exact word_anonymous h (float_in_word h hx)
      | exact word_anonymous h (float_in_word h (int_in_float hx))

theorem branchLang_same {b b' : SingleAlternation} (h : b.map erasePiece = b'.map erasePiece) (x : List Char) :
    BranchLang b x → BranchLang b' x := by
  induction b generalizing b' x with
  | nil => cases b' <;> simp at h ⊢
  | cons a b ih =>
    cases b' with
    | nil => simp at h
    | cons a' b' =>
      simp only [List.map_cons, List.cons.injEq] at h
      rintro ⟨u, v, rfl, hu, hv⟩
      refine ⟨u, v, rfl, ?_, ih h.2 v hv⟩
      cases a <;> cases a' <;> simp [erasePiece] at h <;> simp_all [Alternative.Lang]

theorem pLang_same {e e' : SingleExpression} (h : eraseSingle e = eraseSingle e') {x : List Char} (hx : pLang U e x) :
    pLang U e' x := by
  cases e <;> cases e' <;> simp [eraseSingle] at h
  case alternation a a' =>
    obtain ⟨b, hb, hl⟩ := hx
    have : b.map erasePiece ∈ a'.map (·.map erasePiece) := h ▸ List.mem_map_of_mem (f := (·.map erasePiece)) hb
    obtain ⟨b', hb', he⟩ := List.mem_map.1 this
    exact ⟨b', hb', branchLang_same he.symm x hl⟩
  all_goals simp_all [pLang]

theorem sLang_same {e e' : Expression} (h : erase e = erase e') {w : List Char} (hw : sLang U e w) : sLang U e' w := by
  induction e generalizing e' w with
  | nil => cases e' <;> simp [erase] at h; exact hw
  | cons x e ih =>
    cases e' with
    | nil => simp [erase] at h
    | cons x' e' =>
      simp only [erase, List.map_cons, List.cons.injEq] at h
      obtain ⟨u, v, rfl, hu, hv⟩ := hw
      exact ⟨u, v, rfl, pLang_same h.1 hu, ih h.2 hv⟩

theorem sLang_replace {b b' : Builtin} {p : Parameter} (hp : p.input.frag = b.name)
    (hs : ∀ x, b.Lang U x → b'.Lang U x) (r l e' : Expression) (w : List Char)
    (he : erase e' = erase l ++ .param b'.name :: erase r) (hw : sLang U (l ++ .parameter p :: r) w) : sLang U e' w := by
  induction l generalizing e' w with
  | nil =>
    cases e' with
    | nil => simp [erase] at he
    | cons x e' =>
      simp only [erase, List.map_cons, List.map_nil, List.nil_append, List.cons.injEq] at he
      obtain ⟨u, v, rfl, ⟨b1, h1, hu⟩, hv⟩ := hw
      have : b = b1 := by rw [hp] at h1; cases b <;> cases b1 <;> simp [Builtin.name] at h1 ⊢
      subst this
      refine ⟨u, v, rfl, ?_, sLang_same (show erase r = erase e' from he.2.symm) hv⟩
      cases x <;> simp [eraseSingle] at he
      exact ⟨b', he.1, hs u hu⟩
  | cons y l ih =>
    cases e' with
    | nil => simp [erase] at he
    | cons x e' =>
      simp only [erase, List.map_cons, List.cons_append, List.cons.injEq] at he
      obtain ⟨u, v, rfl, hu, hv⟩ := hw
      exact ⟨u, v, rfl, pLang_same he.1.symm hu, ih e' v he.2 hv⟩

theorem name_escd (b : Builtin) : Escd nameStops b.name := by
  cases b <;> repeat' first | exact .nil | refine .char _ _ (by decide) (by decide) ?_

theorem canonical_rename {l r : List Elem} {n n' : List Char} (hn : Escd nameStops n')
    (h : Canonical (l ++ .param n :: r)) : Canonical (l ++ .param n' :: r) := by
  refine ⟨?_, ?_⟩
  · intro x hx
    simp only [List.mem_append, List.mem_cons] at hx
    rcases hx with hx | rfl | hx
    · exact h.1 x (by simp [hx])
    · exact hn
    · exact h.1 x (by simp [hx])
  · have := h.2
    clear h
    induction l with
    | nil =>
      cases r with
      | nil => trivial
      | cons y r => exact ⟨by cases y <;> simp [Elem.Bad], this.2⟩
    | cons x l ih =>
      cases l with
      | nil => exact ⟨by cases x <;> simp [Elem.Bad], ih this.2⟩
      | cons y l => exact ⟨this.1, ih this.2⟩

/-- C69: a parameter replaced by one of a wider type: everything that was matched still is. -/
theorem C69_replace (src : List Char) (e : Expression) (h : Expression.parse src = .ok e) (hb : AllBuiltin e)
    (l r : Expression) (p : Parameter) (he : e = l ++ .parameter p :: r) (b b' : Builtin) (hp : p.input.frag = b.name)
    (hw : b.within b' = true) :
    src = print l ++ '{' :: b.name ++ '}' :: print r ∧
    ∃ c c', Expression.regex src = .ok c ∧ Expression.regex (print l ++ '{' :: b'.name ++ '}' :: print r) = .ok c' ∧
      ∀ (U : Classes), Ordinary U → ∀ w, c.re.IsMatch U w → c'.re.IsMatch U w := by
  obtain ⟨hc, hr, -⟩ := C06_parse_then_print src e h
  have her : erase e = erase l ++ .param b.name :: erase r := by simp [he, erase, eraseSingle, hp]
  rw [her] at hc hr
  have hc' := canonical_rename (name_escd b') hc
  obtain ⟨e', h1, h2⟩ := C06_print_then_parse _ hc'
  have hprint : ∀ n, render (erase l ++ .param n :: erase r) = print l ++ '{' :: n ++ '}' :: print r := by
    intro n; simp [← print_erase, render, Elem.render]
  rw [hprint] at h1 hr
  have hb' : AllBuiltin e' := by
    intro q hq
    have : Elem.param q.input.frag ∈ erase e' := List.mem_map_of_mem (f := eraseSingle) hq
    rw [h2] at this
    simp only [List.mem_append, List.mem_cons, Elem.param.injEq] at this
    have key : ∀ x : Expression, (∀ y ∈ x, y ∈ e) → Elem.param q.input.frag ∈ erase x → ∃ b : Builtin, q.input.frag = b.name := by
      intro x hx hm
      obtain ⟨y, hy, hq⟩ := List.mem_map.1 hm
      cases y <;> simp [eraseSingle] at hq
      rw [← hq]
      exact hb _ (hx _ hy)
    rcases this with hm | hm | hm
    · exact key l (fun y hy => by simp [he, hy]) hm
    · exact ⟨b', hm⟩
    · exact key r (fun y hy => by simp [he, hy]) hm
  obtain ⟨c, h3, h4⟩ := match_iff h hb
  obtain ⟨c', h5, h6⟩ := match_iff h1 hb'
  refine ⟨hr.symm, c, c', h3, h5, fun U hU w hm => ?_⟩
  rw [h4, he] at hm
  rw [h6]
  exact sLang_replace hp ((C69_types U hU b b').2 hw) r l e' w h2 hm

/-- Non-vacuity: `I have {int} {}` and `I have {word} {}`. -/
example : ∃ e l r p, Expression.parse "I {int} {}".toList = .ok e ∧ AllBuiltin e ∧ e = l ++ .parameter p :: r ∧
    p.input.frag = Builtin.int.name ∧ Builtin.int.within .word = true := by
  refine ⟨_, [.text ⟨0, 1, ['I']⟩, .whitespaces ⟨1, 1, [' ']⟩], [.whitespaces ⟨7, 1, [' ']⟩, .parameter ⟨⟨9, 1, []⟩, 1⟩],
    ⟨⟨3, 1, ['i', 'n', 't']⟩, 0⟩, rfl, ?_, rfl, rfl, rfl⟩
  intro p hp
  simp at hp
  rcases hp with rfl | rfl
  · exact ⟨.int, rfl⟩
  · exact ⟨.anonymous, rfl⟩

end CE
