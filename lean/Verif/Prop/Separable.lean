import Verif.Spec.Separable
import Verif.Prop.HirSearch
import Verif.Prop.Values

/-! # C65: arguments can be read back -/

namespace CE
open Spec Spec.Values
open Regex Hir

/-! ## Where texts end -/

theorem append_mark {x y x' y' : List Char} {c : Char} (hx : c ∉ x) (hx' : c ∉ x') (h : x ++ c :: y = x' ++ c :: y') : x = x' := by
  induction x generalizing x' with
  | nil =>
    cases x' with
    | nil => rfl
    | cons d x' =>
      rw [List.nil_append, List.cons_append, List.cons.injEq] at h
      exact absurd (by simp [h.1]) hx'
  | cons d x ih =>
    cases x' with
    | nil =>
      rw [List.nil_append, List.cons_append, List.cons.injEq] at h
      exact absurd (by simp [h.1]) hx
    | cons d' x' =>
      rw [List.cons_append, List.cons_append, List.cons.injEq] at h
      obtain ⟨rfl, h⟩ := h
      rw [ih (by simp_all) (by simp_all) h]

/-- The inside of quotes ends at the first quote. -/
theorem quoted_end {q : Char} {i i' y y' : List Char} (hq : q ≠ '\\') (h : Quoted q i) (h' : Quoted q i')
    (he : i ++ q :: y = i' ++ q :: y') : i = i' := by
  induction h generalizing i' with
  | nil =>
    cases h' with
    | nil => rfl
    | char c cs h1 h2 h3 =>
      rw [List.nil_append, List.cons_append, List.cons.injEq] at he
      exact absurd he.1.symm h1
    | pair c cs h1 h2 =>
      rw [List.nil_append, List.cons_append, List.cons.injEq] at he
      exact absurd he.1 hq
  | char c cs h1 h2 h3 ih =>
    cases h' with
    | nil =>
      rw [List.nil_append, List.cons_append, List.cons.injEq] at he
      exact absurd he.1 h1
    | char c' cs' h1' h2' h3' =>
      rw [List.cons_append, List.cons_append, List.cons.injEq] at he
      rw [he.1, ih h3' he.2]
    | pair c' cs' h1' h2' =>
      rw [List.cons_append, List.cons_append, List.cons.injEq] at he
      exact absurd he.1 h2
  | pair c cs h1 h2 ih =>
    cases h' with
    | nil =>
      rw [List.nil_append, List.cons_append, List.cons.injEq] at he
      exact absurd he.1.symm hq
    | char c' cs' h1' h2' h3' =>
      simp only [List.cons_append, List.cons.injEq] at he
      exact absurd he.1.symm h2'
    | pair c' cs' h1' h2' =>
      simp only [List.cons_append, List.cons.injEq, true_and] at he
      rw [he.1, ih h2' he.2]

/-- No quoted text is the beginning of another. -/
theorem string_end {U : Classes} {x x' y y' : List Char} (h : Builtin.string.Lang U x) (h' : Builtin.string.Lang U x')
    (he : x ++ y = x' ++ y') : x = x' := by
  obtain ⟨q, i, hq, rfl, hi⟩ := h
  obtain ⟨q', i', -, rfl, hi'⟩ := h'
  simp only [List.cons_append, List.append_assoc, List.nil_append, List.cons.injEq] at he
  obtain ⟨rfl, he⟩ := he
  rw [quoted_end (by rcases hq with rfl | rfl <;> decide) hi hi' he]

theorem begins_splits {U : Classes} {c : Char} {es : Expression} {g p : Nat} {w : List Char} {l : List Cap}
    (hb : Begins c es) (h : Splits U es g p w l) : ∃ r, w = c :: r := by
  cases h with
  | nil => exact absurd hb (by simp [Begins])
  | cons e es g p x y k l h1 h2 =>
    cases e with
    | text t =>
      obtain ⟨rfl, -⟩ := h1
      simp only [Begins] at hb
      cases hx : unescape t.frag with
      | nil => rw [hx] at hb; simp at hb
      | cons d r => rw [hx] at hb; simp at hb; exact ⟨r ++ y, by rw [hb]; rfl⟩
    | whitespaces t =>
      obtain ⟨rfl, -⟩ := h1
      simp only [Begins] at hb
      cases hx : t.frag with
      | nil => rw [hx] at hb; simp at hb
      | cons d r => rw [hx] at hb; simp at hb; exact ⟨r ++ y, by rw [hb]; rfl⟩
    | _ => simp [Begins] at hb

/-! ## Captures -/

theorem captures_unique {b : Builtin} {g p : Nat} {x : List Char} {l l' : List Cap} (h : b.Captures g p x l)
    (h' : b.Captures g p x l') : l = l' := by
  cases b with
  | string =>
    obtain ⟨i, ⟨rfl, rfl⟩ | ⟨rfl, rfl⟩⟩ := h <;> obtain ⟨i', ⟨h1, rfl⟩ | ⟨h1, rfl⟩⟩ := h'
    · rw [List.append_cancel_right (List.cons.inj h1).2]
    · simp at h1
    · simp at h1
    · rw [List.append_cancel_right (List.cons.inj h1).2]
  | _ => exact h.trans h'.symm

theorem piece_unique {U : Classes} {e : SingleExpression} {g p : Nat} {x : List Char} {l l' : List Cap}
    (h : e.Piece U g p x l) (h' : e.Piece U g p x l') : l = l' := by
  cases e with
  | parameter q =>
    obtain ⟨b, hb, -, h⟩ := h
    obtain ⟨b', hb', -, h'⟩ := h'
    obtain rfl := name_inj (hb.symm.trans hb')
    exact captures_unique h h'
  | _ => rw [h.2, h'.2]

theorem splits_noParameter {U : Classes} {es : Expression} {g p : Nat} {w : List Char} {l : List Cap}
    (h : Splits U es g p w l) (hn : ∀ q, .parameter q ∉ es) : l = [] := by
  induction h with
  | nil => rfl
  | cons e es g p x y k l h1 h2 ih =>
    rw [ih fun q hq => hn q (List.mem_cons_of_mem _ hq), List.append_nil]
    cases e with
    | parameter q => exact absurd (by simp) (hn q)
    | _ => exact h1.2

/-- The core: a text has one split only. -/
theorem splits_unique {U : Classes} {es : Expression} (hs : Separable U es) {g p : Nat} {w : List Char} {l l' : List Cap}
    (h : Splits U es g p w l) (h' : Splits U es g p w l') : l = l' := by
  induction es generalizing g p w l l' with
  | nil => cases h; cases h'; rfl
  | cons e es ih =>
    rcases hs with hn | ⟨hk, hs⟩
    · rw [splits_noParameter h hn, splits_noParameter h' hn]
    generalize hw : w = w' at h'
    cases h with
    | cons _ _ _ _ x y k l h1 h2 =>
    cases h' with
    | cons _ _ _ _ x' y' k' l' h1' h2' =>
    have mark : (∃ c, Begins c es ∧ ∀ x, e.Matches U x → c ∉ x) → x = x' := by
      rintro ⟨c, hc, hx⟩
      obtain ⟨r, rfl⟩ := begins_splits hc h2
      obtain ⟨r', rfl⟩ := begins_splits hc h2'
      exact append_mark (hx x ⟨_, _, _, h1⟩) (hx x' ⟨_, _, _, h1'⟩) hw
    have hx : x = x' := by
      cases e with
      | text t => rw [h1.1, h1'.1]
      | whitespaces t => rw [h1.1, h1'.1]
      | parameter q =>
        rcases hk with hk | rfl | hk
        · obtain ⟨b, hb, h3, -⟩ := h1
          obtain ⟨b', hb', h3', -⟩ := h1'
          obtain rfl := name_inj (hb.symm.trans hk)
          obtain rfl := name_inj (hb'.symm.trans hk)
          exact string_end h3 h3' hw
        · cases h2; cases h2'
          simpa using hw
        · exact mark hk
      | optional o => exact mark hk
      | alternation a => exact mark hk
    subst hx
    obtain rfl := List.append_cancel_left hw
    rw [piece_unique h1 h1', ih hs h2 h2']

/-- C65: if arguments can be told apart then a text matches in one way only: whatever search is used, the captures are
those which belong to the arguments of the text. -/
theorem C65_unique (src : List Char) (e : Expression) (h : Expression.parse src = .ok e) (hb : AllBuiltin e) :
    ∃ c, Expression.regex src = .ok c ∧ ∀ (U : Classes), Separable U e → ∀ (w pre x post : List Char) (l : List Cap),
      c.re.Finds U w pre x post l → ∀ pre' x' post' l',
        (c.re.Finds U w pre' x' post' l' ↔ pre' = pre ∧ x' = x ∧ post' = post ∧ l' = l) ∧
        (Splits U e 1 0 w l' ↔ l' = l) := by
  obtain ⟨c, hc, hf⟩ := C27_captures src e h hb
  refine ⟨c, hc, fun U hs w pre x post l h1 pre' x' post' l' => ?_⟩
  obtain ⟨rfl, rfl, rfl, h2⟩ := (hf ..).1 h1
  have key : Splits U e 1 0 x l' ↔ l' = l := ⟨fun h' => splits_unique hs h' h2, fun h' => h' ▸ h2⟩
  refine ⟨?_, key⟩
  rw [hf, key]
  constructor
  · rintro ⟨h1, h2, h3, h4⟩; exact ⟨h1, h3, h2, h4⟩
  · rintro ⟨h1, h2, h3, h4⟩; exact ⟨h1, h3, h2, h4⟩

/-- C65: in particular the compiled regex returns them. -/
theorem C65_returned (src : List Char) (e : Expression) (h : Expression.parse src = .ok e) (hb : AllBuiltin e) :
    ∃ c, Expression.regex src = .ok c ∧ ∀ (T : Tables), SaneDigits T.classes → Separable T.classes e →
      ∃ hir, hirOf T c.pattern = some hir ∧ ∀ (w : List Char) (l : List Cap), Splits T.classes e 1 0 w l →
        hir.find w = some (0, w, l) := by
  obtain ⟨c, hc, hf⟩ := C46_compiled src e h hb
  refine ⟨c, hc, fun T hd hs => ?_⟩
  obtain ⟨hir, hh, hf⟩ := hf T hd
  refine ⟨hir, hh, fun w l hw => ?_⟩
  obtain ⟨h1, h2⟩ := hf w
  cases hr : hir.find w with
  | none => exact absurd ⟨l, hw⟩ (h1.1 hr)
  | some r =>
    obtain ⟨i, x, l'⟩ := r
    obtain ⟨rfl, rfl, cs, hcs, -⟩ := h2 i x l' hr
    rw [splits_unique hs ((splits_fits ..).2 ⟨cs, hcs⟩) hw]

/-! ## What ends which parameter -/

/-- C65: a character which ends an integer. -/
theorem C65_int_end (U : Classes) (p : Parameter) (hp : p.input.frag = Builtin.int.name) (c : Char) (hd : ¬ U.digit c)
    (hc : c ≠ '-') (x : List Char) (h : (SingleExpression.parameter p).Matches U x) : c ∉ x := by
  obtain ⟨-, -, -, b, hb, h, -⟩ := h
  obtain rfl := name_inj (hb.symm.trans hp)
  obtain ⟨d, hn, rfl | rfl⟩ := h
  · exact fun hm => hd (hn.2 c hm)
  · intro hm
    rcases List.mem_cons.1 hm with rfl | hm
    · exact hc rfl
    · exact hd (hn.2 c hm)

/-- C65: a character which ends a float. -/
theorem C65_float_end (U : Classes) (p : Parameter) (hp : p.input.frag = Builtin.float.name) (c : Char) (hd : ¬ U.digit c)
    (hc : c ∉ ['+', '-', '.', 'e', 'E', 'i', 'n', 'f', 'N', 'a']) (x : List Char)
    (h : (SingleExpression.parameter p).Matches U x) : c ∉ x := by
  obtain ⟨-, -, -, b, hb, h, -⟩ := h
  obtain rfl := name_inj (hb.symm.trans hp)
  simp only [List.mem_cons, List.not_mem_nil, or_false, not_or] at hc
  have sg : ∀ s, Sign s → c ∉ s := by
    rintro s (rfl | rfl | rfl) <;> simp [hc]
  have ds : ∀ d, Digits0 U d → c ∉ d := fun d h hm => hd (h c hm)
  obtain ⟨s, b, rfl, hs, hb⟩ := h
  rw [List.mem_append, not_or]
  refine ⟨sg s hs, ?_⟩
  rcases hb with rfl | rfl | ⟨m, e, rfl, hm, he⟩
  · simp [hc]
  · simp [hc]
  · rw [List.mem_append, not_or]
    constructor
    · rcases hm with hm | ⟨a, b, rfl, h1, h2, -⟩
      · exact ds m hm.2
      · simp [hc, ds a h1, ds b h2]
    · rcases he with rfl | ⟨k, t, d, rfl, hk, ht, hd'⟩
      · simp
      · have h3 := sg t ht
        have h4 := ds d hd'.2
        rcases hk with rfl | rfl <;> simp [hc, h3, h4]

/-- C65: a character which ends a word. -/
theorem C65_word_end (U : Classes) (p : Parameter) (hp : p.input.frag = Builtin.word.name) (c : Char) (hc : U.space c) (x : List Char)
    (h : (SingleExpression.parameter p).Matches U x) : c ∉ x := by
  obtain ⟨-, -, -, b, hb, h, -⟩ := h
  obtain rfl := name_inj (hb.symm.trans hp)
  exact fun hm => h.2 c hm hc

/-- The texts in a part of a branch. -/
def altText : Alternative → List Char
  | .text t => t.frag
  | .optional o => o.input.frag

/-- Words: optionals and alternations without blanks, `{int}`, `{float}` and `{word}` are followed by blanks, as long as
there are parameters after them; `{string}` by anything, `{}` by nothing. -/
def Spaced : Expression → Prop
  | [] => True
  | e :: es => (∀ p, .parameter p ∉ e :: es) ∨
    ((match e with
      | .text _ => True
      | .whitespaces _ => True
      | .optional o => ' ' ∉ o.input.frag ∧ ∃ t es', es = .whitespaces t :: es'
      | .alternation a => (∀ b ∈ a, ∀ q ∈ b, ' ' ∉ altText q) ∧ ∃ t es', es = .whitespaces t :: es'
      | .parameter p => p.input.frag = Builtin.string.name ∨ es = [] ∨
          (p.input.frag ≠ [] ∧ ∃ t es', es = .whitespaces t :: es')) ∧ Spaced es)

theorem mem_unescape {c : Char} {t : List Char} (h : c ∈ unescape t) : c ∈ t := by
  induction t using unescape.induct with
  | case1 => exact h
  | case2 => simp [unescape] at h
  | case3 d r ih =>
    simp only [unescape, List.mem_cons] at h ⊢
    rcases h with rfl | h
    · exact .inr (.inl rfl)
    · exact .inr (.inr (ih h))
  | case4 d r h1 h2 ih =>
    have : unescape (d :: r) = d :: unescape r := by
      rw [unescape]
      · exact h1
      · exact h2
    rw [this, List.mem_cons] at h
    rcases h with rfl | h
    · simp
    · exact List.mem_cons_of_mem _ (ih h)

theorem branch_noBlank {b : SingleAlternation} {c : Char} (h : ∀ q ∈ b, c ∉ altText q) {x : List Char} (hx : BranchLang b x) : c ∉ x := by
  induction b generalizing x with
  | nil => obtain rfl := hx; simp
  | cons q b ih =>
    obtain ⟨y, z, rfl, hy, hz⟩ := hx
    rw [List.mem_append, not_or]
    refine ⟨fun hm => ?_, ih (fun q hq => h q (List.mem_cons_of_mem _ hq)) hz⟩
    have hq := h q (by simp)
    cases q with
    | text t => obtain rfl := hy; exact hq (mem_unescape hm)
    | optional o =>
      rcases hy with rfl | rfl
      · simp at hm
      · exact hq (mem_unescape hm)

theorem separable_of_spaced {U : Classes} (hu : SaneSpace U) {es : Expression} (hb : AllBuiltin es)
    (hw : ∀ t, .whitespaces t ∈ es → t.frag.head? = some ' ') (h : Spaced es) : Separable U es := by
  induction es with
  | nil => trivial
  | cons e es ih =>
    rcases h with h | ⟨h1, h2⟩
    · exact .inl h
    refine .inr ⟨?_, ih (fun p hp => hb p (List.mem_cons_of_mem _ hp)) (fun t ht => hw t (List.mem_cons_of_mem _ ht)) h2⟩
    cases e with
    | text t => trivial
    | whitespaces t => trivial
    | optional o =>
      obtain ⟨hn, t, es', rfl⟩ := h1
      refine ⟨' ', hw t (by simp), ?_⟩
      rintro x ⟨-, -, -, rfl | rfl, -⟩
      · simp
      · exact fun hm => hn (mem_unescape hm)
    | alternation a =>
      obtain ⟨hn, t, es', rfl⟩ := h1
      refine ⟨' ', hw t (by simp), ?_⟩
      rintro x ⟨-, -, -, ⟨b, hb, hx⟩, -⟩
      exact branch_noBlank (hn b hb) hx
    | parameter p =>
      rcases h1 with h1 | h1 | ⟨hne, t, es', rfl⟩
      · exact .inl h1
      · exact .inr (.inl h1)
      obtain ⟨b, hn⟩ := hb p (by simp)
      by_cases hs : b = .string
      · exact .inl (hs ▸ hn)
      refine .inr (.inr ⟨' ', hw t (by simp), fun x hx => ?_⟩)
      cases b with
      | int => exact C65_int_end U p hn ' ' hu.2 (by decide) x hx
      | float => exact C65_float_end U p hn ' ' hu.2 (by decide) x hx
      | word => exact C65_word_end U p hn ' ' hu.1 x hx
      | string => exact absurd rfl hs
      | anonymous => exact absurd hn hne

/-- C65: arguments between blanks can be told apart. -/
theorem C65_spaced (src : List Char) (e : Expression) (h : Expression.parse src = .ok e) (hb : AllBuiltin e) (hs : Spaced e)
    (U : Classes) (hu : SaneSpace U) : Separable U e := by
  refine separable_of_spaced hu hb (fun t ht => ?_) hs
  obtain ⟨h1, h2⟩ := (C06_parse_then_print src e h).1.1 _ (List.mem_map_of_mem (f := eraseSingle) ht)
  cases ht : t.frag with
  | nil => exact absurd ht h1
  | cons c r =>
    have := h2 c (by simp [ht])
    simp_all

/-- C65: without anything between the parameters, a text may match in several ways. -/
theorem C65_ambiguous (U : Classes) (ha : ¬ U.space 'a') : ∃ e c, Expression.parse (chars! "{word}{word}") = .ok e ∧ AllBuiltin e ∧
    Expression.regex (chars! "{word}{word}") = .ok c ∧
    c.re.Finds U (chars! "aaa") [] (chars! "aaa") [] [⟨1, 0, ['a']⟩, ⟨2, 1, ['a', 'a']⟩] ∧
    c.re.Finds U (chars! "aaa") [] (chars! "aaa") [] [⟨1, 0, ['a', 'a']⟩, ⟨2, 2, ['a']⟩] := by
  have hp : Expression.parse (chars! "{word}{word}") = .ok [.parameter ⟨⟨1, 1, chars! "word"⟩, 0⟩, .parameter ⟨⟨7, 1, chars! "word"⟩, 1⟩] := rfl
  have hb : AllBuiltin [.parameter ⟨⟨1, 1, chars! "word"⟩, 0⟩, .parameter ⟨⟨7, 1, chars! "word"⟩, 1⟩] := by
    intro r hr
    simp at hr
    rcases hr with rfl | rfl <;> exact ⟨.word, rfl⟩
  obtain ⟨c, hc, hf⟩ := C27_captures _ _ hp hb
  have wd : ∀ x, (∀ c ∈ x, c = 'a') → x ≠ [] → Builtin.word.Lang U x := fun x hx hn => ⟨hn, fun c hc => by rw [hx c hc]; exact ha⟩
  have two : ∀ x y, (∀ c ∈ x, c = 'a') → (∀ c ∈ y, c = 'a') → x ≠ [] → y ≠ [] →
      Splits U [.parameter ⟨⟨1, 1, chars! "word"⟩, 0⟩, .parameter ⟨⟨7, 1, chars! "word"⟩, 1⟩] 1 0 (x ++ (y ++ []))
        ([⟨1, 0, x⟩] ++ ([⟨2, 0 + x.length, y⟩] ++ [])) := fun x y hx hy hx' hy' =>
    .cons _ _ _ _ x _ _ _ ⟨.word, rfl, wd x hx hx', rfl⟩ (.cons _ _ _ _ y _ _ _ ⟨.word, rfl, wd y hy hy', rfl⟩ (.nil ..))
  exact ⟨_, c, hp, hb, hc, (hf ..).2 ⟨rfl, rfl, rfl, two ['a'] ['a', 'a'] (by simp) (by simp) (by simp) (by simp)⟩,
    (hf ..).2 ⟨rfl, rfl, rfl, two ['a', 'a'] ['a'] (by simp) (by simp) (by simp) (by simp)⟩⟩

/-! ## An example -/

/-- Any integer and any text, printed into a step, come back from the compiled regex. -/
example (n : Int) (x : List Char) :
    ∃ c hir, Expression.regex (chars! "has/have {int} item(s) {string}") = .ok c ∧ hirOf asciiTables c.pattern = some hir ∧
      hir.find (chars! "have " ++ printInt n ++ chars! " items \"" ++ quoted '"' x ++ ['"']) =
        some (0, chars! "have " ++ printInt n ++ chars! " items \"" ++ quoted '"' x ++ ['"'],
          [⟨1, 5, printInt n⟩, ⟨2, 5 + (printInt n).length + 8, quoted '"' x⟩]) := by
  let i : Parameter := ⟨⟨10, 1, chars! "int"⟩, 0⟩
  let s : Parameter := ⟨⟨24, 1, chars! "string"⟩, 1⟩
  let e : Expression := [.alternation [[.text ⟨0, 1, chars! "has"⟩], [.text ⟨4, 1, chars! "have"⟩]], .whitespaces ⟨8, 1, [' ']⟩,
    .parameter i, .whitespaces ⟨14, 1, [' ']⟩, .text ⟨15, 1, chars! "item"⟩, .optional ⟨⟨20, 1, ['s']⟩⟩,
    .whitespaces ⟨22, 1, [' ']⟩, .parameter s]
  have hp : Expression.parse (chars! "has/have {int} item(s) {string}") = .ok e := rfl
  have hb : AllBuiltin e := by
    intro r hr
    simp [e] at hr
    rcases hr with rfl | rfl
    · exact ⟨.int, rfl⟩
    · exact ⟨.string, rfl⟩
  have hs : Spaced e := by
    refine .inr ⟨⟨?_, _, _, rfl⟩, .inr ⟨trivial, .inr ⟨.inr (.inr ⟨by decide, _, _, rfl⟩), .inr ⟨trivial, .inr ⟨trivial, .inr ⟨⟨?_, _, _, rfl⟩,
      .inr ⟨trivial, .inr ⟨.inl rfl, trivial⟩⟩⟩⟩⟩⟩⟩⟩
    · simp [altText]
    · simp
  obtain ⟨c, hc, hf⟩ := C65_returned _ e hp hb
  have hu : SaneSpace asciiTables.classes := by
    refine ⟨?_, ?_⟩
    · show asciiTables.tests.space ' ' = true
      decide
    · show ¬ asciiTables.tests.digit ' ' = true
      decide
  obtain ⟨hir, hh, hf⟩ := hf asciiTables sane_tables (C65_spaced _ e hp hb hs _ hu)
  have hd : AsciiDigits asciiTables.classes := by
    intro c _
    show Ranges.mem [('0', '9')] c = true ↔ _
    simp [Ranges.mem, Char.isDigit, Char.le_def]
  refine ⟨c, hir, hc, hh, hf _ _ ?_⟩
  have key : Splits asciiTables.classes e 1 0
      (chars! "have" ++ ([' '] ++ (printInt n ++ ([' '] ++ (chars! "item" ++ (['s'] ++ ([' '] ++ ('"' :: (quoted '"' x ++ ['"']) ++ []))))))))
      ([] ++ ([] ++ ([⟨1, 5, printInt n⟩] ++ ([] ++ ([] ++ ([] ++ ([] ++ ([⟨2, _, quoted '"' x⟩] ++ [])))))))) :=
    .cons _ _ _ _ _ _ _ _ ⟨⟨[.text ⟨4, 1, chars! "have"⟩], by simp, chars! "have", [], rfl, rfl, rfl⟩, rfl⟩ <|
    .cons _ _ _ _ _ _ _ _ ⟨rfl, rfl⟩ <|
    .cons _ _ _ _ _ _ _ _ ⟨.int, rfl, printInt_lang hd n, rfl⟩ <|
    .cons _ _ _ _ _ _ _ _ ⟨rfl, rfl⟩ <|
    .cons _ _ _ _ _ _ _ _ ⟨rfl, rfl⟩ <|
    .cons _ _ _ _ _ _ _ _ ⟨.inr rfl, rfl⟩ <|
    .cons _ _ _ _ _ _ _ _ ⟨rfl, rfl⟩ <|
    .cons _ _ _ _ _ _ _ _ ⟨.string, rfl, ⟨'"', _, .inl rfl, rfl, quoted_Quoted (by decide) x⟩, quoted '"' x, .inl ⟨rfl, rfl⟩⟩ <| .nil ..
  simpa [Nat.add_assoc] using key

end CE
