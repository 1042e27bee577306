import Verif.Spec.Longest
import Verif.Prop.Differ

/-!
# The longest text of an expression: C85
-/

namespace CE
open Spec Regex

/-! ## Regexes -/

theorem repeats_most {P : Matches} {k : Nat} (h : ∀ pre x post l, P pre x post l → x.length ≤ k) {m : Nat} {n : Option Nat}
    {pre x post : List Char} {l : List Cap} (hr : Repeats P m n pre x post l) : ∀ j, n = some j → x.length ≤ j * k := by
  induction hr with
  | done n pre post => intro j _; exact Nat.zero_le _
  | more m n pre x y post l _ hn h1 _ ih =>
    rintro j rfl
    have := h _ _ _ _ h1
    cases j with
    | zero => exact absurd rfl hn
    | succ j =>
      have := ih j rfl
      rw [List.length_append, Nat.succ_mul]
      omega

theorem repeats_none {P : Matches} (h : ∀ pre x post l, P pre x post l → x.length ≤ 0) {m : Nat} {n : Option Nat}
    {pre x post : List Char} {l : List Cap} (hr : Repeats P m n pre x post l) : x.length ≤ 0 := by
  induction hr with
  | done n pre post => exact Nat.zero_le _
  | more m n pre x y post l _ hn h1 _ ih =>
    have := h _ _ _ _ h1
    rw [List.length_append]
    omega

theorem match_most {U : Classes} : ∀ (r : Re) (g : Nat) (pre x post : List Char) (l : List Cap), r.Match U g pre x post l →
    ∀ n, r.most = some n → x.length ≤ n
  | .empty, _, _, _, _, _, ⟨h, _⟩, _, _ => by rw [h]; exact Nat.zero_le _
  | .lit _, _, _, _, _, _, ⟨h, _⟩, _, hn => by cases hn; rw [h]; exact Nat.le_refl _
  | .dot, _, _, _, _, _, ⟨⟨_, _, h⟩, _⟩, _, hn => by cases hn; rw [h]; exact Nat.le_refl _
  | .cls _, _, _, _, _, _, ⟨⟨_, _, h⟩, _⟩, _, hn => by cases hn; rw [h]; exact Nat.le_refl _
  | .bol, _, _, _, _, _, ⟨_, h, _⟩, _, _ => by rw [h]; exact Nat.zero_le _
  | .eol, _, _, _, _, _, ⟨_, h, _⟩, _, _ => by rw [h]; exact Nat.zero_le _
  | .mark _, _, _, _, _, _, ⟨_, h, _⟩, _, _ => by rw [h]; exact Nat.zero_le _
  | .cap _ r, g, pre, x, post, l, ⟨k, h, _⟩, n, hn => match_most r (g + 1) _ _ _ _ h n hn
  | .cat a b, g, pre, x, post, l, ⟨y, z, k, m, hx, _, h1, h2⟩, n, hn => by
    cases ha : a.most with
    | none => simp [Re.most, ha] at hn
    | some i =>
      cases hb : b.most with
      | none => simp [Re.most, ha, hb] at hn
      | some j =>
        simp [Re.most, ha, hb] at hn
        have := match_most a _ _ _ _ _ h1 i ha
        have := match_most b _ _ _ _ _ h2 j hb
        rw [hx, List.length_append]
        omega
  | .alt a b, g, pre, x, post, l, h, n, hn => by
    cases ha : a.most with
    | none => simp [Re.most, ha] at hn
    | some i =>
      cases hb : b.most with
      | none => simp [Re.most, ha, hb] at hn
      | some j =>
        simp [Re.most, ha, hb] at hn
        rcases h with h | h
        · have := match_most a _ _ _ _ _ h i ha
          omega
        · have := match_most b _ _ _ _ _ h j hb
          omega
  | .rep r m k _, g, pre, x, post, l, h, n, hn => by
    cases hr : r.most with
    | none =>
      cases k with
      | none => simp [Re.most, hr] at hn
      | some k =>
        cases k with
        | zero =>
          have h' : Repeats (r.Match U g) m (some 0) pre x post l := h
          generalize hz : some 0 = z at h'
          cases h' with
          | done => exact Nat.zero_le _
          | more _ _ _ _ _ _ _ _ hne => exact absurd hz.symm hne
        | succ k => simp [Re.most, hr] at hn
    | some i =>
      have hi := fun pre x post l (h : r.Match U g pre x post l) => match_most r g pre x post l h i hr
      cases i with
      | zero => exact Nat.le_trans (repeats_none hi h) (Nat.zero_le _)
      | succ i =>
        cases k with
        | none => simp [Re.most, hr] at hn
        | some k =>
          simp [Re.most, hr] at hn
          rw [← hn]
          exact repeats_most hi h k rfl

/-! ## Elements -/

theorem max_getD {l : List Nat} (h : l ≠ []) : l.max?.getD 0 ∈ l ∧ ∀ x ∈ l, x ≤ l.max?.getD 0 := by
  cases hm : l.max? with
  | none => simp at hm; exact absurd hm h
  | some m => exact List.max?_eq_some_iff.1 hm

theorem branch_longest (b : SingleAlternation) : Longest (BranchLang b) (branchLongest b) := by
  induction b with
  | nil => exact ⟨fun x h => by cases h; exact Nat.zero_le _, [], rfl, rfl⟩
  | cons a b ih =>
    obtain ⟨h1, y, h2, h3⟩ := ih
    cases a with
    | text t =>
      refine ⟨?_, unescape t.frag ++ y, ⟨_, y, rfl, rfl, h2⟩, by simp [branchLongest, h3]⟩
      rintro x ⟨u, v, rfl, rfl, hv⟩
      simp [branchLongest, h1 v hv]
    | optional o =>
      refine ⟨?_, unescape o.input.frag ++ y, ⟨_, y, rfl, .inr rfl, h2⟩, by simp [branchLongest, h3]⟩
      rintro x ⟨u, v, rfl, hu, hv⟩
      have := h1 v hv
      rcases hu with rfl | rfl
      · simp [branchLongest]; omega
      · simp [branchLongest]; omega

variable (T : Tables)

theorem longest_text {pars : Provider} {m : Parameter → Nat} {e : Expression} (hne : NonemptyAlts e) :
    ((∀ p ∈ params e, ∀ x, ParamText T pars p x → x.length ≤ m p) → ∀ w, e.Text T pars w → w.length ≤ e.longestWith m) ∧
    ((∀ p ∈ params e, Longest (ParamText T pars p) (m p)) → Longest (e.Text T pars) (e.longestWith m)) := by
  have low : ∀ (e : Expression), NonemptyAlts e → (∀ p ∈ params e, ∀ x, ParamText T pars p x → x.length ≤ m p) → ∀ w, e.Text T pars w →
      w.length ≤ e.longestWith m := by
    intro e
    induction e with
    | nil => exact fun _ _ w h => by cases h; exact Nat.zero_le _
    | cons e es ih =>
      rintro hne hm w ⟨x, y, rfl, hx, hy⟩
      have hsub : ∀ p ∈ params es, p ∈ params (e :: es) := fun p hp => by rw [params_cons]; cases e <;> simp [hp]
      have h1 := ih (fun h => hne (by simp [h])) (fun p hp => hm p (hsub p hp)) y hy
      have h2 : x.length ≤ e.longestWith m := by
        cases e with
        | text t => cases hx; exact Nat.le_refl _
        | whitespaces t => cases hx; exact Nat.le_refl _
        | optional o =>
          rcases hx with rfl | rfl
          · exact Nat.zero_le _
          · exact Nat.le_refl _
        | alternation a =>
          obtain ⟨b, hb, hx⟩ := hx
          obtain ⟨-, h2⟩ := max_getD (l := a.map branchLongest) (by simp; rintro rfl; exact hne (by simp))
          exact Nat.le_trans ((branch_longest b).1 x hx) (h2 _ (List.mem_map_of_mem hb))
        | parameter p => exact hm p (by rw [params_cons]; simp) x hx
      simp only [Expression.longestWith, List.map_cons, List.sum_cons, List.length_append] at h1 ⊢
      omega
  refine ⟨low e hne, fun hm => ⟨low e hne fun p hp => (hm p hp).1, ?_⟩⟩
  clear low
  induction e with
  | nil => exact ⟨[], rfl, rfl⟩
  | cons e es ih =>
    have hsub : ∀ p ∈ params es, p ∈ params (e :: es) := fun p hp => by rw [params_cons]; cases e <;> simp [hp]
    obtain ⟨y, hy, h1⟩ := ih (fun h => hne (by simp [h])) (fun p hp => hm p (hsub p hp))
    have : ∃ x, e.Text T pars x ∧ x.length = e.longestWith m := by
      cases e with
      | text t => exact ⟨_, rfl, rfl⟩
      | whitespaces t => exact ⟨_, rfl, rfl⟩
      | optional o => exact ⟨_, .inr rfl, rfl⟩
      | alternation a =>
        obtain ⟨h2, -⟩ := max_getD (l := a.map branchLongest) (by simp; rintro rfl; exact hne (by simp))
        obtain ⟨b, hb, h⟩ := List.mem_map.1 h2
        obtain ⟨x, hx, hl⟩ := (branch_longest b).2
        exact ⟨x, ⟨b, hb, hx⟩, hl.trans h⟩
      | parameter p => exact (hm p (by rw [params_cons]; simp)).2
    obtain ⟨x, hx, h2⟩ := this
    exact ⟨x ++ y, ⟨x, y, rfl, hx, hy⟩, by simp [Expression.longestWith, h2] at h1 ⊢; omega⟩

/-- If every parameter has a text, then each text of a parameter is in some text of the expression. -/
theorem text_with {pars : Provider} {e : Expression} (hne : NonemptyAlts e) (hx : ∀ p ∈ params e, ∃ x, ParamText T pars p x) :
    (∃ w, e.Text T pars w) ∧ ∀ p ∈ params e, ∀ x, ParamText T pars p x → ∃ w, e.Text T pars w ∧ x <:+: w := by
  induction e with
  | nil => exact ⟨⟨[], rfl⟩, fun p hp => by cases hp⟩
  | cons e es ih =>
    have hsub : ∀ p ∈ params es, p ∈ params (e :: es) := fun p hp => by rw [params_cons]; cases e <;> simp [hp]
    obtain ⟨⟨y, hy⟩, h1⟩ := ih (fun h => hne (by simp [h])) fun p hp => hx p (hsub p hp)
    have : ∃ x, e.Text T pars x := by
      cases e with
      | text t => exact ⟨_, rfl⟩
      | whitespaces t => exact ⟨_, rfl⟩
      | optional o => exact ⟨[], .inl rfl⟩
      | alternation a =>
        cases a with
        | nil => exact absurd (by simp) hne
        | cons b a =>
          obtain ⟨x, hx, -⟩ := (branch_shortest b).2
          exact ⟨x, b, by simp, hx⟩
      | parameter p => exact hx p (by rw [params_cons]; simp)
    obtain ⟨z, hz⟩ := this
    refine ⟨⟨z ++ y, z, y, rfl, hz, hy⟩, fun p hp x hpx => ?_⟩
    rw [params_cons] at hp
    have rest : p ∈ params es → ∃ w, Expression.Text T pars (e :: es) w ∧ x <:+: w := by
      intro hp
      obtain ⟨w, hw, a, b, rfl⟩ := h1 p hp x hpx
      exact ⟨z ++ (a ++ x ++ b), ⟨z, _, rfl, hz, hw⟩, z ++ a, b, by simp⟩
    cases e with
    | parameter q =>
      rcases List.mem_cons.1 hp with rfl | hp
      · exact ⟨x ++ y, ⟨x, y, rfl, hpx, hy⟩, [], y, rfl⟩
      · exact rest hp
    | _ => exact rest hp

/-! ## C85 -/

/-- C85: if no parameter matches a text longer than `m p`, no match of the expression is longer than their sum with the literal parts. If no
custom regex looks around and these are the lengths of the longest texts of the parameters, then so is the sum for the expression. -/
theorem C85_longest (pars : Provider) (src : List Char) (e : Expression) (h : Expression.parse src = .ok e)
    (hr : ∀ p ∈ params e, RegularParam pars p) (hn : ((params e).map (customNames pars)).flatten.Nodup) (m : Parameter → Nat) :
    ∃ c, Expression.regexWithParameters (hirOf T) pars src = .ok c ∧
      ((∀ p ∈ params e, ∀ x, ParamText T pars p x → x.length ≤ m p) → ∀ w, c.re.IsMatch T.classes w → w.length ≤ e.longestWith m) ∧
      ((∀ p ∈ params e, FreeParam pars p) → (∀ p ∈ params e, Longest (ParamText T pars p) (m p)) →
        Longest (c.re.IsMatch T.classes) (e.longestWith m)) := by
  obtain ⟨c, hc, h1, h2⟩ := C82_texts T pars src e h hr hn
  have h3 := longest_text T (pars := pars) (m := m) (e := e) (parse_nonemptyAlts h)
  refine ⟨c, hc, fun hm w hw => h3.1 hm w (h1 w hw), fun hf hm => ?_⟩
  obtain ⟨h4, w, h5, h6⟩ := h3.2 hm
  exact ⟨fun w hw => h4 w (h1 w hw), w, (h2 hf w).2 h5, h6⟩

/-- C85: a bound for a custom regex can be read off its structure. -/
theorem C85_most (pars : Provider) (p : Parameter) (v : List Char) (r : Re) (hv : pars p.input = some v) (hr : Regex.parse v = .ok r)
    (n : Nat) (hn : r.most = some n) (x : List Char) (h : ParamText T pars p x) : x.length ≤ n := by
  obtain ⟨pre, post, h⟩ := h
  obtain ⟨g, l, h⟩ := (takes_custom T hv hr pre x post).1 h
  exact match_most _ _ _ _ _ _ h n hn

/-- C85: the lengths of the matches are bounded if those of the texts of all parameters are; and only then, if no custom regex looks around
and every parameter has a text. -/
theorem C85_bounded (pars : Provider) (src : List Char) (e : Expression) (h : Expression.parse src = .ok e)
    (hr : ∀ p ∈ params e, RegularParam pars p) (hn : ((params e).map (customNames pars)).flatten.Nodup) :
    ∃ c, Expression.regexWithParameters (hirOf T) pars src = .ok c ∧
      ((∀ p ∈ params e, Bounded (ParamText T pars p)) → Bounded (c.re.IsMatch T.classes)) ∧
      ((∀ p ∈ params e, FreeParam pars p) → (∀ p ∈ params e, ∃ x, ParamText T pars p x) →
        (Bounded (c.re.IsMatch T.classes) ↔ ∀ p ∈ params e, Bounded (ParamText T pars p))) := by
  obtain ⟨c, hc, h1, h2⟩ := C82_texts T pars src e h hr hn
  have up : (∀ p ∈ params e, Bounded (ParamText T pars p)) → Bounded (c.re.IsMatch T.classes) := by
    intro hb
    have hb : ∃ m : Parameter → Nat, ∀ p ∈ params e, ∀ x, ParamText T pars p x → x.length ≤ m p := by
      refine ⟨fun p => if hp : p ∈ params e then Classical.choose (hb p hp) else 0, fun p hp => ?_⟩
      simp only [hp, dif_pos]
      exact Classical.choose_spec (hb p hp)
    obtain ⟨m, hm⟩ := hb
    exact ⟨_, fun w hw => (longest_text T (parse_nonemptyAlts h)).1 hm w (h1 w hw)⟩
  refine ⟨c, hc, up, fun hf hx => ⟨?_, up⟩⟩
  rintro ⟨n, hn⟩ p hp
  refine ⟨n, fun x hpx => ?_⟩
  obtain ⟨w, hw, a, b, rfl⟩ := (text_with T (parse_nonemptyAlts h) hx).2 p hp x hpx
  have := hn _ ((h2 hf _).2 hw)
  simp at this
  omega

/-- C85: an expression with a built-in parameter matches texts of any length, if its custom regexes do not look around and match something. -/
theorem C85_builtin (hd : T.classes.digit '0') (hs : ¬ T.classes.space '0') (pars : Provider) (src : List Char) (e : Expression)
    (h : Expression.parse src = .ok e) (hr : ∀ p ∈ params e, RegularParam pars p)
    (hn : ((params e).map (customNames pars)).flatten.Nodup) (hf : ∀ p ∈ params e, FreeParam pars p)
    (hx : ∀ p ∈ params e, ∃ x, ParamText T pars p x) (p : Parameter) (hp : p ∈ params e) (hv : pars p.input = none) :
    ∃ c, Expression.regexWithParameters (hirOf T) pars src = .ok c ∧ ¬ Bounded (c.re.IsMatch T.classes) := by
  obtain ⟨c, hc, -, h1⟩ := C85_bounded T pars src e h hr hn
  refine ⟨c, hc, fun hb => ?_⟩
  obtain ⟨n, hn⟩ := (h1 hf hx).1 hb p hp
  have hb := hr p hp
  simp only [RegularParam, hv] at hb
  obtain ⟨b, hb⟩ := hb
  obtain ⟨x, hx, hl⟩ := builtin_long hd hs b (n + 1)
  have := hn x ((builtin_text T hv hb x).2 hx)
  omega

/-- C83: without parameters, two expressions match a common text exactly if their lists of texts meet. -/
theorem C83_listed (src src' : List Char) (e e' : Expression) (h : Expression.parse src = .ok e) (h' : Expression.parse src' = .ok e')
    (hp : ∀ p, .parameter p ∉ e) (hp' : ∀ p, .parameter p ∉ e') :
    ∃ c c', Expression.regex src = .ok c ∧ Expression.regex src' = .ok c' ∧ ∀ U : Classes,
      ((∃ w, c.re.IsMatch U w ∧ c'.re.IsMatch U w) ↔ (e.texts.any fun w => w ∈ e'.texts) = true) := by
  obtain ⟨c, hc, h1⟩ := C68_finite src e h hp
  obtain ⟨c', hc', h2⟩ := C68_finite src' e' h' hp'
  refine ⟨c, c', hc, hc', fun U => ?_⟩
  simp only [h1, h2, List.any_eq_true, decide_eq_true_eq]

/-! ## Examples -/

/-- Non-vacuity of C85: no text of `in {year}{unit}` is longer than eleven characters; `in 2024gram` is one of eleven. With `{int}` for
`{year}` there is no bound. -/
example : ∃ e c, Expression.parse (chars! "in {year}{unit}") = .ok e ∧
    Expression.regexWithParameters (hirOf asciiTables) (hashMapProvider [(chars! "year", chars! "[12]\\d{3}"), (chars! "unit", chars! "kg|gram")])
      (chars! "in {year}{unit}") = .ok c ∧ Longest (c.re.IsMatch asciiTables.classes) 11 := by
  let pars := hashMapProvider [(chars! "year", chars! "[12]\\d{3}"), (chars! "unit", chars! "kg|gram")]
  let y : Parameter := ⟨⟨4, 1, chars! "year"⟩, 0⟩
  let u : Parameter := ⟨⟨10, 1, chars! "unit"⟩, 1⟩
  let e : Expression := [.text ⟨0, 1, chars! "in"⟩, .whitespaces ⟨2, 1, [' ']⟩, .parameter y, .parameter u]
  have hp : Expression.parse (chars! "in {year}{unit}") = .ok e := rfl
  have two : ∀ p ∈ params e, p = y ∨ p = u := by decide
  have hr : ∀ p ∈ params e, RegularParam pars p := by
    intro p hp
    rcases two p hp with rfl | rfl
    · exact ⟨_, rfl, fun h => absurd rfl h⟩
    · exact ⟨_, rfl, fun h => absurd rfl h⟩
  have hf : ∀ p ∈ params e, FreeParam pars p := by
    intro p hp v r hv h
    rcases two p hp with rfl | rfl
    · cases hv; cases h; rfl
    · cases hv; cases h; rfl
  have ty : ParamText asciiTables pars y (chars! "2024") := by
    refine ⟨[], [], (takes_custom asciiTables (pars := pars) (p := y) rfl rfl [] _ []).2 ⟨1, [], ?_⟩⟩
    have dig : ∀ c, asciiTables.tests.digit c = true → Cls.mem asciiTables.classes ⟨false, [.perl false .digit]⟩ c := fun c h =>
      ⟨_, List.mem_singleton.2 rfl, h⟩
    refine ⟨['2'], chars! "024", [], [], rfl, rfl, ⟨⟨'2', ⟨.single '2', by decide +kernel, rfl⟩, rfl⟩, rfl⟩, ?_⟩
    exact .more _ _ _ ['0'] (chars! "24") _ [] [] (by decide) ⟨⟨'0', dig _ rfl, rfl⟩, rfl⟩
      (.more _ _ _ ['2'] ['4'] _ [] [] (by decide) ⟨⟨'2', dig _ rfl, rfl⟩, rfl⟩
        (.more _ _ _ ['4'] [] _ [] [] (by decide) ⟨⟨'4', dig _ rfl, rfl⟩, rfl⟩ (.done _ _ _)))
  have tu : ParamText asciiTables pars u (chars! "gram") := by
    refine ⟨[], [], (takes_custom asciiTables (pars := pars) (p := u) rfl rfl [] _ []).2 ⟨1, [], .inr ?_⟩⟩
    exact ⟨['g'], chars! "ram", [], [], rfl, rfl, ⟨rfl, rfl⟩, ['r'], chars! "am", [], [], rfl, rfl, ⟨rfl, rfl⟩, ['a'], ['m'], [], [], rfl, rfl,
      ⟨rfl, rfl⟩, ⟨rfl, rfl⟩⟩
  let m : Parameter → Nat := fun _ => 4
  obtain ⟨c, hc, -, h2⟩ := C85_longest asciiTables pars _ e hp hr (by decide +kernel) m
  refine ⟨e, c, hp, hc, h2 hf ?_⟩
  intro p hp
  rcases two p hp with rfl | rfl
  · exact ⟨fun x hx => C85_most asciiTables pars y _ _ rfl rfl 4 (by decide +kernel) x hx, _, ty, rfl⟩
  · exact ⟨fun x hx => C85_most asciiTables pars u _ _ rfl rfl 4 (by decide +kernel) x hx, _, tu, rfl⟩

example : ∃ c, Expression.regexWithParameters (hirOf asciiTables) (hashMapProvider []) (chars! "in {int}") = .ok c ∧
    ¬ Bounded (c.re.IsMatch asciiTables.classes) := by
  let i : Parameter := ⟨⟨4, 1, chars! "int"⟩, 0⟩
  let e : Expression := [.text ⟨0, 1, chars! "in"⟩, .whitespaces ⟨2, 1, [' ']⟩, .parameter i]
  have one : ∀ p ∈ params e, p = i := by decide
  refine C85_builtin asciiTables ?_ ?_ _ _ e rfl ?_ (by decide +kernel) ?_ ?_ i (by decide) rfl
  · show asciiTables.tests.digit '0' = true
    rfl
  · show ¬ asciiTables.tests.space '0' = true
    decide +kernel
  · intro p hp
    rw [one p hp]
    exact ⟨.int, rfl⟩
  · intro p hp v r hv
    rw [one p hp] at hv
    cases hv
  · intro p hp
    rw [one p hp]
    refine ⟨['0'], (builtin_text asciiTables (b := .int) rfl rfl _).2 ⟨['0'], ⟨by simp, fun c hc => ?_⟩, .inl rfl⟩⟩
    rw [List.mem_singleton.1 hc]
    show asciiTables.tests.digit '0' = true
    rfl

/-- Non-vacuity of C83 for lists: `a/the cat(s)` and `the/two cats` meet, `a/the cat(s)` and `two/no cats` do not. -/
example : ∃ e e' e'', Expression.parse (chars! "a/the cat(s)") = .ok e ∧ Expression.parse (chars! "the/two cats") = .ok e' ∧
    Expression.parse (chars! "two/no cats") = .ok e'' ∧ (e.texts.any fun w => w ∈ e'.texts) = true ∧
    (e.texts.any fun w => w ∈ e''.texts) = false :=
  ⟨_, _, _, rfl, rfl, rfl, by decide +kernel, by decide +kernel⟩

end CE
