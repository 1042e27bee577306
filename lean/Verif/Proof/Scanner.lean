import Verif.Proof.Grammar
import Verif.Spec.Scanner

/-! # The scanner against the relaxed grammar -/

namespace CE.Spec.Scanner
open Spec.Grammar
open State Ctx

@[simp] theorem scan_nil (s : State) : scan s [] = s := rfl
@[simp] theorem scan_cons (s : State) (x : Char) (w : List Char) : scan s (x :: w) = scan (step s x) w := rfl
theorem scan_append (s : State) (v w : List Char) : scan s (v ++ w) = scan (scan s v) w := List.foldl_append ..
@[simp] theorem scan_dead (w : List Char) : scan dead w = dead := by
  induction w with
  | nil => rfl
  | cons x w ih => exact ih

theorem escapable_iff (c : Char) : escapable c = true ↔ c ∈ Relaxed.anyReserved := by
  simp [escapable, Relaxed.anyReserved]; grind

/-! ## Words of the grammar are accepted -/

theorem run_optText {w} (h : Relaxed.textInOptional w) (c : Ctx) (b : Bool) : scan (opt c b) w = opt c true := by
  rcases h with ⟨x, rfl, hx⟩ | ⟨x, hx, rfl⟩
  · simp [optionalToEscape] at hx
    simp [step, hx]
  · simp [step, (escapable_iff x).2 hx]

theorem run_optTexts {w} (h : star Relaxed.textInOptional w) (c : Ctx) : scan (opt c true) w = opt c true := by
  induction h with
  | nil => rfl
  | cons a b ha _ ih => rw [scan_append, run_optText ha, ih]

theorem run_optional {w} (h : Relaxed.optional w) (c : Ctx) : scan (top c) w = top c := by
  obtain ⟨_, _, rfl, rfl, _, _, rfl, ⟨a, b, rfl, ha, hb⟩, rfl⟩ := h
  have e : step (top c) '(' = opt c false := by simp [step]
  rw [List.singleton_append, scan_cons, e, scan_append, scan_append, run_optText ha, run_optTexts hb]
  simp [step]

theorem run_optionals {w} (h : star Relaxed.optional w) (c : Ctx) : scan (top c) w = top c := by
  induction h with
  | nil => rfl
  | cons a b ha _ ih => rw [scan_append, run_optional ha, ih]

theorem run_name {w} (h : Relaxed.name w) : scan par w = par := by
  rcases h with ⟨x, rfl, hx⟩ | ⟨x, hx, rfl⟩
  · simp [nameToEscape] at hx
    simp [step, hx]
  · simp [step, (escapable_iff x).2 hx]

theorem run_names {w} (h : star Relaxed.name w) : scan par w = par := by
  induction h with
  | nil => rfl
  | cons a b ha _ ih => rw [scan_append, run_name ha, ih]

theorem run_parameter {w} (h : Relaxed.parameter w) {c : Ctx} (hc : c ≠ need) : scan (top c) w = top fresh := by
  obtain ⟨_, _, rfl, rfl, _, _, rfl, hn, rfl⟩ := h
  have e : step (top c) '{' = par := by simp [step, hc]
  rw [List.singleton_append, scan_cons, e, scan_append, run_names hn]
  simp [step]

theorem run_text {w} (h : Relaxed.textInAlternative w) (c : Ctx) : scan (top c) w = top .text := by
  rcases h with ⟨x, rfl, hx⟩ | ⟨x, hx, rfl⟩
  · simp [alternativeToEscape] at hx
    simp [step, hx]
  · simp [step, (escapable_iff x).2 hx]

theorem run_pieces {w} (h : star (or Relaxed.textInAlternative Relaxed.optional) w) (c : Ctx) :
    (∃ c', scan (top c) w = top c') ∧ scan (top .text) w = top .text := by
  induction h generalizing c with
  | nil => exact ⟨⟨c, rfl⟩, rfl⟩
  | cons a b ha _ ih =>
    rcases ha with ha | ha
    · rw [scan_append, scan_append, run_text ha, run_text ha]
      exact ih .text
    · rw [scan_append, scan_append, run_optional ha, run_optional ha]
      exact ih c

theorem run_branch {w} (h : Relaxed.singleAlternation w) (c : Ctx) : scan (top c) w = top .text := by
  obtain ⟨a, _, rfl, ha, b, d, rfl, hb, hd⟩ := h
  obtain ⟨c', hc'⟩ := (run_pieces ha c).1
  rw [scan_append, hc', scan_append, run_text hb, (run_pieces hd .text).2]

theorem run_slashed {w} (h : star (seq (chr '/') Relaxed.singleAlternation) w) : scan (top .text) w = top .text := by
  induction h with
  | nil => rfl
  | cons a b ha _ ih =>
    obtain ⟨_, d, rfl, rfl, hd⟩ := ha
    have e : step (top .text) '/' = top need := by simp [step]
    rw [List.append_assoc, List.singleton_append, scan_cons, e, scan_append, run_branch hd, ih]

theorem textWithoutWhitespace_eq : Relaxed.textWithoutWhitespace = Relaxed.textInAlternative := rfl

theorem run_single {w} (h : Relaxed.singleExpression w) {c : Ctx} (hc : c ≠ need) :
    ∃ c', scan (top c) w = top c' ∧ c' ≠ need := by
  rcases h with h | h | h | h | h
  · obtain ⟨a, b, rfl, ha, hb⟩ := h
    refine ⟨.text, ?_, by decide⟩
    rw [scan_append, run_branch ha, run_slashed (star_of_plus hb)]
  · exact ⟨c, run_optional h c, hc⟩
  · exact ⟨fresh, run_parameter h hc, by decide⟩
  · obtain ⟨a, b, rfl, ha, hb⟩ := h
    refine ⟨.text, ?_, by decide⟩
    rw [scan_append, run_text ha]
    exact (run_pieces (star_mono (fun _ h => .inl h) hb) .text).2
  · have : ∀ {v}, star Relaxed.whitespace v → ∀ {c : Ctx}, c ≠ need → ∃ c', scan (top c) v = top c' ∧ c' ≠ need := by
      intro v hv
      induction hv with
      | nil => intro c hc; exact ⟨c, rfl, hc⟩
      | cons a b ha _ ih =>
        intro c hc
        cases ha
        have e : step (top c) ' ' = top fresh := by simp [step, hc]
        rw [List.singleton_append, scan_cons, e]
        exact ih (by decide)
    exact this (star_of_plus h) hc

theorem run_expression {w} (h : Relaxed.expression w) : ∀ {c : Ctx}, c ≠ need → ∃ c', scan (top c) w = top c' ∧ c' ≠ need := by
  induction h with
  | nil => intro c hc; exact ⟨c, rfl, hc⟩
  | cons a b ha _ ih =>
    intro c hc
    obtain ⟨c', h1, h2⟩ := run_single ha hc
    rw [scan_append, h1]
    exact ih h2

theorem accepting_iff (s : State) : accepting s = true ↔ ∃ c, s = top c ∧ c ≠ need := by
  rcases s with (_ | _ | _) | _ | _ | _ | _ | _ | _ <;> simp [accepting]

/-! ## Accepted words belong to the grammar -/

/-- Branches joined by `/`, read from the left. -/
inductive Joined : List Char → Prop
  | one (b : List Char) : Relaxed.singleAlternation b → Joined b
  | snoc (a b : List Char) : Joined a → Relaxed.singleAlternation b → Joined (a ++ '/' :: b)

/-- What may have been read since the last boundary. -/
def Pre : Ctx → List Char → Prop
  | fresh, p => star Relaxed.optional p
  | .text, p => Joined p
  | need, p => ∃ a b, p = a ++ '/' :: b ∧ Joined a ∧ star Relaxed.optional b

theorem branch_snoc_pieces {a b} (ha : Relaxed.singleAlternation a)
    (hb : star (or Relaxed.textInAlternative Relaxed.optional) b) : Relaxed.singleAlternation (a ++ b) := by
  obtain ⟨x, _, rfl, hx, y, z, rfl, hy, hz⟩ := ha
  exact ⟨x, y ++ z ++ b, by simp, hx, y, z ++ b, by simp, hy, star_append hz hb⟩

theorem branch_opts_text {a t} (ha : star Relaxed.optional a) (ht : Relaxed.textInAlternative t) :
    Relaxed.singleAlternation (a ++ t) :=
  ⟨a, t, rfl, star_mono (fun _ h => .inr h) ha, t, [], by simp, ht, .nil⟩

theorem star_one {A : Lang} {a} (h : A a) : star A a := by simpa using star.cons a [] h .nil

theorem joined_pieces {p t} (hp : Joined p) (ht : star (or Relaxed.textInAlternative Relaxed.optional) t) :
    Joined (p ++ t) := by
  cases hp with
  | one b hb => exact .one _ (branch_snoc_pieces hb ht)
  | snoc a b ha hb =>
    rw [List.append_assoc, List.cons_append]
    exact .snoc _ _ ha (branch_snoc_pieces hb ht)

theorem pre_text {c p t} (hp : Pre c p) (ht : Relaxed.textInAlternative t) : Pre .text (p ++ t) := by
  cases c with
  | fresh => exact .one _ (branch_opts_text hp ht)
  | text => exact joined_pieces hp (star_one (.inl ht))
  | need =>
    obtain ⟨a, b, rfl, ha, hb⟩ := hp
    rw [List.append_assoc, List.cons_append]
    exact .snoc _ _ ha (branch_opts_text hb ht)

theorem pre_optional {c p t} (hp : Pre c p) (ht : Relaxed.optional t) : Pre c (p ++ t) := by
  cases c with
  | fresh => exact star_append hp (star_one ht)
  | text => exact joined_pieces hp (star_one (.inr ht))
  | need =>
    obtain ⟨a, b, rfl, ha, hb⟩ := hp
    exact ⟨a, b ++ t, by simp, ha, star_append hb (star_one ht)⟩

theorem joined_split {p} (h : Joined p) :
    ∃ a b, p = a ++ b ∧ Relaxed.singleAlternation a ∧ star (seq (chr '/') Relaxed.singleAlternation) b := by
  induction h with
  | one b hb => exact ⟨b, [], by simp, hb, .nil⟩
  | snoc a b _ hb ih =>
    obtain ⟨x, y, rfl, hx, hy⟩ := ih
    exact ⟨x, y ++ '/' :: b, by simp, hx, star_append hy (star_one ⟨['/'], b, rfl, rfl, hb⟩)⟩

theorem expression_pieces {w} (h : star (or Relaxed.textInAlternative Relaxed.optional) w) : Relaxed.expression w := by
  refine star_mono ?_ h
  rintro v (hv | hv)
  · exact .inr (.inr (.inr (.inl ⟨v, [], by simp, hv, .nil⟩)))
  · exact .inr (.inl hv)

theorem expression_joined {p} (h : Joined p) : Relaxed.expression p := by
  obtain ⟨a, b, rfl, ha, hb⟩ := joined_split h
  cases hb with
  | nil => rw [List.append_nil]; exact expression_pieces (star_of_branch ha)
  | cons x y hx hy => exact star_one (.inl ⟨a, x ++ y, rfl, ha, x, y, rfl, hx, hy⟩)

theorem expression_pre {c p} (h : Pre c p) (hc : c ≠ need) : Relaxed.expression p := by
  cases c with
  | fresh => exact expression_pieces (star_mono (fun _ h => .inr h) h)
  | text => exact expression_joined h
  | need => exact absurd rfl hc

theorem not_accepting_dead {w} : accepting (scan dead w) = true → False := by simp [accepting]

/-- Inside of an optional the scanner looks for the closing bracket. -/
theorem opt_split : ∀ (n : ℕ) (w : List Char), w.length ≤ n → ∀ (c : Ctx) (b : Bool), accepting (scan (opt c b) w) = true →
    ∃ t v, w = t ++ ')' :: v ∧ star Relaxed.textInOptional t ∧ (b = true ∨ t ≠ []) ∧ accepting (scan (top c) v) = true := by
  intro n
  induction n with
  | zero =>
    intro w hw c b h
    rw [List.length_eq_zero_iff.1 (by omega : w.length = 0)] at h
    simp [accepting] at h
  | succ n ih =>
    intro w hw c b h
    match w with
    | [] => simp [accepting] at h
    | x :: w =>
      simp only [List.length_cons] at hw
      by_cases h1 : x = '\\'
      · subst h1
        match w with
        | [] => simp [step, accepting] at h
        | y :: w =>
          simp only [List.length_cons] at hw
          simp only [scan_cons, step, if_true] at h
          by_cases h2 : escapable y = true
          · rw [if_pos h2] at h
            obtain ⟨t, v, rfl, h3, -, h4⟩ := ih w (by omega) c true h
            exact ⟨'\\' :: y :: t, v, rfl, .cons ['\\', y] t (.inr ⟨y, (escapable_iff y).1 h2, rfl⟩) h3, .inr (by simp), h4⟩
          · rw [if_neg h2] at h
            exact (not_accepting_dead h).elim
      · by_cases h2 : x = ')'
        · subst h2
          cases b with
          | false => simp [step, accepting] at h
          | true => exact ⟨[], w, rfl, .nil, .inl rfl, by simpa [step] using h⟩
        · by_cases h3 : x = '(' ∨ x = '{' ∨ x = '/'
          · simp [step, h1, h2, h3, accepting] at h
          · simp only [scan_cons, step, h1, h2, h3, if_false] at h
            obtain ⟨t, v, rfl, h4, -, h5⟩ := ih w (by omega) c true h
            refine ⟨x :: t, v, rfl, .cons [x] t (.inl ⟨x, rfl, ?_⟩) h4, .inr (by simp), h5⟩
            simp [optionalToEscape]; grind

/-- Inside of a parameter as well. -/
theorem par_split : ∀ (n : ℕ) (w : List Char), w.length ≤ n → accepting (scan par w) = true →
    ∃ t v, w = t ++ '}' :: v ∧ star Relaxed.name t ∧ accepting (scan (top fresh) v) = true := by
  intro n
  induction n with
  | zero =>
    intro w hw h
    rw [List.length_eq_zero_iff.1 (by omega : w.length = 0)] at h
    simp [accepting] at h
  | succ n ih =>
    intro w hw h
    match w with
    | [] => simp [accepting] at h
    | x :: w =>
      simp only [List.length_cons] at hw
      by_cases h1 : x = '\\'
      · subst h1
        match w with
        | [] => simp [step, accepting] at h
        | y :: w =>
          simp only [List.length_cons] at hw
          simp only [scan_cons, step, if_true] at h
          by_cases h2 : escapable y = true
          · rw [if_pos h2] at h
            obtain ⟨t, v, rfl, h3, h4⟩ := ih w (by omega) h
            exact ⟨'\\' :: y :: t, v, rfl, .cons ['\\', y] t (.inr ⟨y, (escapable_iff y).1 h2, rfl⟩) h3, h4⟩
          · rw [if_neg h2] at h
            exact (not_accepting_dead h).elim
      · by_cases h2 : x = '}'
        · subst h2
          exact ⟨[], w, rfl, .nil, by simpa [step] using h⟩
        · by_cases h3 : x = '(' ∨ x = '{' ∨ x = '/'
          · simp [step, h1, h2, h3, accepting] at h
          · simp only [scan_cons, step, h1, h2, h3, if_false] at h
            obtain ⟨t, v, rfl, h4, h5⟩ := ih w (by omega) h
            refine ⟨x :: t, v, rfl, .cons [x] t (.inl ⟨x, rfl, ?_⟩) h4, h5⟩
            simp [nameToEscape]; grind

theorem expression_of_accepting : ∀ (n : ℕ) (w : List Char), w.length ≤ n → ∀ (c : Ctx) (p : List Char), Pre c p →
    accepting (scan (top c) w) = true → Relaxed.expression (p ++ w) := by
  have base : ∀ (c : Ctx) (p : List Char), Pre c p → accepting (scan (top c) []) = true → Relaxed.expression (p ++ []) := by
    intro c p hp h
    rw [List.append_nil]
    exact expression_pre hp (by rintro rfl; simp [accepting] at h)
  intro n
  induction n with
  | zero =>
    intro w hw c p hp h
    obtain rfl := List.length_eq_zero_iff.1 (by omega : w.length = 0)
    exact base c p hp h
  | succ n ih =>
    intro w hw c p hp h
    match w with
    | [] => exact base c p hp h
    | x :: w =>
      simp only [List.length_cons] at hw
      by_cases h1 : x = '\\'
      · subst h1
        match w with
        | [] => simp [step, accepting] at h
        | y :: w =>
          simp only [List.length_cons] at hw
          simp only [scan_cons, step, if_true] at h
          by_cases h2 : escapable y = true
          · rw [if_pos h2] at h
            have := ih w (by omega) .text (p ++ ['\\', y]) (pre_text hp (.inr ⟨y, (escapable_iff y).1 h2, rfl⟩)) h
            simpa using this
          · rw [if_neg h2] at h
            exact (not_accepting_dead h).elim
      · by_cases h2 : x = '('
        · subst h2
          have e : step (top c) '(' = opt c false := by simp [step]
          rw [scan_cons, e] at h
          obtain ⟨t, v, rfl, h3, h4, h5⟩ := opt_split _ w le_rfl c false h
          have h6 : Relaxed.optional ('(' :: (t ++ [')'])) :=
            ⟨['('], t ++ [')'], rfl, rfl, t, [')'], rfl, plus_of_star (by simpa using h4) h3, rfl⟩
          have := ih v (by simp at hw; omega) c (p ++ '(' :: (t ++ [')'])) (pre_optional hp h6) h5
          simpa using this
        · by_cases h3 : x = '/'
          · subst h3
            by_cases h4 : c = .text
            · subst h4
              have e : step (top .text) '/' = top need := by simp [step]
              rw [scan_cons, e] at h
              have := ih w (by omega) need (p ++ ['/']) ⟨p, [], rfl, hp, .nil⟩ h
              simpa using this
            · simp [step, h4, accepting] at h
          · by_cases h4 : x = '{'
            · subst h4
              by_cases h5 : c = need
              · simp [step, h5, accepting] at h
              · have e : step (top c) '{' = par := by simp [step, h5]
                rw [scan_cons, e] at h
                obtain ⟨t, v, rfl, h6, h7⟩ := par_split _ w le_rfl h
                have h8 : Relaxed.parameter ('{' :: (t ++ ['}'])) := ⟨['{'], t ++ ['}'], rfl, rfl, t, ['}'], rfl, h6, rfl⟩
                have := ih v (by simp at hw; omega) fresh [] .nil h7
                have := star_append (expression_pre hp h5) (star.cons _ _ (.inr (.inr (.inl h8))) this)
                simpa [Relaxed.expression] using this
            · by_cases h5 : x = ' '
              · subst h5
                by_cases h6 : c = need
                · simp [step, h6, accepting] at h
                · have e : step (top c) ' ' = top fresh := by simp [step, h6]
                  rw [scan_cons, e] at h
                  have := ih w (by omega) fresh [] .nil h
                  exact star_append (expression_pre hp h6)
                    (star.cons [' '] _ (.inr (.inr (.inr (.inr ⟨[' '], [], rfl, rfl, .nil⟩)))) this)
              · have e : step (top c) x = top .text := by simp [step, h1, h2, h3, h4, h5]
                rw [scan_cons, e] at h
                have := ih w (by omega) .text (p ++ [x]) (pre_text hp (.inl ⟨x, rfl, by simp [alternativeToEscape]; grind⟩)) h
                simpa using this

theorem accepting_iff_relaxed (w : List Char) :
    accepting (scan (top fresh) w) = true ↔ Relaxed.expression w := by
  constructor
  · intro h; exact expression_of_accepting _ w le_rfl fresh [] .nil h
  · intro h; exact (accepting_iff _).2 (run_expression h (by decide))

end CE.Spec.Scanner
