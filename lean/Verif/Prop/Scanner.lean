import Verif.Proof.Scanner
import Verif.Prop.Accept
import Verif.Prop.Reject

/-! # Scanning (C61) and completing (C62) expressions -/

namespace CE
open Spec Spec.Grammar
open Spec.Scanner (scan step accepting automaton states scan_append scan_cons scan_nil scan_dead)
open Spec.Scanner.State Spec.Scanner.Ctx

/-! ## C61 -/

/-- C61: the expressions accepted are those at whose end the scanner accepts. -/
theorem C61_scanner (src : List Char) :
    (∃ x, Expression.parse src = .ok x) ↔ accepting (scan (top fresh) src) = true := by
  rw [C05_accepts_iff_relaxed, Scanner.accepting_iff_relaxed]

/-- The same, for Mathlib's finite automata. -/
theorem C61_automaton : automaton.accepts = { src | ∃ x, Expression.parse src = .ok x } := by
  ext src
  show accepting (scan (top fresh) src) = true ↔ _
  exact (C61_scanner src).symm

/-- C61: the expressions accepted form a regular language. -/
theorem C61_regular : Language.IsRegular ({ src | ∃ x, Expression.parse src = .ok x } : Language Char) :=
  ⟨_, inferInstance, automaton, C61_automaton⟩

/-- A text after which the scanner is in the given state. -/
def reach : Scanner.State → List Char
  | top fresh => []
  | top .text => ['a']
  | top need => ['a', '/']
  | esc => ['\\']
  | opt fresh b => if b then ['(', 'a'] else ['(']
  | opt .text b => if b then ['a', '(', 'a'] else ['a', '(']
  | opt need b => if b then ['a', '/', '(', 'a'] else ['a', '/', '(']
  | optEsc fresh => ['(', '\\']
  | optEsc .text => ['a', '(', '\\']
  | optEsc need => ['a', '/', '(', '\\']
  | par => ['{']
  | parEsc => ['{', '\\']
  | dead => ['/']

theorem run_reach (s : Scanner.State) : scan (top fresh) (reach s) = s := by
  rcases s with (_ | _ | _) | _ | ⟨_ | _ | _, _ | _⟩ | (_ | _ | _) | _ | _ | _ <;> decide

/-- Texts which tell the states apart. -/
def probes : List (List Char) :=
  ["", "a", "/a", ")", ")a", ")/a", "a)", "a)a", "a)/a", "}", "\\", "\\)", "\\)a", "\\)/a", "\\}"].map String.toList

theorem probes_tell (s s' : Scanner.State) (h : s ≠ s') :
    ∃ z ∈ probes, accepting (scan s z) ≠ accepting (scan s' z) := by
  have : ∀ s ∈ states, ∀ s' ∈ states, s ≠ s' → ∃ z ∈ probes, accepting (scan s z) ≠ accepting (scan s' z) := by decide
  have hm : ∀ s : Scanner.State, s ∈ states := by
    rintro (c | _ | ⟨c, b⟩ | c | _ | _ | _) <;> (try cases c) <;> (try cases b) <;> decide
  exact this s (hm s) s' (hm s') h

/-- C61: fewer than sixteen states do not suffice: every automaton for the expressions has at least as many. -/
theorem C61_minimal {σ : Type} [Fintype σ] (M : DFA Char σ)
    (hM : M.accepts = { src | ∃ x, Expression.parse src = .ok x }) : 16 ≤ Fintype.card σ := by
  have hinj : Function.Injective (fun s : Scanner.State => M.eval (reach s)) := by
    intro s s' he
    by_contra hne
    obtain ⟨z, -, hz⟩ := probes_tell s s' hne
    have key : ∀ t, (reach t ++ z ∈ M.accepts ↔ accepting (scan t z) = true) := by
      intro t
      rw [hM]
      show (∃ x, Expression.parse (reach t ++ z) = .ok x) ↔ _
      rw [C61_scanner, scan_append, run_reach]
    have : reach s ++ z ∈ M.accepts ↔ reach s' ++ z ∈ M.accepts := by
      have he' : M.evalFrom M.start (reach s) = M.evalFrom M.start (reach s') := he
      show M.evalFrom M.start (reach s ++ z) ∈ M.accept ↔ M.evalFrom M.start (reach s' ++ z) ∈ M.accept
      rw [DFA.evalFrom_of_append, DFA.evalFrom_of_append, he']
    rw [key, key] at this
    exact hz (Bool.eq_iff_iff.2 this)
  calc 16 = Fintype.card Scanner.State := by rfl
    _ ≤ Fintype.card σ := Fintype.card_le_of_injective _ hinj

/-- Non-vacuity of `C61_minimal`: there is such an automaton. -/
example : ∃ (σ : Type) (_ : Fintype σ) (M : DFA Char σ), M.accepts = { src | ∃ x, Expression.parse src = .ok x } ∧
    Fintype.card σ = 16 := ⟨_, inferInstance, automaton, C61_automaton, rfl⟩

example : accepting (scan (top fresh) "a (very )long/short {int}\\(s\\)".toList) = true ∧
    accepting (scan (top fresh) "a/(b) {c}".toList) = false ∧ accepting (scan (top fresh) "a {b".toList) = false := by decide

/-! ## C62 -/

/-- The text can be continued to an expression which is accepted. -/
def Completable (src : List Char) : Prop := ∃ more x, Expression.parse (src ++ more) = .ok x

/-- How to get from a state to the end of an expression. -/
def completion : Scanner.State → List Char
  | top need => ['a']
  | esc => ['\\']
  | opt need b => if b then [')', 'a'] else ['a', ')', 'a']
  | opt _ b => if b then [')'] else ['a', ')']
  | optEsc need => ['\\', ')', 'a']
  | optEsc _ => ['\\', ')']
  | par => ['}']
  | parEsc => ['\\', '}']
  | _ => []

/-- C62: a text can be completed iff the scanner is not stuck after it. -/
theorem C62_completable (src : List Char) : Completable src ↔ scan (top fresh) src ≠ dead := by
  constructor
  · rintro ⟨more, x, h⟩ hd
    have := (C61_scanner _).1 ⟨x, h⟩
    rw [scan_append, hd, scan_dead] at this
    exact absurd this (by decide)
  · intro h
    obtain ⟨x, hx⟩ := (C61_scanner (src ++ completion (scan (top fresh) src))).2 (by
      rw [scan_append]
      generalize scan (top fresh) src = s at h
      rcases s with (_ | _ | _) | _ | ⟨_ | _ | _, _ | _⟩ | (_ | _ | _) | _ | _ | _ <;> first | decide | exact absurd rfl h)
    exact ⟨_, x, hx⟩

/-- C62: if a text can be completed at all, then at most three of four characters suffice. -/
theorem C62_three_characters (src : List Char) (h : Completable src) :
    ∃ more x, Expression.parse (src ++ more) = .ok x ∧ more.length ≤ 3 ∧ ∀ c ∈ more, c ∈ ['a', '\\', ')', '}'] := by
  have h := (C62_completable src).1 h
  obtain ⟨x, hx⟩ := (C61_scanner (src ++ completion (scan (top fresh) src))).2 (by
    rw [scan_append]
    generalize scan (top fresh) src = s at h
    rcases s with (_ | _ | _) | _ | ⟨_ | _ | _, _ | _⟩ | (_ | _ | _) | _ | _ | _ <;> first | decide | exact absurd rfl h)
  refine ⟨_, x, hx, ?_⟩
  generalize scan (top fresh) src = s
  rcases s with (_ | _ | _) | _ | ⟨_ | _ | _, _ | _⟩ | (_ | _ | _) | _ | _ | _ <;> decide

/-- C62: every beginning of an expression can be completed, and what cannot be completed cannot be rescued later. -/
theorem C62_prefix (src more : List Char) (h : Completable (src ++ more)) : Completable src := by
  obtain ⟨m, x, hx⟩ := h
  exact ⟨more ++ m, x, by rwa [← List.append_assoc]⟩

example : ¬ Completable "a(b/".toList ∧ Completable "a/(b\\".toList := by
  rw [C62_completable, C62_completable]; decide

/-! ### What the errors say about it -/

/-- Errors which no further text can remedy. -/
def Hopeless (src : List Char) : PErr → Prop
  | .nestedParameter _ | .optionalInParameter _ | .nestedOptional _ | .parameterInOptional _ | .emptyOptional _
  | .alternationInOptional _ | .unescapedReservedCharacter _ => True
  | .emptyAlternation s | .onlyOptionalInAlternation s => s.offset + blen s.frag < blen src
  | .escapedNonReservedCharacter s => ∃ d, s.frag = ['\\', d] ∧ d ∉ reserved
  | _ => False

theorem run_canonical {es} (h : Canonical es) : ∃ c, scan (top fresh) (render es) = top c ∧ c ≠ need :=
  Scanner.run_expression (relaxed_of_canonical h) (by decide)

theorem run_canonical_fresh {es} (h : Canonical es) (hf : Fresh es) : scan (top fresh) (render es) = top fresh := by
  rcases List.eq_nil_or_concat es with rfl | ⟨es', e, rfl⟩
  · rfl
  · rw [List.concat_eq_append] at *
    have hv : ∀ x ∈ es', Relaxed.singleExpression x.render := fun x hx => relaxed_elem (h.1 x (by simp [hx]))
    have he := h.1 e (by simp)
    have h1 : Relaxed.expression (render es') := by
      clear h hf
      induction es' with
      | nil => exact .nil
      | cons y ys ih =>
        rw [render_cons]
        exact .cons _ _ (hv y (by simp)) (ih (fun x hx => hv x (by simp [hx])))
    obtain ⟨c, hc, hn⟩ := Scanner.run_expression h1 (c := fresh) (by decide)
    have hr : render (es' ++ [e]) = render es' ++ e.render := by simp [render]
    rw [hr, scan_append, hc]
    rcases hf e (by simp) with ⟨t, rfl⟩ | ⟨t, rfl⟩
    · obtain ⟨h2, h3⟩ := he
      have : ∀ (t : List Char), (∀ c ∈ t, c = ' ') → t ≠ [] → ∀ c : Scanner.Ctx, c ≠ need → scan (top c) t = top fresh := by
        intro t
        induction t with
        | nil => intro _ hne; exact absurd rfl hne
        | cons x t ih =>
          intro hx _ c hc
          obtain rfl := hx x (by simp)
          have e : step (top c) ' ' = top fresh := by simp [step, hc]
          rw [scan_cons, e]
          by_cases ht : t = []
          · subst ht; rfl
          · exact ih (fun c hc => hx c (by simp [hc])) ht fresh (by decide)
      exact this t h3 h2 c hn
    · exact Scanner.run_parameter ⟨['{'], t ++ ['}'], rfl, rfl, t, ['}'], rfl, star_of_escd excl_name' he, rfl⟩ hn

theorem scan_escd_opt {t} (h : Escd optStops t) (c : Scanner.Ctx) (b : Bool) :
    scan (opt c b) t = opt c (b || !t.isEmpty) := by
  have h1 : star Relaxed.textInOptional t := star_of_escd excl_opt' h
  cases h1 with
  | nil => simp
  | cons x y hx hy =>
    rw [scan_append, Scanner.run_optText hx, Scanner.run_optTexts hy]
    have : (x ++ y).isEmpty = false := by
      rcases hx with ⟨c, rfl, -⟩ | ⟨c, -, rfl⟩ <;> rfl
    simp [this]

theorem scan_escd_name {t} (h : Escd nameStops t) : scan par t = par := Scanner.run_names (star_of_escd excl_name' h)

theorem scan_validPieces {b : List Piece} (h : ∀ p ∈ b, p.Valid) (c : Scanner.Ctx) :
    ∃ c', scan (top c) (renderPieces b) = top c' := (Scanner.run_pieces (star_pieces h) c).1

theorem scan_textPieces {b : List Piece} (h : ∀ p ∈ b, p.Valid) (ht : b.any Piece.isText = true) (c : Scanner.Ctx) :
    scan (top c) (renderPieces b) = top .text := Scanner.run_branch (relaxed_branch h ht) c

theorem scan_optPieces {b : List Piece} (h : ∀ p ∈ b, p.Valid) (ht : ∀ p ∈ b, p.isText = false) (c : Scanner.Ctx) :
    scan (top c) (renderPieces b) = top c := by
  induction b with
  | nil => rfl
  | cons q b ih =>
    cases q with
    | text t => exact absurd (ht (.text t) (by simp)) (by simp [Piece.isText])
    | opt t =>
      rw [renderPieces_cons, scan_append, Scanner.run_optional (relaxed_optional (h (.opt t) (by simp))),
        ih (fun p hp => h p (by simp [hp])) (fun p hp => ht p (by simp [hp]))]

theorem scan_slashTerminated {bs : List (List Piece)} (h : Branches bs) (c : Scanner.Ctx) :
    scan (top c) (slashTerminated bs) = dead ∨ ∃ c', scan (top c) (slashTerminated bs) = top c' := by
  induction bs generalizing c with
  | nil => exact .inr ⟨c, rfl⟩
  | cons b bs ih =>
    have e : slashTerminated (b :: bs) = renderPieces b ++ '/' :: slashTerminated bs := by simp [slashTerminated]
    rw [e, scan_append]
    obtain ⟨c', hc'⟩ := scan_validPieces (h b (by simp)).1.1 c
    rw [hc', scan_cons]
    by_cases ht : c' = .text
    · have e : step (top c') '/' = top need := by simp [step, ht]
      rw [e]
      exact ih (fun x hx => h x (by simp [hx])) need
    · have e : step (top c') '/' = dead := by simp [step, ht]
      rw [e, scan_dead]
      exact .inl rfl

/-- Where the run of well-escaped text stops at a backslash, that does not escape anything. -/
theorem run_nonReserved {stops r t d v} (h : Spec.Run stops r t ('\\' :: d :: v)) : d ∉ reserved := by
  obtain ⟨h1, h2, h3⟩ := h
  intro hd
  have := h3 (t ++ ['\\', d]) v (by simp [h1]) (escd_append h2 (.esc d [] hd .nil))
  simp at this

theorem escapable_reserved {d : Char} (h : d ∉ reserved) : Scanner.escapable d = false := by
  rw [← Bool.not_eq_true, Scanner.escapable_iff]
  exact h

theorem hopeless_escape {src : List Char} {s : Span} {pre t rest : List Char} {e : PErr} (h : EscapeFailure s pre t rest e) (hh : Hopeless src e) (ht : ∃ stops, Escd stops t) :
    ∃ d v, rest = '\\' :: d :: v := by
  cases h with
  | nonReserved d v h => exact ⟨d, v, h⟩
  | endOfLine => exact hh.elim
  | endOfLineAfterText h hne =>
    obtain ⟨d, hd, hd'⟩ := hh
    rw [Span.sub_frag] at hd
    obtain ⟨stops, ht⟩ := ht
    cases ht with
    | nil => exact absurd rfl hne
    | char c cs hc _ _ => simp at hd; exact absurd hd.1 hc
    | esc d' cs hr _ => simp at hd; subst hd; exact absurd hr hd'

theorem dead_optional {src : List Char} {s : Span} {r t rest : List Char} {e : PErr} (hr : Spec.Run optStops r t rest)
    (h : OptionalFailure s t rest e) (hh : Hopeless src e) (c : Scanner.Ctx) : scan (top c) ('(' :: r) = dead := by
  have e0 : step (top c) '(' = opt c false := by simp [step]
  have key : ∀ x v, rest = x :: v → step (opt c (!t.isEmpty)) x = dead → scan (top c) ('(' :: r) = dead := by
    intro x v hx hd
    rw [scan_cons, e0, hr.1, scan_append, scan_escd_opt hr.2.1, Bool.false_or, hx, scan_cons, hd, scan_dead]
  cases h with
  | empty v h ht => exact key _ v h (by simp [step, ht])
  | alternation v h => exact key _ v h (by simp [step])
  | nested t' v h => exact key _ _ h.1 (by simp [step])
  | unescapedParen v h => exact key _ v h (by simp [step])
  | parameter t' v h => exact key _ _ h.1 (by simp [step])
  | unescapedBrace v h => exact key _ v h (by simp [step])
  | unfinished h => exact hh.elim
  | escape e h =>
    obtain ⟨d, v, hv⟩ := hopeless_escape h hh ⟨_, hr.2.1⟩
    subst hv
    rw [scan_cons, e0, hr.1, scan_append, scan_escd_opt hr.2.1, Bool.false_or]
    simp [step, escapable_reserved (run_nonReserved hr)]

theorem dead_parameter {src : List Char} {s : Span} {r t rest : List Char} {e : PErr} (hr : Spec.Run nameStops r t rest)
    (h : ParameterFailure s t rest e) (hh : Hopeless src e) {c : Scanner.Ctx} (hc : c ≠ need) :
    scan (top c) ('{' :: r) = dead := by
  have e0 : step (top c) '{' = par := by simp [step, hc]
  have key : ∀ x v, rest = x :: v → step par x = dead → scan (top c) ('{' :: r) = dead := by
    intro x v hx hd
    rw [scan_cons, e0, hr.1, scan_append, scan_escd_name hr.2.1, hx, scan_cons, hd, scan_dead]
  cases h with
  | nested t' v h => exact key _ _ h.1 (by simp [step])
  | unescapedBrace v h => exact key _ v h (by simp [step])
  | optional t' v h => exact key _ _ h.1 (by simp [step])
  | unescapedParen v h => exact key _ v h (by simp [step])
  | unescapedSlash v h => exact key _ v h (by simp [step])
  | unfinished h => exact hh.elim
  | escape e h =>
    obtain ⟨d, v, hv⟩ := hopeless_escape h hh ⟨_, hr.2.1⟩
    subst hv
    rw [scan_cons, e0, hr.1, scan_append, scan_escd_name hr.2.1]
    simp [step, escapable_reserved (run_nonReserved hr)]

theorem dead_alternative {src : List Char} {s : Span} {e : PErr} (h : AlternativeOutcome s (.error (.failure e)))
    (hh : Hopeless src e) (c : Scanner.Ctx) : scan (top c) s.frag = dead := by
  cases h with
  | optionalFailure e h =>
    cases h with
    | failure r t rest e h1 h2 h3 => rw [h1]; exact dead_optional h2 h3 hh c
  | textFailure t rest e _ hr h =>
    obtain ⟨d, v, hv⟩ := hopeless_escape h hh ⟨_, hr.2.1⟩
    subst hv
    obtain ⟨c', hc'⟩ := (Scanner.run_pieces (star_mono (fun _ h => .inl h) (star_of_escd excl_alt' hr.2.1)) c).1
    rw [hr.1, scan_append, hc']
    simp [step, escapable_reserved (run_nonReserved hr)]

/-- After branches of which one has no text, the scanner is stuck or waits for text. -/
theorem scan_renderBranches {bs : List (List Piece)} (h : Branches bs) :
    (∀ c, c ≠ .text → scan (top c) (renderBranches bs) = dead ∨ ∃ c', scan (top c) (renderBranches bs) = top c') ∧
    ((∃ b ∈ bs, ∀ q ∈ b, q.isText = false) →
      scan (top need) (renderBranches bs) = dead ∨ scan (top need) (renderBranches bs) = top need) ∧
    ((∃ b ∈ bs, ∀ q ∈ b, q.isText = false) → 2 ≤ bs.length →
      scan (top fresh) (renderBranches bs) = dead ∨ scan (top fresh) (renderBranches bs) = top need) := by
  induction bs with
  | nil => exact ⟨fun c _ => .inr ⟨c, rfl⟩, by simp, by simp⟩
  | cons b bs ih =>
    have hb := (h b (by simp)).1.1
    have hbs : Branches bs := fun x hx => h x (by simp [hx])
    obtain ⟨ih1, ih2, -⟩ := ih hbs
    cases bs with
    | nil =>
      refine ⟨fun c _ => .inr (scan_validPieces hb c), ?_, by simp⟩
      intro hx
      simp only [List.mem_singleton, exists_eq_left] at hx
      exact .inr (scan_optPieces hb hx need)
    | cons b' bs =>
      have e : renderBranches (b :: b' :: bs) = renderPieces b ++ '/' :: renderBranches (b' :: bs) := rfl
      have dich : (b.any Piece.isText = true) ∨ (∀ q ∈ b, q.isText = false) := by
        by_cases hx : b.any Piece.isText = true
        · exact .inl hx
        · right; intro q hq
          simp only [List.any_eq_true, not_exists, not_and, Bool.not_eq_true] at hx
          exact hx q hq
      rw [e]
      have stuck : ∀ c, c ≠ .text → (∀ q ∈ b, q.isText = false) →
          scan (top c) (renderPieces b ++ '/' :: renderBranches (b' :: bs)) = dead := by
        intro c hc ht
        have e : step (top c) '/' = dead := by simp [step, hc]
        rw [scan_append, scan_optPieces hb ht, scan_cons, e, scan_dead]
      have go : ∀ c, b.any Piece.isText = true → scan (top c) (renderPieces b ++ '/' :: renderBranches (b' :: bs)) =
          scan (top need) (renderBranches (b' :: bs)) := by
        intro c ht
        have e : step (top .text) '/' = top need := by simp [step]
        rw [scan_append, scan_textPieces hb ht, scan_cons, e]
      have tail : b.any Piece.isText = true → (∃ x ∈ b :: b' :: bs, ∀ q ∈ x, q.isText = false) →
          ∃ x ∈ b' :: bs, ∀ q ∈ x, q.isText = false := by
        rintro ht ⟨x, hx, hq⟩
        rcases List.mem_cons.1 hx with rfl | hx
        · obtain ⟨q, hq1, hq2⟩ := List.any_eq_true.1 ht
          rw [hq q hq1] at hq2; exact absurd hq2 (by decide)
        · exact ⟨x, hx, hq⟩
      refine ⟨fun c hc => ?_, fun hx => ?_, fun hx _ => ?_⟩
      · rcases dich with ht | ht
        · rw [go c ht]; exact ih1 need (by decide)
        · exact .inl (stuck c hc ht)
      · rcases dich with ht | ht
        · rw [go need ht]; exact ih2 (tail ht hx)
        · exact .inl (stuck need (by decide) ht)
      · rcases dich with ht | ht
        · rw [go fresh ht]; exact ih2 (tail ht hx)
        · exact .inl (stuck fresh (by decide) ht)

theorem dead_alternation {src pre : List Char} {s : Span} {e : PErr} (hs : src = pre ++ s.frag) (ho : s.offset = blen pre)
    (h : AlternationFailure s e) (hh : Hopeless src e) : scan (top fresh) s.frag = dead := by
  cases h with
  | emptyFirst r h => rw [h]; simp [step]
  | emptyLater bs r hne hb hf hr =>
    rw [hf, scan_append]
    have step2 : ∀ c, scan (top c) ('/' :: r) = dead := by
      intro c
      by_cases hc : c = .text
      · have e : step (top c) '/' = top need := by simp [step, hc]
        rw [scan_cons, e]
        rcases hr with rfl | ⟨x, v, rfl, hx⟩
        · exfalso
          have : s.offset + blen (renderBranches bs) + blen ['/'] < blen src := by
            simpa [Hopeless, Span.sub_offset] using hh
          rw [hs, hf, ho] at this
          simp only [blen_append] at this
          omega
        · simp only [List.mem_cons, List.not_mem_nil, or_false] at hx
          rcases hx with rfl | rfl | rfl <;> simp [step]
      · have e : step (top c) '/' = dead := by simp [step, hc]
        rw [scan_cons, e, scan_dead]
    rcases (scan_renderBranches hb).1 fresh (by decide) with h1 | ⟨c, h1⟩
    · rw [h1, scan_dead]
    · rw [h1, step2]
  | onlyOptional bs rest hl hb hf hr hx =>
    rw [hf, scan_append]
    rcases (scan_renderBranches hb).2.2 hx hl with h1 | h1
    · rw [h1, scan_dead]
    · rw [h1]
      rcases hr with rfl | ⟨x, v, rfl, hx⟩
      · exfalso
        have : s.offset + blen (renderBranches bs) < blen src := by simpa [Hopeless, Span.sub_offset] using hh
        rw [hs, hf, ho] at this
        simp only [blen_append] at this
        simp at this
      · simp only [List.mem_cons, List.not_mem_nil, or_false] at hx
        rcases hx with rfl | rfl <;> simp [step]
  | piece bs b v e hb hv hf _ hp =>
    rw [hf, scan_append, scan_append]
    rcases scan_slashTerminated hb fresh with h1 | ⟨c, h1⟩
    · rw [h1, scan_dead, scan_dead]
    · obtain ⟨c', h2⟩ := scan_validPieces hv.1 c
      rw [h1, h2]
      have := dead_alternative hp hh c'
      rwa [Span.sub_frag] at this

/-- C62: errors about nesting, empty optionals, misplaced reserved characters and wrong escapes are final, and so are
errors about alternations which do not extend to the end: no text to come can remedy them. -/
theorem C62_hopeless (src : List Char) (e : PErr) (h : Expression.parse src = .err e) (hh : Hopeless src e) :
    ¬ Completable src := by
  rw [C62_completable, not_not]
  cases (C43_parse_err_iff src e).1 h with
  | parameter es rest r t w e hc hs hr hrun hf =>
    obtain ⟨c, h1, h2⟩ := run_canonical hc
    rw [hs, scan_append, h1, hr]
    exact dead_parameter hrun hf hh h2
  | alternation es rest e hc hfr hs ha =>
    have := dead_alternation (src := src) (pre := render es) (by rw [Span.sub_frag, hs])
      (by simp [Span.new]) ha hh
    rw [Span.sub_frag] at this
    rw [hs, scan_append, run_canonical_fresh hc hfr, this]

/-- C62: a missing `}` can always be supplied. -/
theorem C62_unfinished_parameter (src : List Char) (s : Span)
    (h : Expression.parse src = .err (.unfinishedParameter s)) : ∃ x, Expression.parse (src ++ ['}']) = .ok x := by
  rw [C61_scanner]
  have : scan (top fresh) src = par := by
    cases (C43_parse_err_iff src _).1 h with
    | parameter es rest r t w e hc hs hr hrun hf =>
      obtain ⟨c, h1, h2⟩ := run_canonical hc
      have e0 : step (top c) '{' = par := by simp [step, h2]
      cases hf with
      | unfinished hw =>
        rw [hs, scan_append, h1, hr, scan_cons, e0, hrun.1, hw, List.append_nil, scan_escd_name hrun.2.1]
      | escape e h => cases h
    | alternation es rest e hc hfr hs ha =>
      exfalso
      cases ha with
      | piece bs b v e hb hv hf _ hp =>
        cases hp with
        | optionalFailure e h =>
          cases h with
          | failure r t rest e h1 h2 h3 =>
            cases h3 with
            | escape e h => cases h
        | textFailure t rest e _ hr h => cases h
  rw [scan_append, this]
  decide

theorem slash_renderBranches {bs : List (List Piece)} (h : 2 ≤ bs.length) : '/' ∈ renderBranches bs := by
  match bs, h with
  | b :: b' :: bs, _ => simp [renderBranches]

theorem alive_escape {src s pre t rest e} (h : EscapeFailure s pre t rest e) (hh : ¬ Hopeless src e) {stops r}
    (hr : Spec.Run stops r t rest) : rest = ['\\'] := by
  cases h with
  | nonReserved d v h => subst h; exact absurd ⟨d, by simp, run_nonReserved hr⟩ hh
  | endOfLine h => exact h
  | endOfLineAfterText h => exact h

theorem alive_alternative {src : List Char} {s : Span} {e : PErr} (h : AlternativeOutcome s (.error (.failure e)))
    (hh : ¬ Hopeless src e) (c : Scanner.Ctx) : scan (top c) s.frag ≠ dead := by
  cases h with
  | optionalFailure e h =>
    cases h with
    | failure r t rest e h1 hr h3 =>
      have e0 : step (top c) '(' = opt c false := by simp [step]
      rw [h1, scan_cons, e0, hr.1, scan_append, scan_escd_opt hr.2.1]
      cases h3 with
      | unfinished h => rw [h]; simp
      | escape e h => rw [alive_escape h hh hr]; simp [step]
      | _ => exact absurd trivial hh
  | textFailure t rest e _ hr h =>
    obtain ⟨c', hc'⟩ := (Scanner.run_pieces (star_mono (fun _ h => .inl h) (star_of_escd excl_alt' hr.2.1)) c).1
    rw [hr.1, scan_append, hc', alive_escape h hh hr]
    simp [step]

/-- C62: without alternations the errors are exact: a text is rejected with any other error iff it can be completed. -/
theorem C62_exact (src : List Char) (hsl : '/' ∉ src) (e : PErr) (h : Expression.parse src = .err e) :
    Completable src ↔ ¬ Hopeless src e := by
  refine ⟨fun hc hh => C62_hopeless src e h hh hc, fun hh => ?_⟩
  rw [C62_completable]
  cases (C43_parse_err_iff src e).1 h with
  | parameter es rest r t w e hc hs hr hrun hf =>
    obtain ⟨c, h1, h2⟩ := run_canonical hc
    have e0 : step (top c) '{' = par := by simp [step, h2]
    rw [hs, scan_append, h1, hr, scan_cons, e0, hrun.1, scan_append, scan_escd_name hrun.2.1]
    cases hf with
    | unfinished hw => rw [hw]; simp
    | escape e he => rw [alive_escape he hh hrun]; simp [step]
    | _ => exact absurd trivial hh
  | alternation es rest e hc hfr hs ha =>
    have hsl' : '/' ∉ rest := fun hm => hsl (by rw [hs]; simp [hm])
    rw [hs, scan_append, run_canonical_fresh hc hfr]
    cases ha with
    | emptyFirst r hf => rw [Span.sub_frag] at hf; subst hf; simp at hsl'
    | emptyLater bs r hne hb hf hr => rw [Span.sub_frag] at hf; subst hf; simp at hsl'
    | onlyOptional bs rest' hl hb hf hr hx =>
      rw [Span.sub_frag] at hf; subst hf
      exact absurd (by simp [slash_renderBranches hl]) hsl'
    | piece bs b v e hb hv hf _ hp =>
      rw [Span.sub_frag] at hf
      cases bs with
      | cons b' bs => exact absurd (by rw [hf]; simp [slashTerminated]) hsl'
      | nil =>
        have e : rest = renderPieces b ++ v := by rw [hf]; simp [slashTerminated]
        obtain ⟨c', h2⟩ := scan_validPieces hv.1 fresh
        rw [e, scan_append, h2]
        have := alive_alternative hp hh c'
        rwa [Span.sub_frag] at this

/-- Non-vacuity: final errors, and errors which more text can remedy. -/
example : (∃ e, Expression.parse "a (b(c) d".toList = .err e ∧ Hopeless "a (b(c) d".toList e) ∧
    (∃ e, Expression.parse "a (b".toList = .err e ∧ ¬ Hopeless "a (b".toList e) ∧
    (∃ s, Expression.parse "a {b".toList = .err (.unfinishedParameter s)) ∧
    (∃ e, Expression.parse "a/ b".toList = .err e ∧ Hopeless "a/ b".toList e) ∧
    (∃ e, Expression.parse "a/".toList = .err e ∧ ¬ Hopeless "a/".toList e) :=
  ⟨⟨.unescapedReservedCharacter ⟨4, 1, ['(']⟩, by decide, trivial⟩, ⟨.unfinishedOptional ⟨2, 1, ['(']⟩, by decide, id⟩,
    ⟨⟨2, 1, ['{']⟩, by decide⟩,
    ⟨.emptyAlternation ⟨1, 1, ['/']⟩, by decide, show 1 + blen ['/'] < blen "a/ b".toList by decide⟩,
    ⟨.emptyAlternation ⟨1, 1, ['/']⟩, by decide, show ¬ 1 + blen ['/'] < blen "a/".toList by decide⟩⟩

/-- With alternations the errors are not exact: `(a)/(b` is rejected because of a missing `)`, but supplying it does not
help, because of the first branch. -/
theorem C62_inexact : ∃ src e, Expression.parse src = .err e ∧ ¬ Hopeless src e ∧ ¬ Completable src :=
  ⟨"(a)/(b".toList, .unfinishedOptional ⟨4, 1, ['(']⟩, by decide, id, by rw [C62_completable]; decide⟩

end CE
