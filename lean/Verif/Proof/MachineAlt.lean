import Verif.Proof.MachineParam

/-! # The machine model: text, `alternative` and `alternation` -/

namespace CE
open Spec

set_option linter.unusedSimpArgs false

namespace Machine
variable {K : Machine}

theorem textParser_run {s : Span} (hf : Fits K s) : Run 12 16 16 (K.textParser s) (CE.textParser s) s := by
  have he := escaped_run (K := K) (p := isWithoutWhitespace) (by decide) hf
  have hcl := escapedReservedChars0_eq isWithoutWhitespace (by decide) s
  unfold textParser CE.textParser verify CE.verify
  cases ho : CE.escapedReservedChars0 (CE.takeWhile isWithoutWhitespace) s with
  | error e =>
    rw [ho] at he
    constructor
    · simp only [Metered.res_bind, he.res, Metered.res_pure]
    · intro r a h; simp at h
    · intro pe h
      simp only [Except.error.injEq] at h
      subst h
      have := he.soft _ rfl
      simp only [Metered.cost_bind, he.res, Metered.cost_pure]; omega
    · have := he.hard
      simp only [Metered.cost_bind, he.res, Metered.cost_pure]; omega
  | ok ra =>
    obtain ⟨r, a⟩ := ra
    rw [ho] at he hcl
    obtain ⟨hl, hc⟩ := he.ok r a rfl
    obtain ⟨h5, -⟩ := escOut_ok hcl.symm
    simp only [Prod.mk.injEq] at h5
    obtain ⟨h5, h6⟩ := h5
    have hle := hl.blen_le
    by_cases hp : decide (a.inputLen > 0) = true
    · constructor
      · simp only [Metered.res_bind, he.res, if_pos hp, Metered.res_pure]
      · intro r' a' h
        simp only [if_pos hp, Except.ok.injEq, Prod.mk.injEq] at h
        obtain ⟨rfl, rfl⟩ := h
        simp only [Metered.cost_bind, he.res, if_pos hp, Metered.cost_pure]
        exact ⟨hl, by omega⟩
      · intro e h; simp only [if_pos hp] at h; simp at h
      · simp only [Metered.cost_bind, he.res, if_pos hp, Metered.cost_pure]; omega
    · have h0 : blen r.frag = blen s.frag := by
        have ht : (erun isWithoutWhitespace s.frag).1 = [] := by
          rw [h6] at hp
          simp at hp
          exact hp
        have happ := erun_append isWithoutWhitespace s.frag
        rw [ht, List.nil_append] at happ
        rw [h5, Span.sub_frag, happ]
      constructor
      · simp only [Metered.res_bind, he.res, if_neg hp, Metered.res_pure]
      · intro r' a' h; simp only [if_neg hp] at h; simp at h
      · intro e h
        simp only [Metered.cost_bind, he.res, if_neg hp, Metered.cost_pure]; omega
      · simp only [Metered.cost_bind, he.res, if_neg hp, Metered.cost_pure]; omega

theorem pmap_run {α β : Type} {A B S : Nat} {p : MP α} {p' : P α} {f : α → β} {i : Span} (h : Run A B S (p i) (p' i) i) :
    Run A B S (pmap p f i) (CE.pmap p' f i) i := by
  unfold pmap CE.pmap
  cases ho : p' i with
  | error e =>
    rw [ho] at h
    constructor
    · simp only [Metered.res_bind, h.res, Metered.res_pure]
    · intro r a hr; simp at hr
    · intro pe hr
      simp only [Except.error.injEq] at hr
      simp only [Metered.cost_bind, h.res, Metered.cost_pure]
      exact h.soft pe (by rw [hr])
    · simp only [Metered.cost_bind, h.res, Metered.cost_pure]; exact h.hard
  | ok ra =>
    obtain ⟨r, a⟩ := ra
    rw [ho] at h
    constructor
    · simp only [Metered.res_bind, h.res, Metered.res_pure]
    · intro r' a' hr
      simp only [Except.ok.injEq, Prod.mk.injEq] at hr
      obtain ⟨rfl, -⟩ := hr
      simp only [Metered.cost_bind, h.res, Metered.cost_pure]
      exact h.ok _ _ rfl
    · intro pe hr; simp at hr
    · simp only [Metered.cost_bind, h.res, Metered.cost_pure]; exact h.hard

/-- `alt` of two stateless parsers. -/
theorem alt2_run {α : Type} {A B S A' B' S' : Nat} {p q : MP α} {p' q' : P α} {i : Span}
    (hp : Run A B S (p i) (p' i) i) (hq : Run A' B' S' (q i) (q' i) i) (hA : A' ≤ A) :
    Run A (B + B' + S + 2) (S + S' + 2) (alt p [q] i) (CE.alt p' [q'] i) i := by
  have key : ∀ x y : Nat, x ≤ y → A' * y + A * x ≤ A * y + A' * x := by
    intro x y hxy
    obtain ⟨d, rfl⟩ := Nat.le.dest hxy
    obtain ⟨k, rfl⟩ := Nat.le.dest hA
    have h1 : (A' + k) * (x + d) = A' * x + A' * d + (k * x + k * d) := by
      rw [Nat.add_mul, Nat.mul_add, Nat.mul_add]
    have h2 : (A' + k) * x = A' * x + k * x := Nat.add_mul _ _ _
    have h3 : A' * (x + d) = A' * x + A' * d := Nat.mul_add _ _ _
    omega
  unfold alt CE.alt altS CE.altS
  simp only [lift, P.lift, List.map]
  cases ho : p' i with
  | ok ra =>
    obtain ⟨r, a⟩ := ra
    rw [ho] at hp
    have hh := hp.hard
    constructor
    · simp only [Metered.res_bind, hp.res, Metered.res_pure]
    · intro r' a' h
      simp only [Except.ok.injEq, Prod.mk.injEq] at h
      obtain ⟨rfl, rfl⟩ := h
      obtain ⟨hl, hc⟩ := hp.ok _ _ rfl
      simp only [Metered.res_bind, Metered.res_pure, Metered.cost_bind, hp.res, Metered.cost_pure, tick_cost]
      exact ⟨hl, by omega⟩
    · intro e h; simp at h
    · simp only [Metered.res_bind, Metered.res_pure, Metered.cost_bind, hp.res, Metered.cost_pure, tick_cost]; omega
  | error e =>
    rw [ho] at hp
    have hh := hp.hard
    by_cases hsoft : ∃ pe, e = .error pe
    · obtain ⟨pe, rfl⟩ := hsoft
      have hs := hp.soft _ rfl
      cases ho2 : q' i with
      | ok rb =>
        obtain ⟨r, b⟩ := rb
        rw [ho2] at hq
        have hh2 := hq.hard
        obtain ⟨hl, hc⟩ := hq.ok _ _ rfl
        have hk := key _ _ hl.blen_le
        have hk0 := key 0 (blen i.frag) (by omega)
        constructor
        · simp only [Metered.res_bind, hp.res, hq.res, Metered.res_pure, altGo, CE.altGo, lift, P.lift, ho2]
        · intro r' a' h
          simp only [CE.altGo, P.lift, ho2, Except.ok.injEq, Prod.mk.injEq] at h
          obtain ⟨rfl, rfl⟩ := h
          simp only [altGo, lift, Metered.res_bind, Metered.res_pure, Metered.cost_bind, hp.res, hq.res,
            Metered.cost_pure, tick_cost]
          exact ⟨hl, by omega⟩
        · intro e h; simp [CE.altGo, P.lift, ho2] at h
        · simp only [altGo, lift, Metered.res_bind, Metered.res_pure, Metered.cost_bind, hp.res, hq.res,
            Metered.cost_pure, tick_cost]
          omega
      | error e2 =>
        rw [ho2] at hq
        have hh2 := hq.hard
        have hk0 := key 0 (blen i.frag) (by omega)
        by_cases hsoft2 : ∃ pe2, e2 = .error pe2
        · obtain ⟨pe2, rfl⟩ := hsoft2
          have hs2 := hq.soft _ rfl
          constructor
          · simp only [Metered.res_bind, hp.res, hq.res, Metered.res_pure, altGo, CE.altGo, lift, P.lift, ho2]
          · intro r' a' h; simp [CE.altGo, P.lift, ho2] at h
          · intro e h
            simp only [altGo, lift, Metered.res_bind, Metered.res_pure, Metered.cost_bind, hp.res, hq.res,
              Metered.cost_pure, tick_cost]
            omega
          · simp only [altGo, lift, Metered.res_bind, Metered.res_pure, Metered.cost_bind, hp.res, hq.res,
              Metered.cost_pure, tick_cost]
            omega
        · cases e2 <;> first
            | exact absurd ⟨_, rfl⟩ hsoft2
            | (constructor
               · simp only [Metered.res_bind, hp.res, hq.res, Metered.res_pure, altGo, CE.altGo, lift, P.lift, ho2]
               · intro r' a' h; simp [CE.altGo, P.lift, ho2] at h
               · intro e h; simp [CE.altGo, P.lift, ho2] at h
               · simp only [altGo, lift, Metered.res_bind, Metered.res_pure, Metered.cost_bind, hp.res, hq.res,
                   Metered.cost_pure, tick_cost]
                 omega)
    · cases e <;> first
        | exact absurd ⟨_, rfl⟩ hsoft
        | (constructor
           · simp only [Metered.res_bind, hp.res, Metered.res_pure]
           · intro r' a' h; simp at h
           · intro e h; simp at h
           · simp only [Metered.res_bind, Metered.res_pure, Metered.cost_bind, hp.res, Metered.cost_pure, tick_cost]
             omega)

theorem alternative_run {s : Span} (hf : Fits K s) : Run 100 70 20 (K.alternative s) (CE.alternative s) s := by
  have := alt2_run (pmap_run (f := Alternative.optional) (optional_run (K := K) hf))
    (pmap_run (f := Alternative.text) (textParser_run (K := K) hf)) (by omega)
  exact this

theorem alternative_progress {s r : Span} {a : Alternative} (h : CE.alternative s = .ok (r, a)) :
    blen r.frag < blen s.frag := by
  rw [alternative_eq] at h
  split at h
  next q v hq =>
    simp only [Except.ok.injEq, Prod.mk.injEq] at h
    obtain ⟨rfl, -⟩ := h
    simpa using pieceOk_blen hq
  · split at h <;> simp at h

theorem many1Loop_not_soft : ∀ (fuel : Nat) (s : Span) (e : PErr),
    CE.many1Loop CE.alternative fuel s ≠ .error (.error e) := by
  intro fuel
  induction fuel with
  | zero => intro s e h; simp [CE.many1Loop] at h
  | succ fuel ih =>
    intro s e h
    unfold CE.many1Loop at h
    cases ho : CE.alternative s with
    | error e' =>
      rw [ho] at h
      cases e' <;> simp at h
    | ok ra =>
      obtain ⟨i1, o⟩ := ra
      have hlt := alternative_progress ho
      have hne : ¬ i1.inputLen = s.inputLen := by show ¬ blen i1.frag = blen s.frag; omega
      rw [ho] at h
      simp only [if_neg hne] at h
      cases ho2 : CE.many1Loop CE.alternative fuel i1 with
      | error e' => rw [ho2] at h; simp only [Except.error.injEq] at h; subst h; exact ih i1 e ho2
      | ok rb => rw [ho2] at h; simp at h

theorem many1Loop_run : ∀ (fuel : Nat) {s : Span}, Fits K s →
    Run 171 80 0 (many1Loop K.alternative fuel s) (CE.many1Loop CE.alternative fuel s) s := by
  intro fuel
  induction fuel with
  | zero =>
    intro s _
    exact ⟨rfl, fun r a h => by simp [CE.many1Loop] at h, fun e h => by simp [CE.many1Loop] at h, by simp [many1Loop]⟩
  | succ fuel ih =>
    intro s hf
    have ha := alternative_run (K := K) hf
    have hh := ha.hard
    unfold many1Loop CE.many1Loop
    cases ho : CE.alternative s with
    | error e =>
      rw [ho] at ha
      by_cases hsoft : ∃ pe, e = .error pe
      · obtain ⟨pe, rfl⟩ := hsoft
        have hs := ha.soft _ rfl
        constructor
        · simp only [Metered.res_bind, ha.res, Metered.res_pure]
        · intro r a h
          simp only [Except.ok.injEq, Prod.mk.injEq] at h
          obtain ⟨rfl, -⟩ := h
          simp only [Metered.cost_bind, ha.res, Metered.cost_pure, tick_cost]
          exact ⟨.refl _, by omega⟩
        · intro e h; simp at h
        · simp only [Metered.cost_bind, ha.res, Metered.cost_pure, tick_cost]; omega
      · cases e <;> first
          | exact absurd ⟨_, rfl⟩ hsoft
          | (constructor
             · simp only [Metered.res_bind, ha.res, Metered.res_pure]
             · intro r' a' h; simp at h
             · intro e h; simp at h
             · simp only [Metered.cost_bind, ha.res, Metered.cost_pure, tick_cost]; omega)
    | ok ra =>
      obtain ⟨i1, o⟩ := ra
      have hlt := alternative_progress ho
      rw [ho] at ha
      obtain ⟨hl, hc⟩ := ha.ok _ _ rfl
      have hne : ¬ i1.inputLen = s.inputLen := by show ¬ blen i1.frag = blen s.frag; omega
      have hr := ih (hl.fits hf)
      have hrh := hr.hard
      simp only [if_neg hne]
      cases ho2 : CE.many1Loop CE.alternative fuel i1 with
      | error e =>
        rw [ho2] at hr
        constructor
        · simp only [Metered.res_bind, ha.res, if_neg hne, hr.res, Metered.res_pure]
        · intro r a h; simp at h
        · intro pe h
          simp only [Except.error.injEq] at h
          subst h
          exact absurd ho2 (many1Loop_not_soft fuel i1 pe)
        · simp only [Metered.cost_bind, ha.res, if_neg hne, hr.res, Metered.cost_pure, tick_cost]; omega
      | ok rb =>
        obtain ⟨r2, os⟩ := rb
        rw [ho2] at hr
        obtain ⟨hl2, hc2⟩ := hr.ok _ _ rfl
        constructor
        · simp only [Metered.res_bind, ha.res, if_neg hne, hr.res, Metered.res_pure]
        · intro r a h
          simp only [Except.ok.injEq, Prod.mk.injEq] at h
          obtain ⟨rfl, -⟩ := h
          simp only [Metered.cost_bind, ha.res, if_neg hne, hr.res, Metered.cost_pure, tick_cost]
          exact ⟨hl.trans hl2, by omega⟩
        · intro e h; simp at h
        · simp only [Metered.cost_bind, ha.res, if_neg hne, hr.res, Metered.cost_pure, tick_cost]; omega

theorem many1_run {s : Span} (hf : Fits K s) :
    Run 171 80 21 (many1 K.alternative s) (CE.many1 CE.alternative s) s := by
  have ha := alternative_run (K := K) hf
  have hh := ha.hard
  unfold many1 CE.many1
  cases ho : CE.alternative s with
  | error e =>
    rw [ho] at ha
    by_cases hsoft : ∃ pe, e = .error pe
    · obtain ⟨pe, rfl⟩ := hsoft
      have hs := ha.soft _ rfl
      constructor
      · simp only [Metered.res_bind, ha.res, Metered.res_pure]
      · intro r a h; simp at h
      · intro e h; simp only [Metered.cost_bind, ha.res, Metered.cost_pure, tick_cost]; omega
      · simp only [Metered.cost_bind, ha.res, Metered.cost_pure, tick_cost]; omega
    · cases e <;> first
        | exact absurd ⟨_, rfl⟩ hsoft
        | (constructor
           · simp only [Metered.res_bind, ha.res, Metered.res_pure]
           · intro r' a' h; simp at h
           · intro e h; simp at h
           · simp only [Metered.cost_bind, ha.res, Metered.cost_pure, tick_cost]; omega)
  | ok ra =>
    obtain ⟨i1, o⟩ := ra
    have hlt := alternative_progress ho
    rw [ho] at ha
    obtain ⟨hl, hc⟩ := ha.ok _ _ rfl
    have hr := many1Loop_run (i1.inputLen + 1) (hl.fits hf)
    have hrh := hr.hard
    simp only
    cases ho2 : CE.many1Loop CE.alternative (i1.inputLen + 1) i1 with
    | error e =>
      rw [ho2] at hr
      constructor
      · simp only [Metered.res_bind, ha.res, hr.res, Metered.res_pure]
      · intro r a h; simp at h
      · intro pe h
        simp only [Except.error.injEq] at h
        subst h
        exact absurd ho2 (many1Loop_not_soft _ i1 pe)
      · simp only [Metered.cost_bind, ha.res, hr.res, Metered.cost_pure, tick_cost]; omega
    | ok rb =>
      obtain ⟨r2, os⟩ := rb
      rw [ho2] at hr
      obtain ⟨hl2, hc2⟩ := hr.ok _ _ rfl
      constructor
      · simp only [Metered.res_bind, ha.res, hr.res, Metered.res_pure]
      · intro r a h
        simp only [Except.ok.injEq, Prod.mk.injEq] at h
        obtain ⟨rfl, -⟩ := h
        simp only [Metered.cost_bind, ha.res, hr.res, Metered.cost_pure, tick_cost]
        exact ⟨hl.trans hl2, by omega⟩
      · intro e h; simp at h
      · simp only [Metered.cost_bind, ha.res, hr.res, Metered.cost_pure, tick_cost]; omega

theorem many1_progress {s r : Span} {a : List Alternative} (h : CE.many1 CE.alternative s = .ok (r, a)) :
    blen r.frag ≤ blen s.frag := by
  obtain ⟨b, rest, h1, h2⟩ := exists_reads s.frag
  rw [many1_eq s h1 h2] at h
  split at h
  · simp at h
  · split at h
    · simp at h
    · simp only [Except.ok.injEq, Prod.mk.injEq] at h
      obtain ⟨rfl, -⟩ := h
      rw [h1.append]; simp

/-! ## `separated_list1` -/

theorem tag_slash (s : Span) : (∃ r, s.frag = '/' :: r ∧ CE.tag ['/'] s = .ok (s.sub ['/'] r, s.sub [] ['/'])) ∨
    (s.frag.head? ≠ some '/' ∧ CE.tag ['/'] s = .error (.error (.other s .tag))) := by
  by_cases h : s.frag.head? = some '/'
  · obtain ⟨r, hr⟩ := eq_cons_of_head? h
    exact .inl ⟨r, hr, tag1_cons '/' r s hr⟩
  · exact .inr ⟨h, tag1_ne '/' s h⟩

theorem sepLoop_not_soft : ∀ (fuel : Nat) (s : Span) (e : PErr),
    CE.sepLoop (CE.tag ['/']) (CE.many1 CE.alternative) fuel s ≠ .error (.error e) := by
  intro fuel
  induction fuel with
  | zero => intro s e h; simp [CE.sepLoop] at h
  | succ fuel ih =>
    intro s e h
    unfold CE.sepLoop at h
    rcases tag_slash s with ⟨r, hr, htag⟩ | ⟨-, htag⟩
    · rw [htag] at h
      simp only at h
      cases ho : CE.many1 CE.alternative (s.sub ['/'] r) with
      | error e' => rw [ho] at h; cases e' <;> simp at h
      | ok ra =>
        obtain ⟨i2, o⟩ := ra
        rw [ho] at h
        have hlt := many1_progress ho
        rw [Span.sub_frag] at hlt
        have hne : ¬ i2.inputLen = s.inputLen := by
          show ¬ blen i2.frag = blen s.frag
          rw [hr]; simp; omega
        simp only [if_neg hne] at h
        cases ho2 : CE.sepLoop (CE.tag ['/']) (CE.many1 CE.alternative) fuel i2 with
        | error e' => rw [ho2] at h; simp only [Except.error.injEq] at h; subst h; exact ih i2 e ho2
        | ok rb => rw [ho2] at h; simp at h
    · rw [htag] at h; simp at h

theorem sepLoop_run : ∀ (fuel : Nat) {s : Span}, Fits K s →
    Run 260 100 0 (sepLoop (K.tag ['/']) (many1 K.alternative) fuel s)
      (CE.sepLoop (CE.tag ['/']) (CE.many1 CE.alternative) fuel s) s := by
  intro fuel
  induction fuel with
  | zero =>
    intro s _
    exact ⟨rfl, fun r a h => by simp [CE.sepLoop] at h, fun e h => by simp [CE.sepLoop] at h, by simp [sepLoop]⟩
  | succ fuel ih =>
    intro s hf
    have ht := tag_run (K := K) hf '/' (by decide)
    unfold sepLoop CE.sepLoop
    rcases tag_slash s with ⟨r, hr, htag⟩ | ⟨-, htag⟩
    · rw [htag] at ht
      obtain ⟨hl0, hc0⟩ := ht.ok _ _ rfl
      have hb : blen s.frag = 1 + blen r := by rw [hr]; simp
      have hm := many1_run (K := K) (hl0.fits hf)
      have hh := hm.hard
      simp only [Span.sub_frag] at hc0 hh
      simp only [htag]
      cases ho : CE.many1 CE.alternative (s.sub ['/'] r) with
      | error e =>
        rw [ho] at hm
        by_cases hsoft : ∃ pe, e = .error pe
        · obtain ⟨pe, rfl⟩ := hsoft
          have hs := hm.soft _ rfl
          constructor
          · simp only [Metered.res_bind, ht.res, hm.res, Metered.res_pure]
          · intro r a h
            simp only [Except.ok.injEq, Prod.mk.injEq] at h
            obtain ⟨rfl, -⟩ := h
            simp only [Metered.cost_bind, ht.res, hm.res, Metered.cost_pure, tick_cost]
            exact ⟨.refl _, by omega⟩
          · intro e h; simp at h
          · simp only [Metered.cost_bind, ht.res, hm.res, Metered.cost_pure, tick_cost]; omega
        · cases e <;> first
            | exact absurd ⟨_, rfl⟩ hsoft
            | (constructor
               · simp only [Metered.res_bind, ht.res, hm.res, Metered.res_pure]
               · intro r' a' h; simp at h
               · intro e h; simp at h
               · simp only [Metered.cost_bind, ht.res, hm.res, Metered.cost_pure, tick_cost]; omega)
      | ok ra =>
        obtain ⟨i2, o⟩ := ra
        rw [ho] at hm
        obtain ⟨hl, hc⟩ := hm.ok _ _ rfl
        have hle := hl.blen_le
        simp only [Span.sub_frag] at hle hc
        have hne : ¬ i2.inputLen = s.inputLen := by show ¬ blen i2.frag = blen s.frag; omega
        have hq := ih ((hl0.trans hl).fits hf)
        have hqh := hq.hard
        simp only [if_neg hne]
        cases ho2 : CE.sepLoop (CE.tag ['/']) (CE.many1 CE.alternative) fuel i2 with
        | error e =>
          rw [ho2] at hq
          constructor
          · simp only [Metered.res_bind, ht.res, hm.res, if_neg hne, hq.res, Metered.res_pure]
          · intro r a h; simp at h
          · intro pe h
            simp only [Except.error.injEq] at h
            subst h
            exact absurd ho2 (sepLoop_not_soft fuel i2 pe)
          · simp only [Metered.cost_bind, ht.res, hm.res, if_neg hne, hq.res, Metered.cost_pure, tick_cost]; omega
        | ok rb =>
          obtain ⟨r2, os⟩ := rb
          rw [ho2] at hq
          obtain ⟨hl2, hc2⟩ := hq.ok _ _ rfl
          constructor
          · simp only [Metered.res_bind, ht.res, hm.res, if_neg hne, hq.res, Metered.res_pure]
          · intro r a h
            simp only [Except.ok.injEq, Prod.mk.injEq] at h
            obtain ⟨rfl, -⟩ := h
            simp only [Metered.cost_bind, ht.res, hm.res, if_neg hne, hq.res, Metered.cost_pure, tick_cost]
            exact ⟨(hl0.trans hl).trans hl2, by omega⟩
          · intro e h; simp at h
          · simp only [Metered.cost_bind, ht.res, hm.res, if_neg hne, hq.res, Metered.cost_pure, tick_cost]; omega
    · rw [htag] at ht
      have hs := ht.soft _ rfl
      simp only [htag]
      constructor
      · simp only [Metered.res_bind, ht.res, Metered.res_pure]
      · intro r a h
        simp only [Except.ok.injEq, Prod.mk.injEq] at h
        obtain ⟨rfl, -⟩ := h
        simp only [Metered.cost_bind, ht.res, Metered.cost_pure, tick_cost]
        exact ⟨.refl _, by omega⟩
      · intro e h; simp at h
      · simp only [Metered.cost_bind, ht.res, Metered.cost_pure, tick_cost]; omega

theorem sepList_run {s : Span} (hf : Fits K s) :
    Run 260 180 21 (separatedList1 (K.tag ['/']) (many1 K.alternative) s)
      (CE.separatedList1 (CE.tag ['/']) (CE.many1 CE.alternative) s) s := by
  have hm := many1_run (K := K) hf
  have hh := hm.hard
  unfold separatedList1 CE.separatedList1
  cases ho : CE.many1 CE.alternative s with
  | error e =>
    rw [ho] at hm
    constructor
    · simp only [Metered.res_bind, hm.res, Metered.res_pure]
    · intro r a h; simp at h
    · intro pe h
      simp only [Except.error.injEq] at h
      have := hm.soft pe (by rw [h])
      simp only [Metered.cost_bind, hm.res, Metered.cost_pure]; omega
    · simp only [Metered.cost_bind, hm.res, Metered.cost_pure]; omega
  | ok ra =>
    obtain ⟨i1, o⟩ := ra
    rw [ho] at hm
    obtain ⟨hl, hc⟩ := hm.ok _ _ rfl
    have hle := hl.blen_le
    have hq := sepLoop_run (K := K) (i1.inputLen + 1) (hl.fits hf)
    have hqh := hq.hard
    simp only
    cases ho2 : CE.sepLoop (CE.tag ['/']) (CE.many1 CE.alternative) (i1.inputLen + 1) i1 with
    | error e =>
      rw [ho2] at hq
      constructor
      · simp only [Metered.res_bind, hm.res, hq.res, Metered.res_pure]
      · intro r a h; simp at h
      · intro pe h
        simp only [Except.error.injEq] at h
        subst h
        exact absurd ho2 (sepLoop_not_soft _ i1 pe)
      · simp only [Metered.cost_bind, hm.res, hq.res, Metered.cost_pure]; omega
    | ok rb =>
      obtain ⟨r2, os⟩ := rb
      rw [ho2] at hq
      obtain ⟨hl2, hc2⟩ := hq.ok _ _ rfl
      constructor
      · simp only [Metered.res_bind, hm.res, hq.res, Metered.res_pure]
      · intro r a h
        simp only [Except.ok.injEq, Prod.mk.injEq] at h
        obtain ⟨rfl, -⟩ := h
        simp only [Metered.cost_bind, hm.res, hq.res, Metered.cost_pure]
        exact ⟨hl.trans hl2, by omega⟩
      · intro e h; simp at h
      · simp only [Metered.cost_bind, hm.res, hq.res, Metered.cost_pure]; omega

/-! ## `alternation` -/

theorem sepList_ok_inv {s r : Span} {a : Alternation}
    (h : CE.separatedList1 (CE.tag ['/']) (CE.many1 CE.alternative) s = .ok (r, a)) :
    ∃ bs rest, ReadsBranches s.frag bs rest ∧ r = s.sub (renderBranches bs) rest ∧ a = locateBranches s [] bs := by
  cases altCase s with
  | noBranchSlash r' hs =>
    unfold CE.separatedList1 at h
    rw [many1_none s (by rw [hs]; exact endsBranch_slash r')] at h
    simp at h
  | noBranch he hs =>
    unfold CE.separatedList1 at h
    rw [many1_none s he] at h
    simp at h
  | failFirst b v e hr hn hf =>
    unfold CE.separatedList1 at h
    rw [many1_fail s hr hn hf] at h
    simp at h
  | failLater bs r' b v e hB hb hn he =>
    obtain ⟨b', bs', v', rfl, h1, h2⟩ := hB
    unfold CE.separatedList1 at h
    rw [many1_branch s h1] at h
    simp only at h
    rw [sepLoop_fail (s.sub (renderPieces b') v') (bs := bs') (r := r') (b := b) (v := v) (e := e)
      (by simpa using h2) hb hn (by simpa [renderBranches_cons] using he) _ (by simp)] at h
    simp at h
  | empty bs r' hB hr =>
    rw [sepList_ok s hB (.inr ⟨r', rfl, hr⟩)] at h
    simp only [Except.ok.injEq, Prod.mk.injEq] at h
    exact ⟨bs, _, hB, h.1.symm, h.2.symm⟩
  | full bs rest hB hr =>
    rw [sepList_ok s hB (.inl hr)] at h
    simp only [Except.ok.injEq, Prod.mk.injEq] at h
    exact ⟨bs, _, hB, h.1.symm, h.2.symm⟩

theorem length_pieces (s : Span) (pre : List Char) (b : List Piece) (hb : ∀ q ∈ b, q.Valid) :
    (locatePieces s pre b).length ≤ blen (renderPieces b) := by
  induction b generalizing pre with
  | nil => simp [locatePieces]
  | cons q b ih =>
    have h1 := ih (pre ++ q.render) (fun q' hq' => hb q' (by simp [hq']))
    have h2 : q.render ≠ [] := by
      have := hb q (by simp)
      cases q with
      | text t => exact this.1
      | opt t => simp [Piece.render]
    have := blen_pos_of_ne_nil h2
    rw [renderPieces_cons]
    simp only [locatePieces, List.length_cons, blen_append]
    omega

theorem length_slashed (s : Span) (pre : List Char) (bs : List (List Piece)) (hb : ∀ b ∈ bs, ∀ q ∈ b, q.Valid) :
    (locateSlashed s pre bs).flatten.length + (locateSlashed s pre bs).length ≤ blen (slashed bs) := by
  induction bs generalizing pre with
  | nil => simp [locateSlashed]
  | cons b bs ih =>
    have h1 := ih (pre ++ '/' :: renderPieces b) (fun b' hb' => hb b' (by simp [hb']))
    have h2 := length_pieces s (pre ++ ['/']) b (hb b (by simp))
    simp only [locateSlashed, List.flatten_cons, List.length_append, List.length_cons, slashed_cons, blen_append,
      blen_cons, us_slash]
    omega

theorem length_branches (s : Span) (pre : List Char) (bs : List (List Piece)) (hb : ∀ b ∈ bs, ∀ q ∈ b, q.Valid) :
    (locateBranches s pre bs).flatten.length + (locateBranches s pre bs).length ≤ blen (renderBranches bs) + 1 := by
  cases bs with
  | nil => simp [locateBranches]
  | cons b bs =>
    have h1 := length_slashed s (pre ++ renderPieces b) bs (fun b' hb' => hb b' (by simp [hb']))
    have h2 := length_pieces s pre b (hb b (by simp))
    rw [locateBranches_cons, renderBranches_cons]
    simp only [List.flatten_cons, List.length_append, List.length_cons, blen_append]
    omega

theorem mapM_pieceLen (l : List Alternative) (h : ∀ a ∈ l, a.spanLen ≤ K.usizeMax) :
    l.mapM K.pieceLen = some (l.map Alternative.spanLen) := by
  induction l with
  | nil => rfl
  | cons a l ih =>
    have h1 : K.pieceLen a = some a.spanLen := by
      have := h a (by simp)
      cases a with
      | text t => rfl
      | optional o =>
        simp only [Alternative.spanLen] at this
        simp [pieceLen, add, Alternative.spanLen, this]
    rw [List.mapM_cons, h1, ih (fun a' ha' => h a' (by simp [ha']))]
    rfl

theorem sum_eq (ns : List Nat) (h : ns.sum ≤ K.usizeMax) : K.sum ns = some ns.sum := by
  induction ns with
  | nil => rfl
  | cons n ns ih =>
    simp only [List.sum_cons] at h
    simp only [sum, ih (by omega), Option.bind_some, add, List.sum_cons]
    rw [if_pos h]

theorem le_sum_of_mem {n : Nat} {ns : List Nat} (h : n ∈ ns) : n ≤ ns.sum := by
  induction ns with
  | nil => simp at h
  | cons m ns ih =>
    rw [List.sum_cons]
    rcases List.mem_cons.1 h with rfl | h
    · omega
    · have := ih h; omega

theorem spanLen_parts (a : Alternation) (h : ((a.flatten).map Alternative.spanLen).sum + a.length ≤ K.usizeMax) :
    (K.spanLen a).res = a.spanLen ∧ (K.spanLen a).cost = a.flatten.length + a.length + 1 := by
  have h1 := mapM_pieceLen (K := K) a.flatten (by
    intro x hx
    have : x.spanLen ≤ ((a.flatten).map Alternative.spanLen).sum :=
      le_sum_of_mem (List.mem_map.2 ⟨x, hx, rfl⟩)
    omega)
  have h2 := sum_eq (K := K) ((a.flatten).map Alternative.spanLen) (by omega)
  have h3 : K.add ((a.flatten).map Alternative.spanLen).sum a.length =
      some (((a.flatten).map Alternative.spanLen).sum + a.length) := by
    unfold add; rw [if_pos h]
  unfold spanLen Alternation.spanLen
  simp only [Metered.res_bind, Metered.cost_bind, tick_cost, h1, h2, h3]
  split
  · exact ⟨rfl, by simp⟩
  · exact ⟨rfl, by simp⟩

/-- `alternation`: its work is amortised by what it reads, also when it gives up at `sp` after a single branch. -/
structure AltRun (m : Metered (IRes Alternation)) (o : IRes Alternation) (s : Span) : Prop where
  res : m.res = o
  ok : ∀ r a, o = .ok (r, a) → Later s r ∧ m.cost + 262 * blen r.frag ≤ 262 * blen s.frag + 200
  soft : ∀ sp k, o = .error (.error (.other sp k)) → m.cost + 260 * blen sp.frag ≤ 260 * blen s.frag + 200
  hard : m.cost ≤ 264 * blen s.frag + 200

theorem peekTag_run {s : Span} (hf : Fits K s) : (peek (K.tag ['/']) s).res = CE.peek (CE.tag ['/']) s ∧
    (peek (K.tag ['/']) s).cost ≤ 5 := by
  have ht := tag_run (K := K) hf '/' (by decide)
  unfold peek CE.peek
  simp only [Metered.res_bind, Metered.cost_bind, ht.res]
  rcases tag_slash s with ⟨r, hr, htag⟩ | ⟨-, htag⟩
  · rw [htag] at ht ⊢
    have hb : blen s.frag = 1 + blen r := by rw [hr]; simp
    have h2 := (ht.ok _ _ rfl).2
    simp only [Span.sub_frag] at h2
    exact ⟨rfl, by simp; omega⟩
  · rw [htag] at ht ⊢
    have := ht.soft _ rfl
    exact ⟨rfl, by simp; omega⟩

theorem alternationHead_run {s : Span} (hf : Fits K s) :
    (K.alternationHead s).res = CE.alternationHead s ∧
    (∀ r a, CE.alternationHead s = .ok (r, a) →
      Later s r ∧ (K.alternationHead s).cost + 260 * blen r.frag ≤ 260 * blen s.frag + 185 ∧
      ∃ bs, s.frag = renderBranches bs ++ r.frag ∧ a = locateBranches s [] bs ∧ bs ≠ [] ∧ ∀ b ∈ bs, ∀ q ∈ b, q.Valid) ∧
    (∀ sp k, CE.alternationHead s = .error (.error (.other sp k)) →
      (K.alternationHead s).cost + 260 * blen sp.frag ≤ 260 * blen s.frag + 185) ∧
    (K.alternationHead s).cost ≤ 260 * blen s.frag + 186 := by
  have hl := sepList_run (K := K) hf
  have hh := hl.hard
  unfold alternationHead CE.alternationHead
  cases ho : CE.separatedList1 (CE.tag ['/']) (CE.many1 CE.alternative) s with
  | ok ra =>
    obtain ⟨rest, a⟩ := ra
    obtain ⟨bs, v, hB, hrest, ha⟩ := sepList_ok_inv ho
    rw [ho] at hl
    obtain ⟨hla, hc⟩ := hl.ok _ _ rfl
    obtain ⟨hp1, hp2⟩ := peekTag_run (K := K) (hla.fits hf)
    have hle := hla.blen_le
    simp only [Metered.res_bind, Metered.cost_bind, hl.res, hp1]
    unfold CE.peek
    rcases tag_slash rest with ⟨r, hr, htag⟩ | ⟨-, htag⟩
    · simp only [htag]
      exact ⟨rfl, by simp, by simp, by simp; omega⟩
    · simp only [htag]
      by_cases hlen : a.length = 1
      · simp only [if_pos hlen]
        refine ⟨rfl, by simp, ?_, by simp; omega⟩
        intro sp k h
        simp only [Except.error.injEq, Err.error.injEq, PErr.other.injEq] at h
        obtain ⟨rfl, -⟩ := h
        simp only [Metered.cost_pure]; omega
      · simp only [if_neg hlen]
        refine ⟨rfl, ?_, by simp, by simp; omega⟩
        intro r a' h
        simp only [Except.ok.injEq, Prod.mk.injEq] at h
        obtain ⟨rfl, rfl⟩ := h
        simp only [Metered.cost_pure]
        refine ⟨hla, by omega, bs, ?_, ha, hB.valid.2.1, ?_⟩
        · rw [hrest, Span.sub_frag]; exact hB.append
        · intro b hb q hq; exact (hB.valid.1 b hb).1.1 q hq
  | error e =>
    rw [ho] at hl
    simp only [Metered.res_bind, Metered.cost_bind, hl.res]
    by_cases hm : ∃ sp, e = .error (.other sp .many1)
    · obtain ⟨sp, rfl⟩ := hm
      have hs := hl.soft _ rfl
      -- the error is at `s`
      have hsp : sp = s := by
        unfold CE.separatedList1 at ho
        obtain ⟨b, v, h1, h2⟩ := exists_reads s.frag
        rw [many1_eq s h1 h2] at ho
        cases hpf : pieceFail (s.sub (renderPieces b) v) with
        | some e => rw [hpf] at ho; simp at ho
        | none =>
          rw [hpf] at ho
          simp only at ho
          by_cases hb : b = []
          · rw [if_pos hb] at ho
            simp at ho
            exact ho.symm
          · rw [if_neg hb] at ho
            simp only at ho
            cases hsl : CE.sepLoop (CE.tag ['/']) (CE.many1 CE.alternative)
                ((s.sub (renderPieces b) v).inputLen + 1) (s.sub (renderPieces b) v) with
            | error e =>
              rw [hsl] at ho
              simp only [Except.error.injEq] at ho
              subst ho
              exact absurd hsl (sepLoop_not_soft _ _ _)
            | ok rb => rw [hsl] at ho; simp at ho
      subst hsp
      obtain ⟨hp1, hp2⟩ := peekTag_run (K := K) hf
      obtain ⟨hft1, hft2⟩ := failTake_parts sp 1 .emptyAlternation
      simp only [Metered.res_bind, Metered.cost_bind, hp1]
      unfold CE.peek
      rcases tag_slash sp with ⟨r, hr, htag⟩ | ⟨-, htag⟩
      · simp only [htag]
        refine ⟨by simp [hft1], by simp, ?_, by simp; omega⟩
        intro sp' k h
        simp only [Except.error.injEq] at h
        unfold CE.failTake at h
        split at h <;> simp at h
      · simp only [htag]
        refine ⟨rfl, by simp, ?_, by simp; omega⟩
        intro sp' k h
        simp only [Except.error.injEq, Err.error.injEq, PErr.other.injEq] at h
        obtain ⟨rfl, -⟩ := h
        simp only [Metered.cost_pure]; omega
    · -- the other errors are irrecoverable
      have hns : ∀ pe, e ≠ .error pe := by
        rintro pe rfl
        apply hm
        unfold CE.separatedList1 at ho
        obtain ⟨b, v, h1, h2⟩ := exists_reads s.frag
        rw [many1_eq s h1 h2] at ho
        cases hpf : pieceFail (s.sub (renderPieces b) v) with
        | some e => rw [hpf] at ho; simp at ho
        | none =>
          rw [hpf] at ho
          simp only at ho
          by_cases hb : b = []
          · rw [if_pos hb] at ho
            simp at ho
            exact ⟨s, by rw [← ho]⟩
          · rw [if_neg hb] at ho
            simp only at ho
            cases hsl : CE.sepLoop (CE.tag ['/']) (CE.many1 CE.alternative)
                ((s.sub (renderPieces b) v).inputLen + 1) (s.sub (renderPieces b) v) with
            | error e =>
              rw [hsl] at ho
              simp only [Except.error.injEq] at ho
              subst ho
              exact absurd hsl (sepLoop_not_soft _ _ _)
            | ok rb => rw [hsl] at ho; simp at ho
      cases e <;> first
        | exact absurd rfl (hns _)
        | exact ⟨rfl, by simp, by simp, by simp; omega⟩

theorem alternation_run {s : Span} (hf : Fits K s) : AltRun (K.alternation s) (CE.alternation s) s := by
  obtain ⟨h1, h2, h3, h4⟩ := alternationHead_run (K := K) hf
  unfold alternation CE.alternation
  cases ho : CE.alternationHead s with
  | error e =>
    rw [ho] at h1 h3
    constructor
    · simp only [Metered.res_bind, h1, Metered.res_pure]
    · intro r a h; simp at h
    · intro sp k h
      have := h3 sp k (by simpa using h)
      simp only [Metered.cost_bind, h1, Metered.cost_pure]; omega
    · simp only [Metered.cost_bind, h1, Metered.cost_pure]; omega
  | ok ra =>
    obtain ⟨rest, a⟩ := ra
    obtain ⟨hl, hc, bs, hfr, ha, hne, hv⟩ := h2 _ _ ho
    rw [ho] at h1
    have hlen := length_branches s [] bs hv
    rw [← ha] at hlen
    have hb : blen s.frag = blen (renderBranches bs) + blen rest.frag := by rw [hfr]; simp
    have hsl := spanLen_locate s [] bs hne
    rw [← ha] at hsl
    have htot : ((a.flatten).map Alternative.spanLen).sum + a.length ≤ K.usizeMax := by
      unfold Alternation.spanLen at hsl
      simp only at hsl
      split at hsl
      · simp at hsl
      · simp only [Option.some.injEq] at hsl
        have := hf.1
        omega
    obtain ⟨hs1, hs2⟩ := spanLen_parts (K := K) a htot
    by_cases hoo : a.containsOnlyOptional = true
    · simp only [if_pos hoo, hsl]
      obtain ⟨hft1, hft2⟩ := failTake_parts s (blen (renderBranches bs)) .onlyOptionalInAlternation
      rw [hsl] at hs1
      constructor
      · simp only [Metered.res_bind, h1, if_pos hoo, hs1, hft1, Metered.res_pure]
      · intro r a h; simp at h
      · intro sp k h
        simp only [Except.error.injEq] at h
        unfold CE.failTake at h
        split at h <;> simp at h
      · simp only [Metered.cost_bind, h1, if_pos hoo, hs1, Metered.cost_pure, tick_cost]; omega
    · simp only [if_neg hoo]
      constructor
      · simp only [Metered.res_bind, h1, if_neg hoo, Metered.res_pure]
      · intro r a' h
        simp only [Except.ok.injEq, Prod.mk.injEq] at h
        obtain ⟨rfl, rfl⟩ := h
        simp only [Metered.cost_bind, h1, if_neg hoo, Metered.cost_pure, tick_cost]
        exact ⟨hl, by omega⟩
      · intro sp k h; simp at h
      · simp only [Metered.cost_bind, h1, if_neg hoo, Metered.cost_pure, tick_cost]; omega

end Machine
end CE
