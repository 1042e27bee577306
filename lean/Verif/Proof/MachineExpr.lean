import Verif.Proof.MachineAlt
import Verif.Proof.Expression

/-!
Running `single_expression`, `expression` and `Expression::parse` on a machine: see `Verif.Proof.Machine`.
-/

set_option linter.unusedSimpArgs false

namespace CE
open Spec

namespace Machine
variable {K : Machine}

/-! ## `single_expression` after `alternation` gave up -/

theorem RunS.mono {α : Type} {A B S A' : Nat} {m : Metered (IRes α × Nat)} {o : IRes α × Nat} {i : Span}
    (h : RunS A B S m o i) (hA : A ≤ A') : RunS A' B S m o i := by
  have key : ∀ x y : Nat, x ≤ y → A * y + A' * x ≤ A' * y + A * x := by
    intro x y hxy
    obtain ⟨d, rfl⟩ := Nat.le.dest hxy
    obtain ⟨k, rfl⟩ := Nat.le.dest hA
    have h1 : (A + k) * (x + d) = A * x + A * d + (k * x + k * d) := by
      rw [Nat.add_mul, Nat.mul_add, Nat.mul_add]
    have h2 : (A + k) * x = A * x + k * x := Nat.add_mul _ _ _
    have h3 : A * (x + d) = A * x + A * d := Nat.mul_add _ _ _
    omega
  refine ⟨h.res, ?_, h.soft, ?_⟩
  · intro r a hr
    obtain ⟨hl, hc⟩ := h.ok r a hr
    have := key _ _ hl.blen_le
    exact ⟨hl, by omega⟩
  · have := key 0 (blen i.frag) (Nat.zero_le _)
    have := h.hard
    omega

theorem lift_run {α : Type} {A B S : Nat} {p : MP α} {p' : P α} {i : Span} {n : Nat} (h : Run A B S (p i) (p' i) i) :
    RunS A B S (lift p i n) (P.lift p' i n) i := by
  unfold lift P.lift
  refine ⟨by simp [h.res], ?_, ?_, by simpa using h.hard⟩
  · intro r a hr; simpa using h.ok r a hr
  · intro e he; simpa using h.soft e he

theorem pmapS_run {α β : Type} {A B S : Nat} {p : MPS α} {p' : PS α} {f : α → β} {i : Span} {n : Nat}
    (h : RunS A B S (p i n) (p' i n) i) : RunS A B S (pmapS p f i n) (CE.pmapS p' f i n) i := by
  unfold pmapS CE.pmapS
  rcases ho : p' i n with ⟨_ | ⟨r, a⟩, m⟩
  · rw [ho] at h
    constructor
    · simp only [Metered.res_bind, h.res, Metered.res_pure]
    · intro r a hr; simp at hr
    · intro pe hr
      simp only [Metered.cost_bind, h.res, Metered.cost_pure]
      exact h.soft pe (by simpa using hr)
    · simp only [Metered.cost_bind, h.res, Metered.cost_pure]; exact h.hard
  · rw [ho] at h
    constructor
    · simp only [Metered.res_bind, h.res, Metered.res_pure]
    · intro r' a' hr
      simp only [Except.ok.injEq, Prod.mk.injEq] at hr
      obtain ⟨rfl, -⟩ := hr
      simp only [Metered.cost_bind, h.res, Metered.cost_pure]
      exact h.ok _ _ rfl
    · intro pe hr; simp at hr
    · simp only [Metered.cost_bind, h.res, Metered.cost_pure]; exact h.hard

theorem altGo_nil_run {α : Type} {A : Nat} (i : Span) (e : PErr) (n : Nat) :
    RunS A 0 0 (altGo (α := α) i [] e n) (CE.altGo i [] e n) i := by
  refine ⟨rfl, ?_, ?_, by simp [altGo]⟩
  · intro r a h; simp [CE.altGo] at h
  · intro e h; simp [altGo]

theorem altGo_cons_run {α : Type} {A B S B' S' : Nat} {p : MPS α} {p' : PS α} {ps : List (MPS α)} {ps' : List (PS α)}
    {i : Span} {n : Nat} {e : PErr} (hp : RunS A B S (p i n) (p' i n) i)
    (ht : ∀ e, RunS A B' S' (altGo i ps e (p' i n).2) (CE.altGo i ps' e (p' i n).2) i) :
    RunS A (B + B' + S + 1) (S + S' + 1) (altGo i (p :: ps) e n) (CE.altGo i (p' :: ps') e n) i := by
  unfold altGo CE.altGo
  have hh := hp.hard
  rcases ho : p' i n with ⟨e1 | ⟨r, a⟩, m⟩
  · rw [ho] at hp
    by_cases he : ∃ e2, e1 = .error e2
    · obtain ⟨e2, rfl⟩ := he
      have hs := hp.soft e2 rfl
      have ht' := ht (PErr.or e e2)
      rw [ho] at ht'
      simp only at ht'
      have hth := ht'.hard
      simp only
      constructor
      · simp only [Metered.res_bind, hp.res, ht'.res]
      · intro r a hr
        obtain ⟨hl, hc⟩ := ht'.ok r a hr
        simp only [Metered.cost_bind, hp.res, tick_cost]
        exact ⟨hl, by omega⟩
      · intro e' he'
        have := ht'.soft e' he'
        simp only [Metered.cost_bind, hp.res, tick_cost]; omega
      · simp only [Metered.cost_bind, hp.res, tick_cost]; omega
    · cases e1 <;> first
        | exact absurd ⟨_, rfl⟩ he
        | (simp only
           refine ⟨by simp only [Metered.res_bind, hp.res, Metered.res_pure], by simp, by simp, ?_⟩
           simp only [Metered.cost_bind, hp.res, tick_cost, Metered.cost_pure]; omega)
  · rw [ho] at hp
    simp only
    obtain ⟨hl, hc⟩ := hp.ok r a rfl
    constructor
    · simp only [Metered.res_bind, hp.res, Metered.res_pure]
    · intro r' a' h
      simp only [Except.ok.injEq, Prod.mk.injEq] at h
      obtain ⟨rfl, rfl⟩ := h
      simp only [Metered.cost_bind, hp.res, tick_cost, Metered.cost_pure]
      exact ⟨hl, by omega⟩
    · intro e' he'; simp at he'
    · simp only [Metered.cost_bind, hp.res, tick_cost, Metered.cost_pure]; omega

/-- What `single_expression` does once `alternation` gave up. -/
theorem tail_run {s : Span} {n : Nat} (hf : Fits K s) (hn : n + 1 ≤ K.usizeMax ∨ n = 0) (e : PErr) :
    RunS 100 144 25
      (altGo s [lift (pmap K.optional .optional), pmapS K.parameter .parameter, lift (pmap K.textParser .text),
        lift (pmap (K.takeWhile1 isWhitespace) .whitespaces)] e n)
      (CE.altGo s [P.lift (CE.pmap CE.optional .optional), CE.pmapS CE.parameter SingleExpression.parameter,
        P.lift (CE.pmap CE.textParser .text), P.lift (CE.pmap (CE.takeWhile1 isWhitespace) .whitespaces)] e n) s := by
  have hw : ∀ e m, RunS 100 5 2 _ _ s := fun e m =>
    altGo_cons_run (e := e) (n := m)
      ((lift_run (pmap_run (f := SingleExpression.whitespaces) (takeWhile1_run hf isWhitespace))).mono (by omega))
      (fun e => altGo_nil_run s e _)
  have ht : ∀ e m, RunS 100 38 19 _ _ s := fun e m =>
    altGo_cons_run (e := e) (n := m)
      ((lift_run (pmap_run (f := SingleExpression.text) (textParser_run hf))).mono (by omega)) (fun e => hw e _)
  have hp : ∀ e, RunS 100 91 22 _ _ s := fun e =>
    altGo_cons_run (e := e) (n := n) (pmapS_run (f := SingleExpression.parameter) (parameter_run hf hn)) (fun e => ht e _)
  have ho : RunS 100 144 25 _ _ s :=
    altGo_cons_run (e := e) (n := n) (lift_run (pmap_run (f := SingleExpression.optional) (optional_run hf)))
      (fun e => hp e)
  exact ho

/-! ## `single_expression` -/

theorem single_eq (s : Span) (n : Nat) : CE.singleExpression s n =
    match CE.alternation s with
    | .ok (r, a) => (.ok (r, .alternation a), n)
    | .error (.error e) =>
      CE.altGo s [P.lift (CE.pmap CE.optional .optional), CE.pmapS CE.parameter SingleExpression.parameter,
        P.lift (CE.pmap CE.textParser .text), P.lift (CE.pmap (CE.takeWhile1 isWhitespace) .whitespaces)] e n
    | .error e => (.error e, n) := by
  unfold CE.singleExpression CE.altS
  simp only [P.lift, CE.pmap]
  rcases CE.alternation s with e | ⟨r, a⟩
  · cases e <;> rfl
  · rfl

/-- `single_expression` computes what it does without a machine, within a linear bound. -/
theorem single_parts {s : Span} {n : Nat} (hf : Fits K s) (hn : n + 1 ≤ K.usizeMax ∨ n = 0) :
    (K.singleExpression s n).res = CE.singleExpression s n ∧
    (K.singleExpression s n).cost ≤ 364 * blen s.frag + 345 ∧
    (∀ r a, CE.alternation s = .ok (r, a) → (K.singleExpression s n).cost = (K.alternation s).cost + 1) ∧
    (∀ sp k, CE.alternation s = .error (.error (.other sp k)) →
      ∀ r a, (CE.singleExpression s n).1 = .ok (r, a) →
        (K.singleExpression s n).cost + 260 * blen sp.frag + 100 * blen r.frag ≤
          260 * blen s.frag + 100 * blen s.frag + 345) := by
  have ha := alternation_run (K := K) hf
  have hh := ha.hard
  rw [single_eq]
  unfold singleExpression altS
  simp only [lift, pmap]
  cases ho : CE.alternation s with
  | ok ra =>
    obtain ⟨r, a⟩ := ra
    rw [ho] at ha
    refine ⟨?_, ?_, ?_, ?_⟩
    · simp only [Metered.res_bind, ha.res, Metered.res_pure]
    · simp only [Metered.cost_bind, Metered.res_bind, Metered.res_pure, ha.res, Metered.cost_pure, tick_cost]; omega
    · intro r' a' _
      simp only [Metered.cost_bind, Metered.res_bind, Metered.res_pure, ha.res, Metered.cost_pure, tick_cost]; omega
    · intro sp k h; simp at h
  | error e =>
    rw [ho] at ha
    by_cases he : ∃ e', e = .error e'
    · obtain ⟨e', rfl⟩ := he
      have ht := tail_run (K := K) hf hn e'
      have hth := ht.hard
      simp only
      refine ⟨?_, ?_, by simp, ?_⟩
      · simp only [Metered.res_bind, ha.res, Metered.res_pure]
        exact ht.res
      · simp only [Metered.cost_bind, Metered.res_bind, Metered.res_pure, ha.res, Metered.cost_pure, tick_cost]; omega
      · intro sp k h r a hr
        have h1 := ha.soft sp k (by simpa using h)
        have h2 := ht.ok r a hr
        simp only [Metered.cost_bind, Metered.res_bind, Metered.res_pure, ha.res, Metered.cost_pure, tick_cost]; omega
    · cases e <;> first
        | exact absurd ⟨_, rfl⟩ he
        | (simp only
           refine ⟨?_, ?_, by simp, by simp⟩
           · simp only [Metered.res_bind, ha.res, Metered.res_pure]
           · simp only [Metered.cost_bind, Metered.res_bind, Metered.res_pure, ha.res, Metered.cost_pure, tick_cost]
             omega)

/-- Reading an element costs in proportion to it, except for an optional and for text followed by `(`. -/
theorem single_cost {s : Span} {n : Nat} (hf : Fits K s) (hn : n + 1 ≤ K.usizeMax ∨ n = 0) {e : Elem} {v : List Char}
    (h : ElemOk s.frag e v) :
    (K.singleExpression s n).cost + 364 * blen v ≤ 364 * blen s.frag + 345 ∨
    s.frag.head? = some '(' ∨ v.head? = some '(' := by
  obtain ⟨-, -, h3, h4⟩ := single_parts (K := K) (n := n) hf hn
  have hs := single_ok s h n
  have hlt := h.blen_lt
  cases h with
  | alt bs v h hv hl ho =>
    left
    have hao := alternation_ok s h hv
    rw [if_neg (by omega), if_neg (by simp [ho])] at hao
    have h5 := h3 _ _ hao
    have h6 := ((alternation_run (K := K) hf).ok _ _ hao).2
    simp only [Span.sub_frag] at h6
    omega
  | ws t v h hne ht hv =>
    left
    obtain ⟨c, t', rfl⟩ : ∃ c t', t = c :: t' := by
      cases t with
      | nil => exact absurd rfl hne
      | cons c t' => exact ⟨c, t', rfl⟩
    have hc := ht c (by simp)
    have hh : s.frag.head? = some ' ' := by rw [h, ← hc]; simp
    have he : endsBranch s.frag := by intro d hd; rw [hh] at hd; simp at hd; simp [← hd]
    have := h4 _ _ (alternation_no_branch s he (by rw [hh]; simp)) _ _ (by rw [hs])
    simp only [Span.sub_frag] at this
    omega
  | param t v h =>
    left
    have hs' := (parOk_sound h).1
    have hh : s.frag.head? = some '{' := by rw [hs']; simp
    have he : endsBranch s.frag := by intro d hd; rw [hh] at hd; simp at hd; simp [← hd]
    have := h4 _ _ (alternation_no_branch s he (by rw [hh]; simp)) _ _ (by rw [hs])
    simp only [Span.sub_frag] at this
    omega
  | piece q v b rest h hr hq =>
    have hao := alternation_ok s h hr
    simp only [List.length_singleton, if_true] at hao
    obtain ⟨b', bs', v', hb, ⟨h1, -, -⟩, h2⟩ := h
    simp only [List.cons.injEq] at hb
    obtain ⟨rfl, rfl⟩ := hb
    cases h2
    cases h1 with
    | cons _ _ v1 _ _ hq1 h1 =>
      rw [hq] at hq1
      simp only [Option.some.injEq, Prod.mk.injEq] at hq1
      obtain ⟨-, rfl⟩ := hq1
      cases h1 with
      | nil =>
        left
        have := h4 _ _ hao _ _ (by rw [hs])
        simp only [Span.sub_frag] at this
        omega
      | cons _ q' v' b _ hq' h1 =>
        right
        cases q with
        | opt t =>
          left
          rw [(pieceOk_sound hq).1]; simp [Piece.render]
        | text t =>
          right
          have := pieceOk_text_next hq hq' rfl
          cases q' with
          | opt t' => rw [(pieceOk_sound hq').1]; simp [Piece.render]
          | text t' => simp [Piece.isText] at this

/-! ## `expression` -/

/-- Twice the `(` of the text, less one if it starts with `(`: bounds the elements that are read at more than their
length. -/
def waste (cs : List Char) : Nat := 2 * cs.count '(' - (if cs.head? = some '(' then 1 else 0)

theorem waste_le {t v : List Char} (ht : t ≠ []) : waste v ≤ waste (t ++ v) := by
  unfold waste
  cases t with
  | nil => exact absurd rfl ht
  | cons c t =>
    by_cases hc : c = '('
    · subst hc; simp; split <;> omega
    · simp [hc]; split <;> omega

theorem waste_lt {t v : List Char} (ht : t ≠ []) (h : (t ++ v).head? = some '(' ∨ v.head? = some '(') :
    waste v + 1 ≤ waste (t ++ v) := by
  unfold waste
  cases t with
  | nil => exact absurd rfl ht
  | cons c t =>
    by_cases hc : c = '('
    · subst hc; simp; split <;> omega
    · simp [hc] at h ⊢
      obtain ⟨r, hr⟩ := eq_cons_of_head? h
      rw [hr]; simp; omega

theorem many0_run (N : Nat) {s : Span} {n : Nat} (hf : Fits K s) (hn : n + blen s.frag < K.usizeMax)
    (hN : blen s.frag ≤ N) (fuel : Nat) (hfu : blen s.frag < fuel) :
    (many0Loop K.singleExpression fuel s n).res = CE.many0Loop CE.singleExpression fuel s n ∧
    (many0Loop K.singleExpression fuel s n).cost ≤
      710 * blen s.frag + (364 * N + 346) * waste s.frag + (364 * N + 346) := by
  induction fuel generalizing s n with
  | zero => omega
  | succ fuel ih =>
    obtain ⟨h1, h2, -, -⟩ := single_parts (K := K) (s := s) (n := n) hf (by omega)
    unfold many0Loop CE.many0Loop
    rcases singleCase s with h | ⟨e, v, h⟩ | ⟨e, h⟩
    · rw [single_nil s h] at h1 ⊢
      refine ⟨by simp only [Metered.res_bind, h1, Metered.res_pure], ?_⟩
      simp only [Metered.cost_bind, h1, Metered.cost_pure, tick_cost]; omega
    · have hlt := h.blen_lt
      have hc := single_cost (K := K) (n := n) hf (by omega) h
      have hne : e.render ≠ [] := by
        intro h0
        have := h.append
        rw [h0] at this
        simp at this
        rw [this] at hlt; omega
      have hfr := h.append
      have hw := waste_le (v := v) hne
      have hw' := waste_lt (v := v) hne
      rw [← hfr] at hw hw'
      have hpar : e.params ≤ 1 := by cases e <;> simp [Elem.params]
      rw [single_ok s h] at h1 ⊢
      obtain ⟨h3, h4⟩ := ih (s := s.sub e.render v) (n := n + e.params) (hf.sub (by rw [hfr]))
        (by simp; omega) (by simp; omega) (by simp; omega)
      simp only [Span.sub_frag] at h4
      have hil : ¬ (s.sub e.render v).inputLen = s.inputLen := by
        simp only [Span.inputLen, Span.sub_frag]; omega
      simp only [if_neg hil]
      constructor
      · simp only [Metered.res_bind, h1, if_neg hil, h3]
        rcases CE.many0Loop CE.singleExpression fuel (s.sub e.render v) (n + e.params) with ⟨_ | ⟨r, os⟩, k⟩ <;> rfl
      · simp only [Metered.cost_bind, h1, if_neg hil, tick_cost, Metered.res_bind]
        have h5 : (364 * N + 346) * (waste v + 1) = (364 * N + 346) * waste v + (364 * N + 346) := Nat.mul_succ _ _
        have h6 : (364 * N + 346) * waste v ≤ (364 * N + 346) * waste s.frag := Nat.mul_le_mul_left _ hw
        rcases hc with hc | hc
        · rcases (many0Loop K.singleExpression fuel (s.sub e.render v) (n + e.params)).res with ⟨_ | ⟨r, os⟩, k⟩ <;>
            (simp only [Metered.cost_pure]; omega)
        · have h7 : (364 * N + 346) * (waste v + 1) ≤ (364 * N + 346) * waste s.frag := Nat.mul_le_mul_left _ (hw' hc)
          rcases (many0Loop K.singleExpression fuel (s.sub e.render v) (n + e.params)).res with ⟨_ | ⟨r, os⟩, k⟩ <;>
            (simp only [Metered.cost_pure]; omega)
    · rw [single_fail s h] at h1 ⊢
      refine ⟨by simp only [Metered.res_bind, h1, Metered.res_pure], ?_⟩
      simp only [Metered.cost_bind, h1, Metered.cost_pure, tick_cost]; omega

/-! ## `Expression::parse` -/

theorem fits_new {src : List Char} (h1 : blen src < K.usizeMax) (h2 : 1 + nlCount src ≤ K.u32Max) :
    Fits K (Span.new src) := ⟨by simpa [Span.new] using h1, by simpa [Span.new] using h2⟩

theorem waste_le_two (cs : List Char) : waste cs ≤ 2 * cs.count '(' := by unfold waste; omega

theorem parse_parts {src : List Char} (h1 : blen src < K.usizeMax) (h2 : 1 + nlCount src ≤ K.u32Max) :
    (K.parse src).res = Expression.parse src ∧
    (K.parse src).cost ≤ 1500 * (blen src + 1) * (src.count '(' + 1) := by
  have hf := fits_new h1 h2
  obtain ⟨h3, h4⟩ := many0_run (K := K) (blen src) (s := Span.new src) (n := 0) hf (by simpa [Span.new] using h1)
    (by simp [Span.new]) ((Span.new src).inputLen + 1) (by simp [Span.inputLen])
  have hw := waste_le_two src
  have hexp : (K.expression (Span.new src)).res = CE.expression (Span.new src) := by
    unfold expression CE.expression many0 CE.many0
    simp only [Metered.res_bind, h3, Metered.res_pure]
  have hcost : (K.expression (Span.new src)).cost ≤ 1500 * (blen src + 1) * (src.count '(' + 1) := by
    unfold expression many0
    simp only [Metered.cost_bind, Metered.cost_pure]
    have hfr : (Span.new src).frag = src := rfl
    rw [hfr] at h4
    obtain ⟨M, hM⟩ : ∃ M, M = 364 * blen src + 346 := ⟨_, rfl⟩
    rw [← hM] at h4
    have e1 : M * waste src ≤ M * (2 * src.count '(') := Nat.mul_le_mul_left _ hw
    have e2 : M * (2 * src.count '(') = 2 * (M * src.count '(') := by rw [Nat.mul_left_comm]
    have e3 : M * src.count '(' ≤ (364 * (blen src + 1)) * src.count '(' := Nat.mul_le_mul_right _ (by omega)
    have e4 : (364 * (blen src + 1)) * src.count '(' = 364 * ((blen src + 1) * src.count '(') := by rw [Nat.mul_assoc]
    have e5 : 1500 * (blen src + 1) * (src.count '(' + 1) =
        1500 * ((blen src + 1) * src.count '(') + 1500 * (blen src + 1) := by
      rw [Nat.mul_succ, Nat.mul_assoc]
    rw [e5]
    omega
  unfold parse Expression.parse
  simp only [Metered.res_bind, Metered.cost_bind, hexp]
  rcases CE.expression (Span.new src) with e | ⟨r, a⟩
  · cases e <;> exact ⟨rfl, by simpa using hcost⟩
  · dsimp only
    split <;> exact ⟨rfl, by simpa using hcost⟩

end Machine
end CE
