import Verif.Proof.Machine

/-! # The machine model: `parameter` and `optional` -/

namespace CE
open Spec

set_option linter.unusedSimpArgs false

namespace Machine
variable {K : Machine}

/-- `Run` for a parser with an `&mut usize`. -/
structure RunS {α : Type} (A B S : Nat) (m : Metered (IRes α × Nat)) (o : IRes α × Nat) (i : Span) : Prop where
  res : m.res = o
  ok : ∀ r a, o.1 = .ok (r, a) → Later i r ∧ m.cost + A * blen r.frag ≤ A * blen i.frag + B
  soft : ∀ e, o.1 = .error (.error e) → m.cost ≤ S
  hard : m.cost ≤ A * blen i.frag + B

theorem RunS.fst {α : Type} {A B S : Nat} {p : MPS α} {o : IRes α × Nat} {i : Span} {n : Nat}
    (h : RunS A B S (p i n) o i) : Run A B S (do return (← p i n).1) o.1 i := by
  constructor
  · simp only [Metered.res_bind, Metered.res_pure, h.res]
  · intro r a hr
    have := h.ok r a hr
    simpa using this
  · intro e he; simpa using h.soft e he
  · simpa using h.hard

theorem optSpec_head_error {s : Span} (h : s.frag.head? = some '(') : ∀ e, optSpec s ≠ .error (.error e) := by
  intro e hp
  obtain ⟨r, hr⟩ := eq_cons_of_head? h
  unfold optSpec at hp
  rw [hr] at hp
  simp only at hp
  split at hp
  next e he => obtain ⟨pe, rfl, -⟩ := escOut_err he; simp at hp
  split at hp
  · split at hp <;> simp at hp
  · simp at hp

theorem failTakeAdd_parts (s : Span) (a b : Nat) (f : Span → PErr) (h : a + b ≤ K.usizeMax) :
    (K.failTakeAdd s a b f).res = CE.failTake s (a + b) f ∧ (K.failTakeAdd s a b f).cost = 1 := by
  unfold failTakeAdd add
  rw [if_pos h]
  exact failTake_parts s (a + b) f

theorem nestedTuple_parts {α : Type} {p : MP α} {p' : P α} {cls : Char → Bool} (hcls : cls '\\' = false) {c : Char}
    (hc : c.utf8Size = 1) {inp : Span} (hf : Fits K inp) (h : Run 100 50 2 (p inp) (p' inp) inp) :
    (K.nestedTuple p cls [c] inp).res = CE.nestedTuple p' cls [c] inp ∧
      (K.nestedTuple p cls [c] inp).cost ≤ 100 * blen inp.frag + 71 := by
  unfold nestedTuple CE.nestedTuple
  simp only [Metered.res_bind, Metered.cost_bind, h.res]
  cases ho : p' inp with
  | error e =>
    have := h.hard
    exact ⟨rfl, by simp; omega⟩
  | ok ra =>
    obtain ⟨i1, a⟩ := ra
    obtain ⟨hl, hcost⟩ := h.ok i1 a ho
    have hf1 := hl.fits hf
    have he := escaped_run (K := K) hcls hf1
    simp only [Metered.res_bind, Metered.cost_bind, he.res]
    have hle := hl.blen_le
    cases ho2 : CE.escapedReservedChars0 (CE.takeWhile cls) i1 with
    | error e =>
      have := he.hard
      exact ⟨by simp [bind, Except.bind, ho2], by simp; omega⟩
    | ok rb =>
      obtain ⟨i2, b⟩ := rb
      obtain ⟨hl2, hcost2⟩ := he.ok i2 b ho2
      have ht := tag_run (K := K) (hl2.fits hf1) c hc
      simp only [Metered.res_bind, Metered.cost_bind, ht.res]
      have hle2 := hl2.blen_le
      have hh := ht.hard
      cases ho3 : CE.tag [c] i2 with
      | error e => exact ⟨by simp [bind, Except.bind, ho2, ho3], by simp; omega⟩
      | ok rc => exact ⟨by simp [bind, Except.bind, ho2, ho3, pure, Except.pure], by simp; omega⟩

theorem ifOk_parts {α : Type} {m : Metered (Except Err α)} {o : Except Err α} {k : α → Metered Err} {k' : α → Err}
    {els : Metered Err} {els' : Err} (hm : m.res = o)
    (hk : ∀ a, o = .ok a → (k a).res = k' a ∧ (k a).cost = 1) (he : els.res = els' ∧ els.cost = 1) :
    (ifOk m k els).res = CE.ifOk o k' els' ∧ (ifOk m k els).cost ≤ m.cost + 1 := by
  unfold ifOk CE.ifOk
  simp only [Metered.res_bind, Metered.cost_bind, hm]
  cases o with
  | ok a =>
    obtain ⟨h1, h2⟩ := hk a rfl
    exact ⟨h1, by simp only; omega⟩
  | error e =>
    cases e <;> first
      | exact ⟨he.1, by simp only [he.2]; omega⟩
      | exact ⟨rfl, by simp⟩

theorem nestedTuple_ok {α : Type} {p' : P α} {cls : Char → Bool} {close : List Char} {inp : Span} {a : α}
    (h : CE.nestedTuple p' cls close inp = .ok a) : ∃ r, p' inp = .ok (r, a) := by
  unfold CE.nestedTuple at h
  cases hp : p' inp with
  | error e => rw [hp] at h; simp [bind, Except.bind] at h
  | ok ra =>
    obtain ⟨i1, a'⟩ := ra
    rw [hp] at h
    simp only [bind, Except.bind] at h
    split at h
    · simp at h
    · split at h
      · simp at h
      · simp [pure, Except.pure] at h; subst h; exact ⟨i1, rfl⟩

theorem parameterFail_parts {par : MPS Parameter} {par' : PS Parameter} {opt : MP Optional} {opt' : P Optional}
    {inp ob : Span} (hf : Fits K inp)
    (hpar : inp.frag.head? = some '{' → RunS 100 50 2 (par inp 0) (par' inp 0) inp)
    (hopt : inp.frag.head? = some '(' → Run 100 50 2 (opt inp) (opt' inp) inp)
    (lpar : inp.frag.head? = some '{' → ∀ r p, (par' inp 0).1 = .ok (r, p) → p.input.inputLen + 2 ≤ blen inp.frag)
    (lopt : inp.frag.head? = some '(' → ∀ r o, opt' inp = .ok (r, o) → o.input.inputLen + 2 ≤ blen inp.frag) :
    (K.parameterFail par opt inp ob).res = CE.parameterFail par' opt' inp ob ∧
      (K.parameterFail par opt inp ob).cost ≤ 100 * blen inp.frag + 73 := by
  have hfit := hf.1
  unfold parameterFail CE.parameterFail
  simp only [Metered.res_bind, Metered.cost_bind, tick_cost]
  have hft := fun f => failTake_parts inp 1 f
  rcases hq : inp.frag.head? with _ | c
  · exact ⟨rfl, by simp⟩
  by_cases hc1 : c = '{'
  · subst hc1
    have hh := hq
    simp only
    obtain ⟨h1, h2⟩ := nestedTuple_parts (K := K) (cls := isName) (by decide) (c := '}') (by decide) hf
      (p := fun i => do return (← par i 0).1) (p' := fun i => (par' i 0).1) (hpar hh).fst
    obtain ⟨h3, h4⟩ := ifOk_parts (k := fun p => K.failTakeAdd inp p.input.inputLen 2 .nestedParameter)
      (k' := fun p => CE.failTake inp (p.input.inputLen + 2) .nestedParameter) h1 (by
        intro a ha
        obtain ⟨r, hr⟩ := nestedTuple_ok ha
        have := lpar hh r a hr
        exact failTakeAdd_parts inp _ 2 _ (by omega)) (hft .unescapedReservedCharacter)
    exact ⟨h3, by omega⟩
  by_cases hc2 : c = '('
  · subst hc2
    have hh := hq
    simp only
    have ho := hopt hh
    have hres : (peek opt inp).res = CE.peek opt' inp ∧ (peek opt inp).cost = (opt inp).cost := by
      unfold peek CE.peek
      simp only [Metered.res_bind, Metered.cost_bind, ho.res]
      cases opt' inp <;> exact ⟨rfl, by simp⟩
    obtain ⟨h3, h4⟩ := ifOk_parts (k := fun o => K.failTakeAdd inp o.2.input.inputLen 2 .optionalInParameter)
      (k' := fun o => CE.failTake inp (o.2.input.inputLen + 2) .optionalInParameter) hres.1 (by
        intro a ha
        unfold CE.peek at ha
        split at ha
        next r o hr =>
          simp only [Except.ok.injEq] at ha
          subst ha
          have := lopt hh _ _ hr
          exact failTakeAdd_parts inp _ 2 _ (by simp only; omega)
        · simp at ha) (hft .unescapedReservedCharacter)
    have := ho.hard
    exact ⟨h3, by omega⟩
  simp only [hc1, hc2]
  split
  · exact ⟨(hft _).1, by rw [(hft _).2]; omega⟩
  · exact ⟨rfl, by simp⟩

theorem optionalFail_parts {par : MPS Parameter} {par' : PS Parameter} {opt : MP Optional} {opt' : P Optional}
    {inp ob : Span} (hf : Fits K inp)
    (hpar : inp.frag.head? = some '{' → RunS 100 50 2 (par inp 0) (par' inp 0) inp)
    (hopt : inp.frag.head? = some '(' → Run 100 50 2 (opt inp) (opt' inp) inp)
    (lpar : inp.frag.head? = some '{' → ∀ r p, (par' inp 0).1 = .ok (r, p) → p.input.inputLen + 2 ≤ blen inp.frag)
    (lopt : inp.frag.head? = some '(' → ∀ r o, opt' inp = .ok (r, o) → o.input.inputLen + 2 ≤ blen inp.frag) :
    (K.optionalFail par opt inp ob).res = CE.optionalFail par' opt' inp ob ∧
      (K.optionalFail par opt inp ob).cost ≤ 100 * blen inp.frag + 73 := by
  have hfit := hf.1
  unfold optionalFail CE.optionalFail
  simp only [Metered.res_bind, Metered.cost_bind, tick_cost]
  have hft := fun f => failTake_parts inp 1 f
  rcases hq : inp.frag.head? with _ | c
  · exact ⟨rfl, by simp⟩
  by_cases hc1 : c = '('
  · subst hc1
    have hh := hq
    simp only
    obtain ⟨h1, h2⟩ := nestedTuple_parts (K := K) (cls := isInOptional) (by decide) (c := ')') (by decide) hf
      (p := opt) (p' := opt') (hopt hh)
    obtain ⟨h3, h4⟩ := ifOk_parts (k := fun p => K.failTakeAdd inp p.input.inputLen 2 .nestedOptional)
      (k' := fun p => CE.failTake inp (p.input.inputLen + 2) .nestedOptional) h1 (by
        intro a ha
        obtain ⟨r, hr⟩ := nestedTuple_ok ha
        have := lopt hh r a hr
        exact failTakeAdd_parts inp _ 2 _ (by omega)) (hft .unescapedReservedCharacter)
    exact ⟨h3, by omega⟩
  by_cases hc2 : c = '{'
  · subst hc2
    have hh := hq
    simp only
    have ho := (hpar hh).fst
    have hres : (peek (fun i => do return (← par i 0).1) inp).res = CE.peek (fun i => (par' i 0).1) inp ∧
        (peek (fun i => do return (← par i 0).1) inp).cost = (par inp 0).cost := by
      unfold peek CE.peek
      simp only [Metered.res_bind, Metered.cost_bind, Metered.res_pure, Metered.cost_pure, (hpar hh).res]
      cases (par' inp 0).1 <;> exact ⟨rfl, by simp⟩
    obtain ⟨h3, h4⟩ := ifOk_parts (k := fun o => K.failTakeAdd inp o.2.input.inputLen 2 .parameterInOptional)
      (k' := fun o => CE.failTake inp (o.2.input.inputLen + 2) .parameterInOptional) hres.1 (by
        intro a ha
        unfold CE.peek at ha
        split at ha
        next r o hr =>
          simp only [Except.ok.injEq] at ha
          subst ha
          have := lpar hh _ _ hr
          exact failTakeAdd_parts inp _ 2 _ (by simp only; omega)
        · simp at ha) (hft .unescapedReservedCharacter)
    have := (hpar hh).hard
    exact ⟨h3, by omega⟩
  by_cases hc3 : c = '/'
  · subst hc3
    simp only
    exact ⟨(hft _).1, by rw [(hft _).2]; omega⟩
  simp only [hc1, hc2, hc3]
  split
  · exact ⟨(hft _).1, by rw [(hft _).2]; omega⟩
  · exact ⟨rfl, by simp⟩

/-- `map_err(tag([c]), |_| g)` where `g` costs at most `b`. -/
theorem mapErrTag_parts {c : Char} (hc : c.utf8Size = 1) {i : Span} (hf : Fits K i) {g : Metered Err} {g' : Err} {b : Nat}
    (hg : i.frag.head? ≠ some c → g.res = g' ∧ g.cost ≤ b) :
    (mapErr (K.tag [c]) (fun _ => g) i).res = CE.mapErr (CE.tag [c]) (fun _ => g') i ∧
    (∀ r a, CE.mapErr (CE.tag [c]) (fun _ => g') i = .ok (r, a) →
      Later i r ∧ (mapErr (K.tag [c]) (fun _ => g) i).cost + blen r.frag ≤ blen i.frag + 4) ∧
    (mapErr (K.tag [c]) (fun _ => g) i).cost ≤ b + 5 := by
  have ht := tag_run (K := K) hf c hc
  unfold mapErr CE.mapErr
  simp only [Metered.res_bind, Metered.cost_bind, ht.res]
  by_cases hh : i.frag.head? = some c
  · obtain ⟨r, hr⟩ := eq_cons_of_head? hh
    rw [tag1_cons c r i hr] at ht ⊢
    obtain ⟨h1, h2⟩ := ht.ok _ _ rfl
    have hb : blen i.frag = 1 + blen r := by rw [hr]; simp [hc]
    simp only [Span.sub_frag] at h2
    refine ⟨rfl, ?_, by simp; omega⟩
    intro r' a hra
    simp only [Except.ok.injEq, Prod.mk.injEq] at hra
    obtain ⟨rfl, rfl⟩ := hra
    exact ⟨h1, by simp; omega⟩
  · obtain ⟨h1, h2⟩ := hg hh
    rw [tag1_ne c i hh] at ht ⊢
    have h3 := ht.soft _ rfl
    refine ⟨by simp [h1], ?_, by simp; omega⟩
    intro r a hra
    simp at hra

theorem paramOpt_run (fuel : Nat) :
    (∀ (s : Span) (n : Nat), Fits K s → n + 1 ≤ K.usizeMax ∨ n = 0 → openers s.frag < fuel →
      RunS 100 50 2 (K.parameterF fuel s n) (CE.parameterF fuel s n) s) ∧
    (∀ (s : Span), Fits K s → openers s.frag < fuel → Run 100 50 2 (K.optionalF fuel s) (CE.optionalF fuel s) s) := by
  induction fuel with
  | zero => simp
  | succ fuel ih =>
    obtain ⟨ihp, iho⟩ := ih
    -- the hypotheses of the two closures
    have hclos : ∀ inp : Span, Fits K inp → openers inp.frag < fuel →
        (RunS 100 50 2 (K.parameterF fuel inp 0) (CE.parameterF fuel inp 0) inp) ∧
        (Run 100 50 2 (K.optionalF fuel inp) (CE.optionalF fuel inp) inp) ∧
        (∀ r p, (CE.parameterF fuel inp 0).1 = .ok (r, p) → p.input.inputLen + 2 ≤ blen inp.frag) ∧
        (∀ r o, CE.optionalF fuel inp = .ok (r, o) → o.input.inputLen + 2 ≤ blen inp.frag) := by
      intro inp hf hop
      refine ⟨ihp inp 0 hf (.inr rfl) hop, iho inp hf hop, ?_, ?_⟩
      · intro r p h
        rw [(paramOpt_eq fuel).1 inp 0 hop] at h
        obtain ⟨t, v, -, h2, -, rfl, -⟩ := parSpec_ok (m := (parSpec inp 0).2) (by rw [← h])
        rw [h2]; simp; omega
      · intro r o h
        rw [(paramOpt_eq fuel).2 inp hop] at h
        obtain ⟨t, v, -, h2, -, rfl⟩ := optSpec_ok h
        rw [h2]; simp; omega
    constructor
    · intro s n hf hn hfuel
      have hcl := (paramOpt_eq (fuel + 1)).1 s n hfuel
      have htag := tag_run (K := K) hf '{' (by decide)
      by_cases hh : s.frag.head? = some '{'
      · obtain ⟨r, hr⟩ := eq_cons_of_head? hh
        have hsoft : ∀ e, (CE.parameterF (fuel + 1) s n).1 ≠ .error (.error e) := by
          intro e he
          rw [hcl] at he
          exact parSpec_head_error hh (parSpec s n).2 e (by rw [← he])
        have hbs : blen s.frag = 1 + blen r := by rw [hr]; simp
        rw [tag1_cons '{' r s hr] at htag
        obtain ⟨hl1, hc1⟩ := htag.ok _ _ rfl
        simp only [Span.sub_frag] at hc1
        have hf1 := hl1.fits hf
        have hesc := escaped_run (K := K) (p := isName) (by decide) hf1
        have hresq : (K.parameterF (fuel + 1) s n).res = CE.parameterF (fuel + 1) s n ∧
            (∀ r' a, (CE.parameterF (fuel + 1) s n).1 = .ok (r', a) →
              Later s r' ∧ (K.parameterF (fuel + 1) s n).cost + 100 * blen r'.frag ≤ 100 * blen s.frag + 50) ∧
            (K.parameterF (fuel + 1) s n).cost ≤ 100 * blen s.frag + 50 := by
          unfold parameterF CE.parameterF
          simp only [Metered.res_bind, Metered.cost_bind, htag.res, hesc.res]
          rw [tag1_cons '{' r s hr]
          simp only [Metered.res_bind, Metered.cost_bind, hesc.res]
          have hesch := hesc.hard
          simp only [Span.sub_frag] at hesch
          cases ho : CE.escapedReservedChars0 (CE.takeWhile isName) (s.sub ['{'] r) with
          | error e => exact ⟨rfl, by simp, by simp; omega⟩
          | ok ra =>
            obtain ⟨i2, name⟩ := ra
            obtain ⟨hl2, hc2⟩ := hesc.ok _ _ ho
            simp only [Span.sub_frag] at hc2
            have hf2 := hl2.fits hf1
            have hle2 := hl2.blen_le
            simp only [Span.sub_frag] at hle2
            have hop : openers i2.frag < fuel := by
              rw [escapedReservedChars0_eq isName (by decide)] at ho
              obtain ⟨h5, -⟩ := escOut_ok ho
              simp only [Prod.mk.injEq] at h5
              rw [h5.1]
              have := openers_erun_le isName r
              rw [hr] at hfuel
              simp [openers] at hfuel this ⊢
              omega
            obtain ⟨hq1, hq2, hq3, hq4⟩ := hclos i2 hf2 hop
            obtain ⟨hm1, hm2, hm3⟩ := mapErrTag_parts (K := K) (c := '}') (by decide) hf2 (fun _ =>
              parameterFail_parts (ob := s.sub [] ['{']) hf2 (fun _ => hq1) (fun _ => hq2) (fun _ => hq3) (fun _ => hq4))
            simp only [Metered.res_bind, Metered.cost_bind, hm1]
            cases hm : CE.mapErr (CE.tag ['}']) (fun _ => CE.parameterFail (CE.parameterF fuel) (CE.optionalF fuel) i2
                (s.sub [] ['{'])) i2 with
            | error e => exact ⟨rfl, by simp, by simp; omega⟩
            | ok rb =>
              obtain ⟨i3, cl⟩ := rb
              obtain ⟨hl3, hc3⟩ := hm2 _ _ hm
              have hle3 := hl3.blen_le
              have hadd : K.add n 1 = some (n + 1) := by
                unfold add
                have := hf.1
                rw [if_pos (by omega)]
              simp only [hadd]
              refine ⟨rfl, ?_, by simp; omega⟩
              intro r' a hra
              simp only [Except.ok.injEq, Prod.mk.injEq] at hra
              obtain ⟨rfl, -⟩ := hra
              exact ⟨hl1.trans (hl2.trans hl3), by simp; omega⟩
        exact ⟨hresq.1, hresq.2.1, fun e he => absurd he (hsoft e), hresq.2.2⟩
      · rw [tag1_ne '{' s hh] at htag
        have hs := htag.soft _ rfl
        unfold parameterF CE.parameterF
        rw [tag1_ne '{' s hh]
        constructor
        · simp only [Metered.res_bind, htag.res, Metered.res_pure]
        · intro r a h; simp at h
        · intro e _; simp only [Metered.cost_bind, htag.res, Metered.cost_pure]; omega
        · simp only [Metered.cost_bind, htag.res, Metered.cost_pure]; omega
    · intro s hf hfuel
      have hcl := (paramOpt_eq (fuel + 1)).2 s hfuel
      have htag := tag_run (K := K) hf '(' (by decide)
      by_cases hh : s.frag.head? = some '('
      · obtain ⟨r, hr⟩ := eq_cons_of_head? hh
        have hsoft : ∀ e, CE.optionalF (fuel + 1) s ≠ .error (.error e) := by
          intro e he
          rw [hcl] at he
          exact optSpec_head_error hh e he
        have hbs : blen s.frag = 1 + blen r := by rw [hr]; simp
        rw [tag1_cons '(' r s hr] at htag
        obtain ⟨hl1, hc1⟩ := htag.ok _ _ rfl
        simp only [Span.sub_frag] at hc1
        have hf1 := hl1.fits hf
        have hesc := escaped_run (K := K) (p := isInOptional) (by decide) hf1
        have hresq : (K.optionalF (fuel + 1) s).res = CE.optionalF (fuel + 1) s ∧
            (∀ r' a, CE.optionalF (fuel + 1) s = .ok (r', a) →
              Later s r' ∧ (K.optionalF (fuel + 1) s).cost + 100 * blen r'.frag ≤ 100 * blen s.frag + 50) ∧
            (K.optionalF (fuel + 1) s).cost ≤ 100 * blen s.frag + 50 := by
          unfold optionalF CE.optionalF
          simp only [Metered.res_bind, Metered.cost_bind, htag.res, hesc.res]
          rw [tag1_cons '(' r s hr]
          simp only [Metered.res_bind, Metered.cost_bind, hesc.res]
          have hesch := hesc.hard
          simp only [Span.sub_frag] at hesch
          cases ho : CE.escapedReservedChars0 (CE.takeWhile isInOptional) (s.sub ['('] r) with
          | error e => exact ⟨rfl, by simp, by simp; omega⟩
          | ok ra =>
            obtain ⟨i2, name⟩ := ra
            obtain ⟨hl2, hc2⟩ := hesc.ok _ _ ho
            simp only [Span.sub_frag] at hc2
            have hf2 := hl2.fits hf1
            have hle2 := hl2.blen_le
            simp only [Span.sub_frag] at hle2
            have hop : openers i2.frag < fuel := by
              rw [escapedReservedChars0_eq isInOptional (by decide)] at ho
              obtain ⟨h5, -⟩ := escOut_ok ho
              simp only [Prod.mk.injEq] at h5
              rw [h5.1]
              have := openers_erun_le isInOptional r
              rw [hr] at hfuel
              simp [openers] at hfuel this ⊢
              omega
            obtain ⟨hq1, hq2, hq3, hq4⟩ := hclos i2 hf2 hop
            obtain ⟨hm1, hm2, hm3⟩ := mapErrTag_parts (K := K) (c := ')') (by decide) hf2 (fun _ =>
              optionalFail_parts (ob := s.sub [] ['(']) hf2 (fun _ => hq1) (fun _ => hq2) (fun _ => hq3) (fun _ => hq4))
            simp only [Metered.res_bind, Metered.cost_bind, hm1]
            cases hm : CE.mapErr (CE.tag [')']) (fun _ => CE.optionalFail (CE.parameterF fuel) (CE.optionalF fuel) i2
                (s.sub [] ['('])) i2 with
            | error e => exact ⟨rfl, by simp, by simp; omega⟩
            | ok rb =>
              obtain ⟨i3, cl⟩ := rb
              obtain ⟨hl3, hc3⟩ := hm2 _ _ hm
              have hle3 := hl3.blen_le
              obtain ⟨hft1, hft2⟩ := failTake_parts s 2 .emptyOptional
              simp only
              split
              · refine ⟨by simp [hft1], by simp, ?_⟩
                simp only [Metered.cost_bind, Metered.cost_pure]
                omega
              · refine ⟨rfl, ?_, by simp; omega⟩
                intro r' a hra
                simp only [Except.ok.injEq, Prod.mk.injEq] at hra
                obtain ⟨rfl, -⟩ := hra
                exact ⟨hl1.trans (hl2.trans hl3), by simp; omega⟩
        exact ⟨hresq.1, hresq.2.1, fun e he => absurd he (hsoft e), hresq.2.2⟩
      · rw [tag1_ne '(' s hh] at htag
        have hs := htag.soft _ rfl
        unfold optionalF CE.optionalF
        rw [tag1_ne '(' s hh]
        constructor
        · simp only [Metered.res_bind, htag.res, Metered.res_pure]
        · intro r a h; simp at h
        · intro e _; simp only [Metered.cost_bind, htag.res, Metered.cost_pure]; omega
        · simp only [Metered.cost_bind, htag.res, Metered.cost_pure]; omega

theorem parameter_run {s : Span} {n : Nat} (hf : Fits K s) (hn : n + 1 ≤ K.usizeMax ∨ n = 0) :
    RunS 100 50 2 (K.parameter s n) (CE.parameter s n) s :=
  (paramOpt_run _).1 s n hf hn (Nat.lt_succ_of_le (openers_le_blen _))

theorem optional_run {s : Span} (hf : Fits K s) : Run 100 50 2 (K.optional s) (CE.optional s) s :=
  (paramOpt_run _).2 s hf (Nat.lt_succ_of_le (openers_le_blen _))

end Machine
end CE
