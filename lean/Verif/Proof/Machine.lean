import Verif.Model.Machine
import Verif.Proof.Expression

/-! # The machine model: counters do not overflow, and the work of each parser -/

namespace CE
open Spec

set_option linter.unusedSimpArgs false

@[simp] theorem Metered.res_pure {β : Type} (b : β) : (pure b : Metered β).res = b := rfl
@[simp] theorem Metered.cost_pure {β : Type} (b : β) : (pure b : Metered β).cost = 0 := rfl
@[simp] theorem Metered.res_bind {α β : Type} (m : Metered α) (f : α → Metered β) :
    (m >>= f).res = (f m.res).res := rfl
@[simp] theorem Metered.cost_bind {α β : Type} (m : Metered α) (f : α → Metered β) :
    (m >>= f).cost = m.cost + (f m.res).cost := rfl
@[simp] theorem tick_res (n : Nat) : (tick n).res = () := rfl
@[simp] theorem tick_cost (n : Nat) : (tick n).cost = n := rfl

/-- All positions of `s` fit the counters of the machine. -/
def Fits (K : Machine) (s : Span) : Prop :=
  s.offset + blen s.frag < K.usizeMax ∧ s.line + nlCount s.frag ≤ K.u32Max

/-- `r` is what remains of `i` after some text. -/
def Later (i r : Span) : Prop := ∃ a, i.frag = a ++ r.frag ∧ r = i.sub a r.frag

theorem Later.refl (i : Span) : Later i i := ⟨[], by simp, by simp⟩

theorem Later.sub (i : Span) {a b : List Char} (h : i.frag = a ++ b) : Later i (i.sub a b) :=
  ⟨a, by simpa using h, by simp⟩

theorem Later.trans {i r q : Span} (h1 : Later i r) (h2 : Later r q) : Later i q := by
  obtain ⟨a, ha, hr⟩ := h1
  obtain ⟨b, hb, hq⟩ := h2
  refine ⟨a ++ b, by rw [ha, hb]; simp, ?_⟩
  rw [hr] at hq
  simpa using hq

theorem Later.blen_le {i r : Span} (h : Later i r) : blen r.frag ≤ blen i.frag := by
  obtain ⟨a, ha, -⟩ := h
  rw [ha]; simp

theorem Later.fits {K : Machine} {i r : Span} (h : Later i r) (hf : Fits K i) : Fits K r := by
  obtain ⟨a, ha, hr⟩ := h
  obtain ⟨h1, h2⟩ := hf
  rw [ha] at h1 h2
  have ho : r.offset = i.offset + blen a := by rw [hr]; simp
  have hl : r.line = i.line + nlCount a := by rw [hr]; simp
  simp only [blen_append, nlCount_append] at h1 h2
  exact ⟨by omega, by omega⟩

theorem Fits.sub {K : Machine} {i : Span} (hf : Fits K i) {a b : List Char} (h : i.frag = a ++ b) :
    Fits K (i.sub a b) := (Later.sub i h).fits hf

theorem splitBytes_some {n : Nat} {cs a b : List Char} (h : splitBytes n cs = some (a, b)) :
    cs = a ++ b ∧ blen a = n := by
  induction cs generalizing n a with
  | nil =>
    cases n with
    | zero => simp [splitBytes] at h; obtain ⟨rfl, rfl⟩ := h; simp
    | succ n => simp [splitBytes] at h
  | cons c cs ih =>
    cases n with
    | zero => simp [splitBytes] at h; obtain ⟨rfl, rfl⟩ := h; simp
    | succ n =>
      unfold splitBytes at h
      split at h
      next hc =>
        split at h
        next a' b' hs =>
          simp only [Option.some.injEq, Prod.mk.injEq] at h
          obtain ⟨rfl, rfl⟩ := h
          obtain ⟨h1, h2⟩ := ih hs
          exact ⟨by rw [h1]; simp, by simp [h2]; omega⟩
        · simp at h
      · simp at h

namespace Machine
variable {K : Machine}

theorem takeFrom_res {s : Span} (hf : Fits K s) (n : Nat) : (K.takeFrom s n).res = s.takeFrom n := by
  unfold takeFrom Span.takeFrom
  cases h : splitBytes n s.frag with
  | none => rfl
  | some ab =>
    obtain ⟨a, b⟩ := ab
    obtain ⟨h1, h2⟩ := splitBytes_some h
    obtain ⟨h3, h4⟩ := hf
    rw [h1] at h3 h4
    simp only [blen_append, nlCount_append] at h3 h4
    have hm : nlCount a % (K.u32Max + 1) = nlCount a := Nat.mod_eq_of_lt (by omega)
    simp only [hm]
    rw [if_pos ⟨by omega, by omega⟩]

theorem takeFrom_cost (s : Span) (n : Nat) : (K.takeFrom s n).cost ≤ n + 1 := by
  unfold takeFrom
  split <;> simp

theorem takeSplit_res {s : Span} (hf : Fits K s) (n : Nat) : (K.takeSplit s n).res = s.takeSplit n := by
  unfold takeSplit Span.takeSplit
  simp only [Metered.res_bind, takeFrom_res hf, take]
  cases s.takeFrom n <;> cases s.take n <;> rfl

theorem takeSplit_cost (s : Span) (n : Nat) : (K.takeSplit s n).cost ≤ n + 2 := by
  have := takeFrom_cost (K := K) s n
  unfold takeSplit
  simp only [Metered.cost_bind, take]
  split <;> simp <;> omega

/-- The result of a metered parser is that of the unmetered one; its work is amortised by what it reads when it
succeeds, is at most `S` when it fails recoverably, and is linear in any case. -/
structure Run {α : Type} (A B S : Nat) (m : Metered (IRes α)) (o : IRes α) (i : Span) : Prop where
  res : m.res = o
  ok : ∀ r a, o = .ok (r, a) → Later i r ∧ m.cost + A * blen r.frag ≤ A * blen i.frag + B
  soft : ∀ e, o = .error (.error e) → m.cost ≤ S
  hard : m.cost ≤ A * blen i.frag + B

theorem tag_run {i : Span} (hf : Fits K i) (c : Char) (hc : c.utf8Size = 1) :
    Run 1 4 2 (K.tag [c] i) (CE.tag [c] i) i := by
  by_cases h : i.frag.head? = some c
  · obtain ⟨r, hr⟩ := eq_cons_of_head? h
    have hp : [c].isPrefixOf i.frag = true := by rw [hr]; simp
    have htf := i.takeFrom_append [c] r (by simpa using hr)
    have ht := i.take_append [c] r (by simpa using hr)
    have hcost := takeFrom_cost (K := K) i (blen [c])
    have hl := Later.sub i (a := [c]) (b := r) (by simpa using hr)
    rw [tag1_cons c r i hr]
    have hbl : blen [c] = 1 := by simp [hc]
    have hbi : blen i.frag = 1 + blen r := by rw [hr]; simp [hc]
    constructor
    · unfold tag
      simp only [Metered.res_bind, if_pos hp, takeFrom_res hf, htf, take, ht, Metered.res_pure]
    · intro r' a hra
      simp only [Except.ok.injEq, Prod.mk.injEq] at hra
      obtain ⟨rfl, rfl⟩ := hra
      refine ⟨hl, ?_⟩
      unfold tag
      simp only [Metered.cost_bind, tick_cost, if_pos hp, takeFrom_res hf, htf, take, ht, Metered.cost_pure,
        Span.sub_frag]
      omega
    · intro e he; simp at he
    · unfold tag
      simp only [Metered.cost_bind, tick_cost, if_pos hp, takeFrom_res hf, htf, take, ht, Metered.cost_pure]
      omega
  · have hp : ¬ [c].isPrefixOf i.frag = true := by
      cases hi : i.frag with
      | nil => simp
      | cons d ds => rw [hi] at h; simp at h; simp; exact fun e => h e.symm
    rw [tag1_ne c i h]
    have hbl : blen [c] = 1 := by simp [hc]
    constructor
    · unfold tag
      simp only [Metered.res_bind, if_neg hp, Metered.res_pure, PErr.fromErrorKind]
    · intro r' a hra; simp at hra
    · intro e _
      unfold tag
      simp only [Metered.cost_bind, tick_cost, if_neg hp, Metered.cost_pure, hbl]
      omega
    · unfold tag
      simp only [Metered.cost_bind, tick_cost, if_neg hp, Metered.cost_pure, hbl]
      omega

theorem position_cost (s : Span) (q : Char → Bool) :
    (position s q).res = s.position q ∧ (position s q).cost = (s.position q).getD s.inputLen + 1 := ⟨rfl, rfl⟩

/-- The exact cost of `take_while`. -/
theorem takeWhile_parts {i : Span} (hf : Fits K i) (p : Char → Bool) :
    (K.takeWhile p i).res = CE.takeWhile p i ∧ (K.takeWhile p i).cost ≤ 2 * blen (i.frag.takeWhile p) + 3 := by
  have hpos : i.position (fun c => !p c) =
      if i.frag.dropWhile p = [] then none else some (blen (i.frag.takeWhile p)) := positionL_not p i.frag
  have hd := takeWhile_append_dropWhile' p i.frag
  unfold takeWhile CE.takeWhile
  simp only [Metered.res_bind, Metered.cost_bind, (position_cost i _).1, (position_cost i _).2, hpos]
  by_cases h : i.frag.dropWhile p = []
  · rw [if_pos h]
    rw [h, List.append_nil] at hd
    have hl : i.inputLen = blen (i.frag.takeWhile p) := by rw [← hd]; rfl
    have := takeSplit_cost (K := K) i i.inputLen
    refine ⟨by simp only [Metered.res_bind, takeSplit_res hf, Metered.res_pure], ?_⟩
    simp only [Metered.cost_bind, Metered.cost_pure, Option.getD_none]
    omega
  · rw [if_neg h]
    have := takeSplit_cost (K := K) i (blen (i.frag.takeWhile p))
    refine ⟨by simp only [Metered.res_bind, takeSplit_res hf, Metered.res_pure], ?_⟩
    simp only [Metered.cost_bind, Metered.cost_pure, Option.getD_some]
    omega

theorem blen_takeWhile (p : Char → Bool) (cs : List Char) :
    blen cs = blen (cs.takeWhile p) + blen (cs.dropWhile p) := by
  rw [← blen_append, ← takeWhile_append_dropWhile']

theorem takeWhile1_run {i : Span} (hf : Fits K i) (p : Char → Bool) :
    Run 2 3 1 (K.takeWhile1 p i) (CE.takeWhile1 p i) i := by
  have hpos : i.position (fun c => !p c) =
      if i.frag.dropWhile p = [] then none else some (blen (i.frag.takeWhile p)) := positionL_not p i.frag
  have hd := takeWhile_append_dropWhile' p i.frag
  have hbl := blen_takeWhile p i.frag
  have hres : (K.takeWhile1 p i).res = CE.takeWhile1 p i := by
    unfold takeWhile1 CE.takeWhile1
    simp only [Metered.res_bind, (position_cost i _).1]
    rcases i.position (fun c => !p c) with _ | (_ | n)
    · simp only
      split
      · rfl
      · simp only [Metered.res_bind, takeSplit_res hf, Metered.res_pure]
    · rfl
    · simp only [Metered.res_bind, takeSplit_res hf, Metered.res_pure]
  have hcost : (K.takeWhile1 p i).cost ≤
      if i.frag.takeWhile p = [] then 1 else 2 * blen (i.frag.takeWhile p) + 3 := by
    unfold takeWhile1
    simp only [Metered.cost_bind, (position_cost i _).1, (position_cost i _).2, hpos]
    by_cases h : i.frag.dropWhile p = []
    · rw [if_pos h]
      rw [h, List.append_nil] at hd
      have hl : i.inputLen = blen (i.frag.takeWhile p) := by rw [← hd]; rfl
      have := takeSplit_cost (K := K) i i.inputLen
      by_cases ht : i.frag.takeWhile p = []
      · rw [ht] at hl
        simp only [blen_nil] at hl
        simp [ht, hl]
      · have := blen_pos_of_ne_nil ht
        rw [if_neg ht]
        simp only [Option.getD_none]
        rw [if_neg (by omega)]
        simp only [Metered.cost_bind, Metered.cost_pure]
        omega
    · rw [if_neg h]
      by_cases ht : i.frag.takeWhile p = []
      · simp [ht]
      · have h3 := blen_pos_of_ne_nil ht
        obtain ⟨n, hn⟩ : ∃ n, blen (i.frag.takeWhile p) = n + 1 := ⟨blen (i.frag.takeWhile p) - 1, by omega⟩
        have := takeSplit_cost (K := K) i (n + 1)
        rw [if_neg ht, hn]
        simp only [Option.getD_some, Metered.cost_bind, Metered.cost_pure]
        omega
  have heq := takeWhile1_eq p i
  constructor
  · exact hres
  · intro r a h
    rw [heq] at h
    split at h
    · simp at h
    next ht =>
      simp only [Except.ok.injEq, Prod.mk.injEq] at h
      obtain ⟨rfl, rfl⟩ := h
      rw [if_neg ht] at hcost
      refine ⟨Later.sub i hd, ?_⟩
      simp only [Span.sub_frag]
      omega
  · intro e h
    rw [heq] at h
    split at h
    next ht => rw [if_pos ht] at hcost; exact hcost
    · simp at h
  · split at hcost <;> omega

theorem oneOf_parts {i : Span} (hf : Fits K i) (l : List Char) {c : Char} {r : List Char} (h : i.frag = c :: r) :
    (K.oneOf l i).res = CE.oneOf l i ∧ (K.oneOf l i).cost ≤ l.length + c.utf8Size + 2 := by
  have hc := takeFrom_cost (K := K) i c.utf8Size
  unfold oneOf CE.oneOf
  simp only [Metered.res_bind, Metered.cost_bind, tick_cost, h]
  split
  · simp only [Metered.res_bind, Metered.cost_bind, takeFrom_res hf]
    cases i.takeFrom c.utf8Size
    · exact ⟨rfl, by simp; omega⟩
    · exact ⟨rfl, by simp; omega⟩
  · exact ⟨rfl, by simp; omega⟩

theorem okAll_parts {i : Span} (hf : Fits K i) :
    (K.okAll i).res = CE.okAll i ∧ (K.okAll i).cost ≤ blen i.frag + 1 := by
  have hc := takeFrom_cost (K := K) i i.inputLen
  unfold okAll CE.okAll
  simp only [Metered.res_bind, Metered.cost_bind, takeFrom_res hf]
  have : i.inputLen = blen i.frag := rfl
  cases i.takeFrom i.inputLen
  · exact ⟨rfl, by simp; omega⟩
  · exact ⟨rfl, by simp; omega⟩

/-! ## `escaped0` -/

/-- Work of the loop of `escaped0` started at `rest`, given the result. -/
def LoopCost (m : Metered (IRes Span)) (o : IRes Span) (input : Span) (rest : List Char) (b : Nat) : Prop :=
  (∀ r a, o = .ok (r, a) → m.cost + 12 * blen r.frag ≤ 11 * blen rest + blen input.frag + b) ∧
  m.cost ≤ 11 * blen rest + blen input.frag + b

theorem okAll_loopCost {input : Span} {m : Metered (IRes Span)} {rest : List Char} {b : Nat}
    (h : m.cost ≤ 11 * blen rest + blen input.frag + b) : LoopCost m (CE.okAll input) input rest b := by
  refine ⟨?_, h⟩
  intro r a hr
  rw [okAll_eq] at hr
  simp only [Except.ok.injEq, Prod.mk.injEq] at hr
  obtain ⟨rfl, rfl⟩ := hr
  simpa using h

theorem error_loopCost {input : Span} {m : Metered (IRes Span)} {rest : List Char} {b : Nat} {e : Err}
    (h : m.cost ≤ 11 * blen rest + blen input.frag + b) : LoopCost m (.error e) input rest b :=
  ⟨fun _ _ hr => by simp at hr, h⟩

theorem escaped0Loop_run {p : Char → Bool} {ctl : Char} {l : List Char} (hp : p ctl = false) (hc1 : ctl.utf8Size = 1)
    (hl : l.length = 7) {input : Span} (hf : Fits K input) :
    ∀ (fuel : Nat) (t0 rest : List Char) (cn : Bool),
      input.frag = t0 ++ rest →
      (cn = true → rest.takeWhile p = []) →
      (K.escaped0Loop (K.takeWhile p) ctl (K.oneOf l) input fuel (input.sub t0 rest) cn).res =
        CE.escaped0Loop (CE.takeWhile p) ctl (CE.oneOf l) input fuel (input.sub t0 rest) cn ∧
      LoopCost (K.escaped0Loop (K.takeWhile p) ctl (K.oneOf l) input fuel (input.sub t0 rest) cn)
        (CE.escaped0Loop (CE.takeWhile p) ctl (CE.oneOf l) input fuel (input.sub t0 rest) cn) input rest
        (if cn then 7 else 11) := by
  intro fuel
  induction fuel with
  | zero => intro t0 rest cn _ _; exact ⟨rfl, error_loopCost (by simp [escaped0Loop])⟩
  | succ fuel ih =>
    intro t0 rest cn hin hcn
    have hfi : Fits K (input.sub t0 rest) := hf.sub hin
    obtain ⟨hoa, hob⟩ := okAll_parts hf
    have hbin : blen input.frag = blen t0 + blen rest := by rw [hin]; simp
    unfold escaped0Loop CE.escaped0Loop
    by_cases hr : rest = []
    · subst hr
      have h0 : ¬ 0 < (input.sub t0 []).inputLen := by simp
      simp only [Metered.res_bind, if_neg h0, hoa, true_and]
      apply okAll_loopCost
      simp only [Metered.cost_bind, tick_cost]
      split <;> omega
    have hpos : 0 < (input.sub t0 rest).inputLen := by simpa using blen_pos_of_ne_nil hr
    simp only [if_pos hpos]
    obtain ⟨htr, htc⟩ := takeWhile_parts hfi p
    rw [takeWhile_eq] at htr
    simp only [Span.sub_sub, Span.sub_frag] at htr htc
    have hbr := blen_takeWhile p rest
    simp only [Metered.res_bind, htr, takeWhile_eq, Span.sub_sub, Span.sub_frag]
    cases cn with
    | false =>
      simp only [Span.sub_inputLen]
      by_cases hd : rest.dropWhile p = []
      · have hd0 : blen (rest.dropWhile p) = 0 := by rw [hd]; rfl
        simp only [if_pos hd0, hoa, true_and]
        apply okAll_loopCost
        simp only [Metered.cost_bind, tick_cost, htr, if_pos hd0, Span.sub_inputLen, Bool.false_eq_true, if_false]
        omega
      · have hdl : ¬ blen (rest.dropWhile p) = 0 := by simpa using hd
        simp only [if_neg hdl]
        have hsplit := takeWhile_append_dropWhile' p rest
        by_cases ht : rest.takeWhile p = []
        · have hdr : rest.dropWhile p = rest := by rw [ht] at hsplit; simpa using hsplit.symm
          have heq : blen (rest.dropWhile p) = blen rest := by rw [hdr]
          simp only [if_pos heq]
          rw [hdr, ht, List.append_nil]
          obtain ⟨h1, h2, h3⟩ := ih t0 rest true hin (fun _ => ht)
          refine ⟨h1, ?_, ?_⟩
          · intro r a hra
            have := h2 r a hra
            rw [hdr, ht, List.append_nil] at htr
            have ht0 : blen (rest.takeWhile p) = 0 := by rw [ht]; rfl
            have hne : ¬ blen rest = 0 := by simpa using hr
            simp only [Metered.cost_bind, tick_cost, htr, Span.sub_inputLen, if_neg hne, if_true,
              Bool.false_eq_true, if_false] at this ⊢
            omega
          · rw [hdr, ht, List.append_nil] at htr
            have ht0 : blen (rest.takeWhile p) = 0 := by rw [ht]; rfl
            have hne : ¬ blen rest = 0 := by simpa using hr
            simp only [Metered.cost_bind, tick_cost, htr, Span.sub_inputLen, if_neg hne, if_true,
              Bool.false_eq_true, if_false] at h3 ⊢
            omega
        · have htp := blen_pos_of_ne_nil ht
          have hne : ¬ blen (rest.dropWhile p) = blen rest := by omega
          simp only [if_neg hne]
          obtain ⟨h1, h2, h3⟩ := ih (t0 ++ rest.takeWhile p) (rest.dropWhile p) false (by simp [hin]) (by simp)
          refine ⟨h1, ?_, ?_⟩
          · intro r a hra
            have := h2 r a hra
            simp only [Metered.cost_bind, tick_cost, htr, Span.sub_inputLen, if_neg hdl, if_neg hne,
              Bool.false_eq_true, if_false] at this ⊢
            omega
          · simp only [Metered.cost_bind, tick_cost, htr, Span.sub_inputLen, if_neg hdl, if_neg hne,
              Bool.false_eq_true, if_false] at h3 ⊢
            omega
    | true =>
      have ht := hcn rfl
      have ht0 : blen (rest.takeWhile p) = 0 := by rw [ht]; rfl
      obtain ⟨c, r, rfl⟩ : ∃ c r, rest = c :: r := by
        cases rest with
        | nil => exact absurd rfl hr
        | cons c r => exact ⟨c, r, rfl⟩
      simp only [escaped0Arm, Metered.res_bind, Span.sub_inputLen, Span.sub_frag]
      by_cases hcc : c = ctl
      · subst hcc
        simp only [if_true]
        cases r with
        | nil =>
          have hge : c.utf8Size ≥ blen [c] := by simp
          simp only [if_pos hge]
          refine ⟨rfl, error_loopCost ?_⟩
          simp only [Metered.cost_bind, tick_cost, htr, escaped0Arm, Span.sub_frag, Span.sub_inputLen, if_true, if_pos hge,
            Metered.cost_pure]
          omega
        | cons d ds =>
          have hdpos := utf8Size_pos d
          have hge : ¬ (c.utf8Size ≥ blen (c :: d :: ds)) := by simp; omega
          have htf := (input.sub t0 (c :: d :: ds)).takeFrom_append [c] (d :: ds) (by simp)
          simp only [blen_cons, blen_nil, Nat.add_zero] at htf
          have htfc := takeFrom_cost (K := K) (input.sub t0 (c :: d :: ds)) c.utf8Size
          have hfi2 : Fits K ((input.sub t0 (c :: d :: ds)).sub [c] (d :: ds)) := hfi.sub (by simp)
          obtain ⟨hor, hoc⟩ := oneOf_parts hfi2 l (c := d) (r := ds) (by simp)
          rw [oneOf_cons l _ d ds (by simp)] at hor
          simp only [if_neg hge, takeFrom_res hfi, htf, Metered.res_bind]
          rw [oneOf_cons l _ d ds (by simp)]
          simp only [hor]
          by_cases hesc : l.contains d = true
          · simp only [if_pos hesc, Span.sub_sub, Span.sub_inputLen]
            simp only [if_pos hesc, Span.sub_sub] at hor hoc
            by_cases hds : ds = []
            · subst hds
              simp only [blen_nil, if_true, hoa, true_and]
              apply okAll_loopCost
              simp only [Metered.cost_bind, tick_cost, htr, escaped0Arm, Span.sub_frag, Span.sub_inputLen,
                if_true, if_neg hge, takeFrom_res hfi, htf, Span.sub_sub, hor, blen_cons, blen_nil]
              omega
            · have hd0 : ¬ blen ds = 0 := by simpa using hds
              simp only [if_neg hd0]
              obtain ⟨h1, h2, h3⟩ := ih (t0 ++ ([c] ++ [d])) ds false (by simp [hin]) (by simp)
              simp only [← List.append_assoc] at h1 h2 h3 hor ⊢
              refine ⟨h1, ?_, ?_⟩
              · intro r a hra
                have := h2 r a hra
                simp only [Metered.cost_bind, tick_cost, htr, escaped0Arm, Span.sub_frag, Span.sub_inputLen,
                  if_true, if_neg hge, takeFrom_res hfi, htf, Span.sub_sub, hor, if_neg hd0, blen_cons,
                  Bool.false_eq_true, if_false] at this ⊢
                omega
              · simp only [Metered.cost_bind, tick_cost, htr, escaped0Arm, Span.sub_frag, Span.sub_inputLen,
                  if_true, if_neg hge, takeFrom_res hfi, htf, Span.sub_sub, hor, if_neg hd0, blen_cons,
                  Bool.false_eq_true, if_false] at h3 ⊢
                omega
          · simp only [if_neg hesc] at hor ⊢
            refine ⟨rfl, error_loopCost ?_⟩
            simp only [Metered.cost_bind, tick_cost, htr, escaped0Arm, Span.sub_frag, Span.sub_inputLen,
              if_true, if_neg hge, takeFrom_res hfi, htf, hor, Metered.cost_pure, blen_cons]
            omega
      · simp only [if_neg hcc, offsetTo_sub]
        have hts := takeSplit_cost (K := K) input (blen t0)
        have h2 := input.takeSplit_append t0 (c :: r) hin
        simp only [Metered.res_bind, takeSplit_res hf, Metered.res_pure, true_and]
        refine ⟨?_, ?_⟩
        · intro r' a hra
          rw [h2] at hra
          simp only [orPanic, Except.ok.injEq, Prod.mk.injEq] at hra
          obtain ⟨rfl, rfl⟩ := hra
          simp only [Metered.cost_bind, tick_cost, htr, if_true, Span.sub_frag, Metered.cost_pure]
          omega
        · simp only [Metered.cost_bind, tick_cost, htr, if_true, Metered.cost_pure]
          omega

theorem failTake_parts (s : Span) (n : Nat) (f : Span → PErr) :
    (failTake s n f).res = CE.failTake s n f ∧ (failTake s n f).cost = 1 := by
  unfold failTake CE.failTake
  simp only [Metered.res_bind, Metered.cost_bind, take]
  cases s.take n <;> exact ⟨rfl, rfl⟩

theorem escapedErr_parts (e : Err) : (escapedErr e).res = CE.escapedErr e ∧ (escapedErr e).cost ≤ 4 := by
  by_cases h : ∃ sp, e = .error (.other sp .escaped)
  · obtain ⟨sp, rfl⟩ := h
    unfold escapedErr CE.escapedErr
    simp only
    obtain ⟨h1, h2⟩ := failTake_parts sp ((sp.sliceIndex 2).getD 0) .escapedNonReservedCharacter
    rcases sp.inputLen with _ | _ | n
    · exact ⟨rfl, by simp⟩
    · exact ⟨rfl, by simp⟩
    · simp only [gt_iff_lt]
      rw [if_pos (by omega), if_pos (by omega)]
      simp only [Metered.res_bind, Metered.cost_bind, tick_cost]
      exact ⟨h1, by omega⟩
  · have h1 : escapedErr e = pure e := by
      unfold escapedErr
      split
      · exact absurd ⟨_, rfl⟩ h
      · rfl
    have h2 : CE.escapedErr e = e := by
      unfold CE.escapedErr
      split
      · exact absurd ⟨_, rfl⟩ h
      · rfl
    rw [h1, h2]
    exact ⟨rfl, by simp⟩

/-- `escaped_reserved_chars0` over `take_while`. -/
theorem escaped_run {p : Char → Bool} (hp : p '\\' = false) {i : Span} (hf : Fits K i) :
    Run 12 16 0 (K.escapedReservedChars0 (K.takeWhile p) i) (CE.escapedReservedChars0 (CE.takeWhile p) i) i := by
  have h := escaped0Loop_run (K := K) (l := RESERVED_CHARS) hp (by decide) (by decide) hf (2 * i.inputLen + 2) [] i.frag
    false rfl (by simp)
  simp only [Span.sub_nil_frag, Bool.false_eq_true, if_false] at h
  obtain ⟨h1, h2, h3⟩ := h
  have heq := escapedReservedChars0_eq p hp i
  have he0 : K.escaped0 (K.takeWhile p) '\\' (K.oneOf RESERVED_CHARS) i =
    K.escaped0Loop (K.takeWhile p) '\\' (K.oneOf RESERVED_CHARS) i (2 * i.inputLen + 2) i false := rfl
  have he1 : CE.escaped0 (CE.takeWhile p) '\\' (CE.oneOf RESERVED_CHARS) i =
    CE.escaped0Loop (CE.takeWhile p) '\\' (CE.oneOf RESERVED_CHARS) i (2 * i.inputLen + 2) i false := rfl
  have hresErr := fun e => (escapedErr_parts e).1
  have hcost := fun e => (escapedErr_parts e).2
  unfold escapedReservedChars0 CE.escapedReservedChars0 mapErr CE.mapErr
  simp only [he0, he1]
  rw [← he1] at h1 h2 ⊢
  rw [← he0] at h1 h2 h3 ⊢
  unfold CE.escapedReservedChars0 CE.mapErr at heq
  cases ho : CE.escaped0 (CE.takeWhile p) '\\' (CE.oneOf RESERVED_CHARS) i with
  | ok ra =>
    rw [ho] at h1 h2 heq
    constructor
    · simp only [Metered.res_bind, h1, Metered.res_pure]
    · intro r a hra
      simp only at heq hra
      rw [hra] at heq
      obtain ⟨h5, h6⟩ := escOut_ok heq.symm
      simp only [Prod.mk.injEq] at h5
      simp only [Except.ok.injEq] at hra
      subst hra
      refine ⟨?_, ?_⟩
      · rw [h5.1]; exact Later.sub i (erun_append p i.frag).symm
      · have := h2 _ _ rfl
        simp only [Metered.cost_bind, h1, Metered.cost_pure]
        omega
    · intro e he; simp at he
    · simp only [Metered.cost_bind, h1, Metered.cost_pure]
      omega
  | error e =>
    rw [ho] at h1 heq
    have hnoerr : ∀ pe, escOut i (erun p i.frag).1 (erun p i.frag).2 ≠ .error (.error pe) := by
      intro pe hpe
      obtain ⟨pe', h7, -⟩ := escOut_err hpe
      simp at h7
    constructor
    · simp only [Metered.res_bind, h1]
      cases e <;> simp [hresErr]
    · intro r a hra
      cases e <;> simp at hra
    · intro pe he
      rw [← heq] at hnoerr
      exact absurd he (hnoerr pe)
    · simp only [Metered.cost_bind, h1]
      have := hcost e
      cases e <;> simp only [Metered.cost_pure, Metered.cost_bind] <;> omega

end Machine
end CE
