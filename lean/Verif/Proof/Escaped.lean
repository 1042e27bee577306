import Verif.Proof.Basic

/-! # The escaped-text scanner: `escaped0` computes the longest well-escaped run -/

namespace CE

/-- The longest prefix made of `p`-characters other than `ctl` and of pairs `ctl`, escapable; and what follows. -/
def run (p : Char → Bool) (ctl : Char) (esc : Char → Bool) : List Char → List Char × List Char
  | [] => ([], [])
  | [c] => if c ≠ ctl ∧ p c = true then ([c], []) else ([], [c])
  | c :: d :: cs =>
    if c = ctl then
      if esc d then (c :: d :: (run p ctl esc cs).1, (run p ctl esc cs).2) else ([], c :: d :: cs)
    else if p c then (c :: (run p ctl esc (d :: cs)).1, (run p ctl esc (d :: cs)).2)
    else ([], c :: d :: cs)

section
variable {p : Char → Bool} {ctl : Char} {esc : Char → Bool}

theorem run_cons_ne {c : Char} (cs : List Char) (h : c ≠ ctl) :
    run p ctl esc (c :: cs) =
      if p c then (c :: (run p ctl esc cs).1, (run p ctl esc cs).2) else ([], c :: cs) := by
  cases cs with
  | nil => simp [run, h]
  | cons d ds => simp [run, h]

theorem run_append (cs : List Char) : (run p ctl esc cs).1 ++ (run p ctl esc cs).2 = cs := by
  fun_induction run p ctl esc cs <;> simp_all

theorem run_takeWhile (hp : p ctl = false) (cs : List Char) :
    run p ctl esc cs =
      (cs.takeWhile p ++ (run p ctl esc (cs.dropWhile p)).1, (run p ctl esc (cs.dropWhile p)).2) := by
  induction cs with
  | nil => simp
  | cons c cs ih =>
    by_cases hc : p c
    · have hne : c ≠ ctl := by rintro rfl; simp [hp] at hc
      rw [run_cons_ne cs hne]
      simp only [hc, if_true, List.takeWhile_cons, List.dropWhile_cons]
      rw [ih]; simp
    · simp [hc]

/-- Result of `escaped0` in terms of the run. -/
def escRes (ctl : Char) (input : Span) (r : List Char × List Char) : IRes Span :=
  match r.2 with
  | [] => .ok (input.sub r.1 [], input.sub [] r.1)
  | c :: rest =>
    if c = ctl then
      if rest = [] then .error (.error (.other input .escaped))
      else .error (.error (.other (input.sub r.1 (c :: rest)) .escaped))
    else .ok (input.sub r.1 (c :: rest), input.sub [] r.1)

theorem dropWhile_head (p : Char → Bool) (cs : List Char) (c : Char) (r : List Char)
    (h : cs.dropWhile p = c :: r) : p c = false := by
  induction cs with
  | nil => simp at h
  | cons d ds ih =>
    rw [List.dropWhile_cons] at h
    split at h
    · exact ih h
    · simp at h; obtain ⟨rfl, _⟩ := h; simp_all

theorem oneOf_cons (l : List Char) (s : Span) (c : Char) (r : List Char) (h : s.frag = c :: r) :
    oneOf l s = if l.contains c then .ok (s.sub [c] r, c) else .error (.error (.other s .oneOf)) := by
  have := s.takeFrom_append [c] r (by simpa using h)
  simp at this
  simp [oneOf, h, this, PErr.fromErrorKind]

theorem offsetTo_sub (s : Span) (a f : List Char) : s.offsetTo (s.sub a f) = some (blen a) := by
  simp [Span.offsetTo]

theorem escaped0Loop_eq (l : List Char) (hp : p ctl = false) (input : Span) :
    ∀ (fuel : Nat) (t0 rest : List Char) (cn : Bool),
      input.frag = t0 ++ rest →
      (cn = true → rest.takeWhile p = []) →
      2 * blen rest + (if cn then 1 else 2) ≤ fuel →
      escaped0Loop (takeWhile p) ctl (oneOf l) input fuel (input.sub t0 rest) cn =
        escRes ctl input (t0 ++ (run p ctl l.contains rest).1, (run p ctl l.contains rest).2) := by
  intro fuel
  induction fuel with
  | zero => intro t0 rest cn _ _ h; cases cn <;> simp at h
  | succ fuel ih =>
    intro t0 rest cn hin hcn hfuel
    have hall : okAll input = .ok (input.sub (t0 ++ rest) [], input) := by rw [okAll_eq, hin]
    have hinput : input.sub [] (t0 ++ rest) = input := by rw [← hin]; simp
    -- the second arm of the match
    unfold escaped0Loop
    by_cases hr : rest = []
    · subst hr
      simp [okAll_eq, escRes, run, hin]
      rw [← List.append_nil t0, hinput]
    have hpos : 0 < (input.sub t0 rest).inputLen := by simpa using blen_pos_of_ne_nil hr
    rw [if_pos hpos]
    simp only [takeWhile_eq, Span.sub_sub, Span.sub_frag]
    cases cn with
    | false =>
      simp only [Span.sub_inputLen]
      have hrt := run_takeWhile (esc := l.contains) hp rest
      have hsplit := takeWhile_append_dropWhile' p rest
      by_cases hd : rest.dropWhile p = []
      · rw [hrt]
        simp only [hd, blen_nil, if_true, run, List.append_nil, escRes]
        rw [hd, List.append_nil] at hsplit
        rw [hall, ← hsplit, hinput]
      · have hdl : ¬ blen (rest.dropWhile p) = 0 := by simpa using hd
        simp only [hdl, if_false]
        by_cases ht : rest.takeWhile p = []
        · have hdr : rest.dropWhile p = rest := by rw [ht] at hsplit; simpa using hsplit.symm
          rw [hdr]
          simp only [if_true, ht, List.append_nil]
          exact ih t0 rest true hin (fun _ => ht) (by simp at hfuel ⊢; omega)
        · have hlen : blen rest = blen (rest.takeWhile p) + blen (rest.dropWhile p) := by
            rw [← blen_append]; simp
          have := blen_pos_of_ne_nil ht
          have hne : ¬ blen (rest.dropWhile p) = blen rest := by omega
          simp only [hne, if_false]
          rw [ih (t0 ++ rest.takeWhile p) (rest.dropWhile p) false (by simp [hin]) (by simp)
            (by simp at hfuel ⊢; omega)]
          rw [hrt]; simp
    | true =>
      simp only [Span.sub_inputLen]
      have ht := hcn rfl
      obtain ⟨c, r, rfl⟩ : ∃ c r, rest = c :: r := by
        cases rest with
        | nil => exact absurd rfl hr
        | cons c r => exact ⟨c, r, rfl⟩
      have hpc : p c = false := by
        rw [List.takeWhile_cons] at ht; split at ht <;> simp_all
      by_cases hcc : c = ctl
      · subst hcc
        simp only [if_true]
        cases r with
        | nil => simp [escRes, run, PErr.fromErrorKind]
        | cons d ds =>
          have hdpos := utf8Size_pos d
          have hge : ¬ (c.utf8Size ≥ blen (c :: d :: ds)) := by simp; omega
          have htf := (input.sub t0 (c :: d :: ds)).takeFrom_append [c] (d :: ds) (by simp)
          simp only [blen_cons, blen_nil, Nat.add_zero] at htf
          simp only [hge, if_false, htf]
          rw [oneOf_cons l _ d ds (by simp)]
          by_cases hesc : l.contains d = true
          · simp only [hesc, if_true, run, Span.sub_sub, Span.sub_inputLen]
            by_cases hds : ds = []
            · subst hds
              simp [hall, escRes, run, hinput]
            · have : ¬ blen ds = 0 := by simpa using hds
              simp only [this, if_false]
              rw [ih _ ds false (by simp [hin]) (by simp) (by simp at hfuel ⊢; omega)]
              simp
          · simp only [hesc, run, if_true, Bool.false_eq_true, if_false]
            simp [escRes, PErr.fromErrorKind]
      · simp only [hcc, if_false, offsetTo_sub]
        rw [run_cons_ne r hcc]
        have h2 := input.takeSplit_append t0 (c :: r) hin
        simp [hpc, h2, orPanic, escRes, hcc]

/-- `escaped0` over `take_while` computes the longest well-escaped run. -/
theorem escaped0_eq (l : List Char) (hp : p ctl = false) (input : Span) :
    escaped0 (takeWhile p) ctl (oneOf l) input = escRes ctl input (run p ctl l.contains input.frag) := by
  have h := escaped0Loop_eq l hp input (2 * input.inputLen + 2) [] input.frag false rfl (by simp)
    (by simp [Span.inputLen])
  simpa [escaped0] using h

end
end CE
