import Verif.Prop.Total

/-! # The scanner `escaped0` (C41) and the recursion depth (C40) -/

namespace CE
open Spec

/-! ## C41 -/

/-- Sequences of normal characters and of pairs of the control character and an escapable character. -/
inductive EscSeq (normal : Char → Bool) (ctl : Char) (escapable : List Char) : List Char → Prop
  | nil : EscSeq normal ctl escapable []
  | normal (c cs) : normal c = true → c ≠ ctl → EscSeq normal ctl escapable cs → EscSeq normal ctl escapable (c :: cs)
  | escaped (d cs) : d ∈ escapable → EscSeq normal ctl escapable cs → EscSeq normal ctl escapable (ctl :: d :: cs)

section
variable {p : Char → Bool} {ctl : Char} {l : List Char}

theorem escSeq_run (cs : List Char) : EscSeq p ctl l (run p ctl l.contains cs).1 := by
  fun_induction run p ctl l.contains cs
  · exact .nil
  next c h => exact .normal _ _ h.2 h.1 .nil
  · exact .nil
  next d cs he ih => exact .escaped _ _ (by simpa using he) ih
  · exact .nil
  next c d cs hc hp ih => exact .normal _ _ hp hc ih
  · exact .nil

theorem escSeq_longest {u : List Char} (h : EscSeq p ctl l u) (r : List Char) :
    u.length ≤ (run p ctl l.contains (u ++ r)).1.length := by
  induction h with
  | nil => simp
  | normal c cs hc hne _ ih => rw [List.cons_append, run_cons_ne _ hne]; simp [hc]; exact ih
  | escaped d cs hd _ ih =>
    have : l.contains d = true := by simpa using hd
    simp only [List.cons_append, run, if_true, this, List.length_cons]
    omega

/-- The same loop over `take_while1`. -/
theorem escaped0Loop1_eq (l : List Char) (hp : p ctl = false) (input : Span) :
    ∀ (fuel : Nat) (t0 rest : List Char),
      input.frag = t0 ++ rest → blen rest < fuel →
      escaped0Loop (takeWhile1 p) ctl (oneOf l) input fuel (input.sub t0 rest) false =
        escRes ctl input (t0 ++ (run p ctl l.contains rest).1, (run p ctl l.contains rest).2) := by
  intro fuel
  induction fuel with
  | zero => intro t0 rest _ h; simp at h
  | succ fuel ih =>
    intro t0 rest hin hfuel
    have hall : okAll input = .ok (input.sub (t0 ++ rest) [], input) := by rw [okAll_eq, hin]
    have hinput : input.sub [] (t0 ++ rest) = input := by rw [← hin]; simp
    unfold escaped0Loop
    by_cases hr : rest = []
    · subst hr
      simp [okAll_eq, escRes, run, hin]
      rw [← List.append_nil t0, hinput]
    have hpos : 0 < (input.sub t0 rest).inputLen := by simpa using blen_pos_of_ne_nil hr
    rw [if_pos hpos]
    simp only [takeWhile1_eq, Span.sub_sub, Span.sub_frag]
    have hrt := run_takeWhile (esc := l.contains) hp rest
    have hsplit := takeWhile_append_dropWhile' p rest
    by_cases ht : rest.takeWhile p = []
    · simp only [ht, if_true]
      obtain ⟨c, r, rfl⟩ : ∃ c r, rest = c :: r := by
        cases rest with
        | nil => exact absurd rfl hr
        | cons c r => exact ⟨c, r, rfl⟩
      have hpc : p c = false := by
        rw [List.takeWhile_cons] at ht
        split at ht
        · simp at ht
        next h => simpa using h
      by_cases hcc : c = ctl
      · subst hcc
        simp only [if_true, Span.sub_inputLen]
        cases r with
        | nil => simp [escRes, run, PErr.fromErrorKind]
        | cons d ds =>
          have hdpos := utf8Size_pos d
          have hge : ¬ (c.utf8Size ≥ blen (c :: d :: ds)) := by simp; omega
          have htf := (input.sub t0 (c :: d :: ds)).takeFrom_append [c] (d :: ds) (by simp)
          simp only [blen_cons, blen_nil, Nat.add_zero] at htf
          simp only [hge, if_false, htf]
          rw [oneOf_cons l _ d ds (by simp)]
          by_cases hesc : l.contains d = true
          · simp only [hesc, if_true, run, Span.sub_sub, Span.sub_inputLen]
            by_cases hds : ds = []
            · subst hds
              simp [hall, escRes, run, hinput]
            · have : ¬ blen ds = 0 := by simpa using hds
              simp only [this, if_false]
              rw [ih _ ds (by simp [hin]) (by simp at hfuel ⊢; omega)]
              simp
          · simp only [hesc, run, if_true, Bool.false_eq_true, if_false]
            simp [escRes, PErr.fromErrorKind]
      · simp only [hcc, if_false, offsetTo_sub]
        rw [run_cons_ne r hcc]
        have h2 := input.takeSplit_append t0 (c :: r) hin
        simp [hpc, h2, orPanic, escRes, hcc]
    · simp only [ht, if_false, Span.sub_inputLen]
      by_cases hd : rest.dropWhile p = []
      · rw [hrt]
        simp only [hd, blen_nil, if_true, run, List.append_nil, escRes]
        rw [hd, List.append_nil] at hsplit
        rw [hall, ← hsplit, hinput]
      · have hdl : ¬ blen (rest.dropWhile p) = 0 := by simpa using hd
        simp only [hdl, if_false]
        have hlen : blen rest = blen (rest.takeWhile p) + blen (rest.dropWhile p) := by
          rw [← blen_append]; simp
        have := blen_pos_of_ne_nil ht
        have hne : ¬ blen (rest.dropWhile p) = blen rest := by omega
        simp only [hne, if_false]
        rw [ih (t0 ++ rest.takeWhile p) (rest.dropWhile p) (by simp [hin]) (by omega)]
        rw [hrt]; simp

theorem escaped01_eq (l : List Char) (hp : p ctl = false) (input : Span) :
    escaped0 (takeWhile1 p) ctl (oneOf l) input = escRes ctl input (run p ctl l.contains input.frag) := by
  have h := escaped0Loop1_eq l hp input (2 * input.inputLen + 2) [] input.frag rfl
    (by simp [Span.inputLen]; omega)
  simpa [escaped0] using h

/-- `t` is the longest `EscSeq` prefix of `cs`, followed by `rest`. -/
def LongestEsc (normal : Char → Bool) (ctl : Char) (escapable cs t rest : List Char) : Prop :=
  cs = t ++ rest ∧ EscSeq normal ctl escapable t ∧
    ∀ u r, cs = u ++ r → EscSeq normal ctl escapable u → u.length ≤ t.length

/-- What `escaped0` must return, given the longest prefix `t` and what follows. -/
def ScanResult (ctl : Char) (s : Span) (t rest : List Char) (res : IRes Span) : Prop :=
  (rest.head? ≠ some ctl → res = .ok (s.sub t rest, s.sub [] t)) ∧
  (∀ d w, rest = ctl :: d :: w → res = .error (.error (.other (s.sub t rest) .escaped))) ∧
  (rest = [ctl] → res = .error (.error (.other s .escaped)))

theorem scanResult_escRes (s : Span) : ∃ t rest, LongestEsc p ctl l s.frag t rest ∧
    ScanResult ctl s t rest (escRes ctl s (run p ctl l.contains s.frag)) := by
  refine ⟨(run p ctl l.contains s.frag).1, (run p ctl l.contains s.frag).2,
    ⟨(run_append _).symm, escSeq_run _, ?_⟩, ?_, ?_, ?_⟩
  · intro u r hs hu
    have := escSeq_longest hu r
    rwa [← hs] at this
  · intro h
    unfold escRes
    split
    next h2 => rw [h2]
    next c rest h2 =>
      rw [h2] at h
      simp only [List.head?_cons, ne_eq, Option.some.injEq] at h
      rw [if_neg h, h2]
  · intro d w h
    unfold escRes
    rw [h]
    simp
  · intro h
    unfold escRes
    rw [h]
    simp

/-- C41: `escaped0` over `take_while` takes exactly the longest well-escaped prefix, or errors if the control character
follows it. The class of normal characters must not contain the control character. -/
theorem C41_escaped0_takeWhile (normal : Char → Bool) (ctl : Char) (escapable : List Char)
    (h : normal ctl = false) (s : Span) : ∃ t rest, LongestEsc normal ctl escapable s.frag t rest ∧
      ScanResult ctl s t rest (escaped0 (takeWhile normal) ctl (oneOf escapable) s) := by
  rw [escaped0_eq escapable h s]
  exact scanResult_escRes s

/-- C41: the same over `take_while1`. -/
theorem C41_escaped0_takeWhile1 (normal : Char → Bool) (ctl : Char) (escapable : List Char)
    (h : normal ctl = false) (s : Span) : ∃ t rest, LongestEsc normal ctl escapable s.frag t rest ∧
      ScanResult ctl s t rest (escaped0 (takeWhile1 normal) ctl (oneOf escapable) s) := by
  rw [escaped01_eq escapable h s]
  exact scanResult_escRes s

/-- C41: consequently the two agree. -/
theorem C41_takeWhile_eq_takeWhile1 (normal : Char → Bool) (ctl : Char) (escapable : List Char)
    (h : normal ctl = false) (s : Span) :
    escaped0 (takeWhile normal) ctl (oneOf escapable) s = escaped0 (takeWhile1 normal) ctl (oneOf escapable) s := by
  rw [escaped0_eq escapable h s, escaped01_eq escapable h s]

end

/-- The normal characters of a text are not empty and exclude the control character. -/
example : escaped0 (takeWhile Char.isDigit) '\\' (oneOf ['"', 'n', '\\']) ⟨0, 1, "12\\\"34;".toList⟩ =
    .ok (⟨6, 1, ";".toList⟩, ⟨0, 1, "12\\\"34".toList⟩) := rfl
example : escaped0 (takeWhile1 Char.isDigit) '\\' (oneOf ['"']) ⟨0, 1, "12\\3".toList⟩ =
    .error (.error (.other ⟨2, 1, "\\3".toList⟩ .escaped)) := rfl

/-! ## C40 -/

/-- Opening braces and parentheses. -/
def openings (cs : List Char) : Nat := cs.count '{' + cs.count '('

theorem openers_eq (cs : List Char) : openers cs = openings cs := by
  unfold openings
  induction cs with
  | nil => rfl
  | cons c cs ih =>
    rw [openers, List.countP_cons, List.count_cons, List.count_cons]
    unfold openers at ih
    rw [ih]
    by_cases h1 : c = '{'
    · subst h1; simp; omega
    · by_cases h2 : c = '('
      · subst h2; simp; omega
      · simp [h1, h2]

/-- C40: a nesting depth of one more than the number of opening brackets always suffices: the result with that depth is
the result of the unrestricted parser, and it is not a cut-off. -/
theorem C40_depth_sufficient (s : Span) (n : Nat) (depth : Nat) (h : openings s.frag < depth) :
    parameterF depth s n = parameter s n ∧ optionalF depth s = optional s ∧
      (parameter s n).1 ≠ .error .diverge ∧ optional s ≠ .error .diverge := by
  rw [← openers_eq] at h
  refine ⟨?_, ?_, ?_, ?_⟩
  · rw [(paramOpt_eq depth).1 s n h, parameter_eq]
  · rw [(paramOpt_eq depth).2 s h, optional_eq]
  · intro hd
    have := discipline_parameter s n
    rw [hd] at this
    exact this
  · intro hd
    have := discipline_optional s
    rw [hd] at this
    exact this

theorem erun_brace (m : Nat) : erun isName (List.replicate m '{') = ([], List.replicate m '{') := by
  cases m with
  | zero => rfl
  | succ m => rw [List.replicate_succ, erun_cons_stop class_name _ (by decide) (by decide)]

/-- C40: on `m` opening braces a nesting depth of `m` is also necessary, so no constant bound holds. -/
theorem C40_depth_necessary (m depth : Nat) (h : depth < m) (s : Span) (n : Nat)
    (hs : s.frag = List.replicate m '{') : (parameterF depth s n).1 = .error .diverge := by
  induction depth generalizing m s n with
  | zero => rfl
  | succ d ih =>
    obtain ⟨m, rfl⟩ : ∃ k, m = k + 2 := ⟨m - 2, by omega⟩
    rw [List.replicate_succ] at hs
    unfold parameterF
    rw [tag1_cons '{' _ s hs]
    simp only
    rw [escapedReservedChars0_eq isName (by decide), Span.sub_frag, erun_brace]
    simp only [escOut, List.replicate_succ, Char.reduceEq, if_false]
    unfold mapErr
    rw [tag1_ne '}' _ (by simp)]
    simp only [parameterFail, Span.sub_frag, List.head?_cons, nestedTuple]
    have := ih (m + 1) (by omega) ((s.sub ['{'] ('{' :: List.replicate m '{')).sub [] ('{' :: List.replicate m '{')) 0
      (by simp [List.replicate_succ])
    rw [this]
    rfl

example : (parameterF 2 ⟨0, 1, "{{{".toList⟩ 0).1 = .error .diverge ∧
    (parameterF 3 ⟨0, 1, "{{{".toList⟩ 0).1 = .error (.failure (.unescapedReservedCharacter ⟨1, 1, "{".toList⟩)) :=
  ⟨rfl, rfl⟩

end CE
