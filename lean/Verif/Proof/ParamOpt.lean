import Verif.Proof.Escaped

/-! # Closed forms of `escaped_reserved_chars0`, `parameter` and `optional` -/

namespace CE

/-- The longest run of `p`-characters and escaped reserved characters, and what follows it. -/
def erun (p : Char → Bool) (cs : List Char) : List Char × List Char := run p '\\' RESERVED_CHARS.contains cs

theorem erun_append (p : Char → Bool) (cs : List Char) : (erun p cs).1 ++ (erun p cs).2 = cs := run_append cs

theorem erun_nil (p : Char → Bool) : erun p [] = ([], []) := rfl

/-- What follows the run does not start with a `p`-character (other than a backslash) nor with a valid escape. -/
theorem erun_rest_head (p : Char → Bool) (cs : List Char) (c : Char) (r : List Char)
    (h : (erun p cs).2 = c :: r) : (c ≠ '\\' → p c = false) ∧
      (c = '\\' → ∀ d ds, r = d :: ds → RESERVED_CHARS.contains d = false) := by
  unfold erun at h
  fun_induction run p '\\' RESERVED_CHARS.contains cs <;> simp_all
  all_goals (obtain ⟨rfl, rfl⟩ := h)
  all_goals simp_all

/-- Outcome of `escaped_reserved_chars0` on `s`, given the run `t` and the rest `r`. -/
def escOut (s : Span) (t r : List Char) : IRes Span :=
  match r with
  | [] => .ok (s.sub t [], s.sub [] t)
  | c :: r' =>
    if c = '\\' then
      match r' with
      | d :: _ => .error (.failure (.escapedNonReservedCharacter (s.sub t ['\\', d])))
      | [] =>
        if t = [] then .error (.failure (.escapedEndOfLine (s.sub [] ['\\'])))
        else .error (.failure (.escapedNonReservedCharacter (s.sub [] (s.frag.take 2))))
    else .ok (s.sub t (c :: r'), s.sub [] t)

theorem sliceIndexL_two (a b : Char) (cs : List Char) :
    Span.sliceIndexL 2 (a :: b :: cs) = some (blen [a, b]) := by
  simp [Span.sliceIndexL]

theorem failTake_two (s : Span) (a b : Char) (cs : List Char) (f : Span → PErr) (h : s.frag = a :: b :: cs) :
    failTake s ((s.sliceIndex 2).getD 0) f = .failure (f (s.sub [] [a, b])) := by
  have h2 := s.take_append [a, b] cs (by simpa using h)
  unfold failTake Span.sliceIndex
  rw [h, sliceIndexL_two]
  simp only [Option.getD_some, h2]

theorem escapedErr_two (s : Span) (a b : Char) (cs : List Char) (h : s.frag = a :: b :: cs) :
    escapedErr (.error (.other s .escaped)) =
      .failure (.escapedNonReservedCharacter (s.sub [] [a, b])) := by
  have ha := utf8Size_pos a
  have hb := utf8Size_pos b
  have hlen : s.inputLen ≥ 2 := by simp [Span.inputLen, h]; omega
  unfold escapedErr
  obtain ⟨n, hn⟩ : ∃ n, s.inputLen = n + 2 := ⟨s.inputLen - 2, by omega⟩
  simp only [hn, failTake_two s a b cs _ h]
  simp

theorem escapedReservedChars0_eq (p : Char → Bool) (hp : p '\\' = false) (s : Span) :
    escapedReservedChars0 (takeWhile p) s = escOut s (erun p s.frag).1 (erun p s.frag).2 := by
  unfold escapedReservedChars0 mapErr
  rw [escaped0_eq RESERVED_CHARS hp s]
  have happ := erun_append p s.frag
  rw [show run p '\\' RESERVED_CHARS.contains s.frag = erun p s.frag from rfl]
  generalize erun p s.frag = tr at happ ⊢
  obtain ⟨t, r⟩ := tr
  simp only at happ
  cases r with
  | nil => simp [escRes, escOut]
  | cons c r =>
    by_cases hc : c = '\\'
    · subst hc
      cases r with
      | nil =>
        cases t with
        | nil =>
          have hs : s = s.sub [] ['\\'] := by rw [show (['\\'] : List Char) = s.frag by simpa using happ]; simp
          have hl : s.inputLen = 1 := by rw [hs]; simp
          simp only [escRes, escOut, if_true, escapedErr, hl]
          rw [← hs]
        | cons a t =>
          obtain ⟨b, cs, hb⟩ : ∃ b cs, t ++ ['\\'] = b :: cs := by cases t <;> simp
          have hf : s.frag = a :: b :: cs := by rw [← happ, List.cons_append, hb]
          simp only [escRes, escOut, if_true, reduceCtorEq, if_false]
          rw [escapedErr_two s a b cs hf, hf]
          simp
      | cons d r =>
        simp only [escRes, escOut, if_true, reduceCtorEq, if_false]
        rw [escapedErr_two (s.sub t ('\\' :: d :: r)) '\\' d r (by simp)]
        simp
    · simp [escRes, escOut, hc]

/-- Successful `(text)`: the text and what follows. -/
def optOk : List Char → Option (List Char × List Char)
  | '(' :: r =>
    match (erun isInOptional r).2 with
    | ')' :: v => if (erun isInOptional r).1 = [] then none else some ((erun isInOptional r).1, v)
    | _ => none
  | _ => none

/-- Successful `{name}`: the name and what follows. -/
def parOk : List Char → Option (List Char × List Char)
  | '{' :: r =>
    match (erun isName r).2 with
    | '}' :: v => some ((erun isName r).1, v)
    | _ => none
  | _ => none

/-- A run of `p`-text followed by `close`. -/
def closedRun (p : Char → Bool) (close : Char) (cs : List Char) : Bool := (erun p cs).2.head? = some close

/-- The error of an unclosed parameter at `inp` (what follows the name). -/
def parFailSpec (inp opening : Span) : PErr :=
  match inp.frag with
  | '{' :: _ =>
    match parOk inp.frag with
    | some (t, v) =>
      if closedRun isName '}' v then .nestedParameter (inp.sub [] ('{' :: t ++ ['}']))
      else .unescapedReservedCharacter (inp.sub [] ['{'])
    | none => .unescapedReservedCharacter (inp.sub [] ['{'])
  | '(' :: _ =>
    match optOk inp.frag with
    | some (t, _) => .optionalInParameter (inp.sub [] ('(' :: t ++ [')']))
    | none => .unescapedReservedCharacter (inp.sub [] ['('])
  | '/' :: _ => .unescapedReservedCharacter (inp.sub [] ['/'])
  | _ => .unfinishedParameter opening

/-- The error of an unclosed optional at `inp` (what follows the text). -/
def optFailSpec (inp opening : Span) : PErr :=
  match inp.frag with
  | '(' :: _ =>
    match optOk inp.frag with
    | some (t, v) =>
      if closedRun isInOptional ')' v then .nestedOptional (inp.sub [] ('(' :: t ++ [')']))
      else .unescapedReservedCharacter (inp.sub [] ['('])
    | none => .unescapedReservedCharacter (inp.sub [] ['('])
  | '{' :: _ =>
    match parOk inp.frag with
    | some (t, _) => .parameterInOptional (inp.sub [] ('{' :: t ++ ['}']))
    | none => .unescapedReservedCharacter (inp.sub [] ['{'])
  | '/' :: _ => .alternationInOptional (inp.sub [] ['/'])
  | _ => .unfinishedOptional opening

/-- Closed form of `parameter`. -/
def parSpec (s : Span) (n : Nat) : IRes Parameter × Nat :=
  match s.frag with
  | '{' :: r =>
    match escOut (s.sub ['{'] r) (erun isName r).1 (erun isName r).2 with
    | .error e => (.error e, n)
    | .ok (inp, name) =>
      match inp.frag with
      | '}' :: v => (.ok (s.sub ('{' :: (erun isName r).1 ++ ['}']) v, ⟨name, n⟩), n + 1)
      | _ => (.error (.failure (parFailSpec inp (s.sub [] ['{']))), n)
  | _ => (.error (.error (.other s .tag)), n)

/-- Closed form of `optional`. -/
def optSpec (s : Span) : IRes Optional :=
  match s.frag with
  | '(' :: r =>
    match escOut (s.sub ['('] r) (erun isInOptional r).1 (erun isInOptional r).2 with
    | .error e => .error e
    | .ok (inp, text) =>
      match inp.frag with
      | ')' :: v =>
        if (erun isInOptional r).1 = [] then .error (.failure (.emptyOptional (s.sub [] ['(', ')'])))
        else .ok (s.sub ('(' :: (erun isInOptional r).1 ++ [')']) v, ⟨text⟩)
      | _ => .error (.failure (optFailSpec inp (s.sub [] ['('])))
  | _ => .error (.error (.other s .tag))

/-- Number of opening braces and parentheses. -/
def openers (cs : List Char) : Nat := cs.countP (fun c => c == '{' || c == '(')

theorem openers_append (a b : List Char) : openers (a ++ b) = openers a + openers b := by
  simp [openers]

theorem openers_le_blen (cs : List Char) : openers cs ≤ blen cs :=
  Nat.le_trans List.countP_le_length (length_le_blen cs)

theorem openers_erun_le (p : Char → Bool) (cs : List Char) : openers (erun p cs).2 ≤ openers cs := by
  conv => rhs; rw [← erun_append p cs]
  rw [openers_append]; omega

/-- What can follow the run of a class whose only stop characters are known. -/
theorem isName_false {c : Char} (h : isName c = false) : c = '{' ∨ c = '}' ∨ c = '(' ∨ c = '\\' ∨ c = '/' := by
  simp [isName] at h; grind

theorem isInOptional_false {c : Char} (h : isInOptional c = false) :
    c = '(' ∨ c = ')' ∨ c = '{' ∨ c = '\\' ∨ c = '/' := by
  simp [isInOptional] at h; grind

theorem isWithoutWhitespace_false {c : Char} (h : isWithoutWhitespace c = false) :
    c = ' ' ∨ c = '(' ∨ c = '{' ∨ c = '\\' ∨ c = '/' := by
  simp [isWithoutWhitespace] at h; grind

/-- `escOut` succeeds with exactly the run, unless the rest starts with a backslash. -/
theorem escOut_ok {s : Span} {t r : List Char} {a : Span × Span} (h : escOut s t r = .ok a) :
    a = (s.sub t r, s.sub [] t) ∧ r.head? ≠ some '\\' := by
  unfold escOut at h
  split at h
  · simp_all
  · split at h
    · split at h <;> (try split at h) <;> simp_all
    · simp_all

theorem escOut_ne {s : Span} {t r : List Char} (h : r.head? ≠ some '\\') :
    escOut s t r = .ok (s.sub t r, s.sub [] t) := by
  unfold escOut
  split
  · rfl
  · simp_all

theorem escOut_err {s : Span} {t r : List Char} {e : Err} (h : escOut s t r = .error e) :
    ∃ pe, e = .failure pe ∧ r.head? = some '\\' := by
  unfold escOut at h
  split at h
  · simp_all
  · split at h
    · split at h <;> (try split at h) <;> simp only [Except.error.injEq] at h <;> subst h <;> simp_all
    · simp_all

/-! ## Successful outcomes of the closed forms -/

theorem optSpec_ok {s : Span} {r : Span} {o : Optional} (h : optSpec s = .ok (r, o)) :
    ∃ t v, optOk s.frag = some (t, v) ∧ s.frag = '(' :: t ++ ')' :: v ∧
      r = s.sub ('(' :: t ++ [')']) v ∧ o = ⟨s.sub ['('] t⟩ := by
  unfold optSpec at h
  split at h
  next r' hf =>
    split at h
    · simp at h
    next inp text he =>
      obtain ⟨h1, h2⟩ := escOut_ok he
      have happ := erun_append isInOptional r'
      simp only [Prod.mk.injEq] at h1
      obtain ⟨rfl, rfl⟩ := h1
      simp only [Span.sub_frag] at h
      split at h
      next v hv =>
        split at h
        · simp at h
        next hne =>
          simp only [Except.ok.injEq, Prod.mk.injEq] at h
          refine ⟨(erun isInOptional r').1, v, ?_, ?_, h.1.symm, ?_⟩
          · rw [hf]; simp [optOk, hv, hne]
          · rw [hf]; conv => lhs; rw [← happ, hv]
            simp
          · rw [← h.2]; simp
      · simp at h
  · simp at h

theorem optSpec_of_optOk {s : Span} {t v : List Char} (h : optOk s.frag = some (t, v)) :
    optSpec s = .ok (s.sub ('(' :: t ++ [')']) v, ⟨s.sub ['('] t⟩) := by
  unfold optOk at h
  split at h
  next r hf =>
    split at h
    next v' hv =>
      split at h
      · simp at h
      next hne =>
        simp only [Option.some.injEq, Prod.mk.injEq] at h
        obtain ⟨rfl, rfl⟩ := h
        unfold optSpec
        rw [hf]
        simp only
        rw [escOut_ne (by rw [hv]; simp)]
        simp only [Span.sub_frag, hv, hne, if_false, Span.sub_sub]
        rfl
    · simp at h
  · simp at h

theorem parSpec_of_parOk {s : Span} {t v : List Char} (n : Nat) (h : parOk s.frag = some (t, v)) :
    parSpec s n = (.ok (s.sub ('{' :: t ++ ['}']) v, ⟨s.sub ['{'] t, n⟩), n + 1) := by
  unfold parOk at h
  split at h
  next r hf =>
    split at h
    next v' hv =>
      simp only [Option.some.injEq, Prod.mk.injEq] at h
      obtain ⟨rfl, rfl⟩ := h
      unfold parSpec
      rw [hf]
      simp only
      rw [escOut_ne (by rw [hv]; simp)]
      simp only [Span.sub_frag, hv, Span.sub_sub]
      rfl
    · simp at h
  · simp at h

theorem parSpec_ok {s : Span} {n : Nat} {r : Span} {p : Parameter} {m : Nat}
    (h : parSpec s n = (.ok (r, p), m)) :
    ∃ t v, parOk s.frag = some (t, v) ∧ s.frag = '{' :: t ++ '}' :: v ∧
      r = s.sub ('{' :: t ++ ['}']) v ∧ p = ⟨s.sub ['{'] t, n⟩ ∧ m = n + 1 := by
  unfold parSpec at h
  split at h
  next r' hf =>
    split at h
    · simp at h
    next inp text he =>
      obtain ⟨h1, h2⟩ := escOut_ok he
      have happ := erun_append isName r'
      simp only [Prod.mk.injEq] at h1
      obtain ⟨rfl, rfl⟩ := h1
      simp only [Span.sub_frag] at h
      split at h
      next v hv =>
        simp only [Prod.mk.injEq, Except.ok.injEq] at h
        refine ⟨(erun isName r').1, v, ?_, ?_, h.1.1.symm, ?_, h.2.symm⟩
        · rw [hf]; simp [parOk, hv]
        · rw [hf]; conv => lhs; rw [← happ, hv]
          simp
        · rw [← h.1.2]; simp
      · simp at h
  · simp at h

/-- The closed form of `optional` never panics nor diverges, and errors are `failure` or `Other`-`error`. -/
theorem optSpec_err {s : Span} {e : Err} (h : optSpec s = .error e) :
    optOk s.frag = none ∧ ((∃ pe, e = .failure pe) ∨ e = .error (.other s .tag)) := by
  constructor
  · cases ho : optOk s.frag with
    | none => rfl
    | some tv => rw [optSpec_of_optOk (t := tv.1) (v := tv.2) ho] at h; simp at h
  · unfold optSpec at h
    split at h
    · split at h
      next he => simp only [Except.error.injEq] at h; subst h; obtain ⟨pe, rfl, _⟩ := escOut_err he; exact .inl ⟨_, rfl⟩
      · split at h
        · split at h
          · simp at h; exact .inl ⟨_, h.symm⟩
          · simp at h
        · simp at h; exact .inl ⟨_, h.symm⟩
    · simp at h; exact .inr h.symm

theorem parSpec_err {s : Span} {n m : Nat} {e : Err} (h : parSpec s n = (.error e, m)) :
    parOk s.frag = none ∧ m = n ∧ ((∃ pe, e = .failure pe) ∨ e = .error (.other s .tag)) := by
  refine ⟨?_, ?_⟩
  · cases ho : parOk s.frag with
    | none => rfl
    | some tv => rw [parSpec_of_parOk (t := tv.1) (v := tv.2) n ho] at h; simp at h
  · unfold parSpec at h
    split at h
    · split at h
      next he =>
        simp only [Prod.mk.injEq, Except.error.injEq] at h
        obtain ⟨rfl, rfl⟩ := h
        obtain ⟨pe, rfl, _⟩ := escOut_err he; exact ⟨rfl, .inl ⟨_, rfl⟩⟩
      · split at h
        · simp at h
        · simp at h; exact ⟨h.2.symm, .inl ⟨_, h.1.symm⟩⟩
    · simp at h; exact ⟨h.2.symm, .inr h.1.symm⟩

/-! ## The models equal the closed forms -/

theorem failTake_prefix (s : Span) (a b : List Char) (f : Span → PErr) (n : Nat) (h : s.frag = a ++ b)
    (hn : n = blen a) : failTake s n f = .failure (f (s.sub [] a)) := by
  subst hn
  simp [failTake, s.take_append a b h]

/-- A parser of optionals that agrees with the closed form on `s`. -/
theorem parameterFail_eq (par : PS Parameter) (opt : P Optional) (inp opening : Span)
    (hpar : inp.frag.head? = some '{' → ∀ n, par inp n = parSpec inp n)
    (hopt : inp.frag.head? = some '(' → opt inp = optSpec inp)
    (hh : ∀ c, inp.frag.head? = some c → isName c = false ∧ c ≠ '\\' ∧ c ≠ '}') :
    parameterFail par opt inp opening = .failure (parFailSpec inp opening) := by
  unfold parameterFail parFailSpec
  cases hf : inp.frag with
  | nil => simp
  | cons c r =>
    have h1 : ∀ a : Char, c = a → failTake inp 1 .unescapedReservedCharacter =
        .failure (.unescapedReservedCharacter (inp.sub [] [c])) ∨ a.utf8Size ≠ 1 := by
      rintro a rfl
      by_cases hs : c.utf8Size = 1
      · exact .inl (failTake_prefix inp [c] r _ 1 (by simpa using hf) (by simp [hs]))
      · exact .inr hs
    rcases isName_false (hh c (by simp [hf])).1 with rfl | rfl | rfl | rfl | rfl
    · have hu := (h1 '{' rfl).resolve_right (by decide)
      simp only [List.head?_cons, nestedTuple, hpar (by simp [hf]) 0, hu]
      cases ho : parOk ('{' :: r) with
      | none =>
        simp only
        rcases hp : parSpec inp 0 with ⟨⟨e⟩ | ⟨r, p⟩, m⟩
        · obtain ⟨_, _, ⟨pe, rfl⟩ | rfl⟩ := parSpec_err hp <;> simp [bind, Except.bind, ifOk]
        · obtain ⟨t, v, h, _⟩ := parSpec_ok hp
          rw [hf, ho] at h; simp at h
      | some tv =>
        obtain ⟨t, v⟩ := tv
        rw [← hf] at ho
        rw [parSpec_of_parOk 0 ho]
        obtain ⟨_, _, ho', hfr, _⟩ := parSpec_ok (parSpec_of_parOk 0 ho)
        rw [ho] at ho'; simp only [Option.some.injEq, Prod.mk.injEq] at ho'; obtain ⟨rfl, rfl⟩ := ho'
        simp only [bind, Except.bind, escapedReservedChars0_eq isName (by decide), Span.sub_frag]
        have hnp := failTake_prefix inp ('{' :: t ++ ['}']) v .nestedParameter (blen t + 2)
          (by rw [hfr]; simp) (by simp; omega)
        cases he : escOut (inp.sub ('{' :: t ++ ['}']) v) (erun isName v).1 (erun isName v).2 with
        | error e =>
          obtain ⟨pe, rfl, hb⟩ := escOut_err he
          simp only [ifOk]
          have : closedRun isName '}' v = false := by simp [closedRun, hb]
          simp [this]
        | ok a =>
          obtain ⟨rfl, hb⟩ := escOut_ok he
          simp only
          by_cases hcl : closedRun isName '}' v = true
          · have : (erun isName v).2.head? = some '}' := by simpa [closedRun] using hcl
            obtain ⟨w, hw⟩ : ∃ w, (erun isName v).2 = '}' :: w := by
              cases hq : (erun isName v).2 with
              | nil => rw [hq] at this; simp at this
              | cons x y => rw [hq] at this; simp at this; exact ⟨y, by rw [this]⟩
            rw [tag1_cons '}' w _ (by simp [hw])]
            simp only [hcl, if_true, ifOk, pure, Except.pure, Span.sub_inputLen, hnp]
          · rw [tag1_ne '}' _ (by simpa [closedRun] using hcl)]
            simp [hcl, ifOk]
    · exact absurd rfl (hh '}' (by simp [hf])).2.2
    · have hu := (h1 '(' rfl).resolve_right (by decide)
      simp only [List.head?_cons, peek, hopt (by simp [hf]), hu]
      cases ho : optOk ('(' :: r) with
      | none =>
        rcases hp : optSpec inp with e | ⟨r, p⟩
        · obtain ⟨_, ⟨pe, rfl⟩ | rfl⟩ := optSpec_err hp <;> simp [ifOk]
        · obtain ⟨t, v, h, _⟩ := optSpec_ok hp
          rw [hf, ho] at h; simp at h
      | some tv =>
        obtain ⟨t, v⟩ := tv
        rw [← hf] at ho
        rw [optSpec_of_optOk ho]
        obtain ⟨_, _, ho', hfr, _⟩ := optSpec_ok (optSpec_of_optOk ho)
        rw [ho] at ho'; simp only [Option.some.injEq, Prod.mk.injEq] at ho'; obtain ⟨rfl, rfl⟩ := ho'
        simp only [ifOk, Span.sub_inputLen]
        rw [failTake_prefix inp ('(' :: t ++ [')']) v _ _ (by rw [hfr]; simp) (by simp; omega)]
    · exact absurd rfl (hh '\\' (by simp [hf])).2.1
    · have hu := (h1 '/' rfl).resolve_right (by decide)
      simp [RESERVED_CHARS, hu]

theorem optionalFail_eq (par : PS Parameter) (opt : P Optional) (inp opening : Span)
    (hpar : inp.frag.head? = some '{' → ∀ n, par inp n = parSpec inp n)
    (hopt : inp.frag.head? = some '(' → opt inp = optSpec inp)
    (hh : ∀ c, inp.frag.head? = some c → isInOptional c = false ∧ c ≠ '\\' ∧ c ≠ ')') :
    optionalFail par opt inp opening = .failure (optFailSpec inp opening) := by
  unfold optionalFail optFailSpec
  cases hf : inp.frag with
  | nil => simp
  | cons c r =>
    have h1 : ∀ (f : Span → PErr) (a : Char), c = a → failTake inp 1 f =
        .failure (f (inp.sub [] [c])) ∨ a.utf8Size ≠ 1 := by
      rintro f a rfl
      by_cases hs : c.utf8Size = 1
      · exact .inl (failTake_prefix inp [c] r _ 1 (by simpa using hf) (by simp [hs]))
      · exact .inr hs
    rcases isInOptional_false (hh c (by simp [hf])).1 with rfl | rfl | rfl | rfl | rfl
    · have hu := (h1 .unescapedReservedCharacter '(' rfl).resolve_right (by decide)
      simp only [List.head?_cons, nestedTuple, hopt (by simp [hf]), hu]
      cases ho : optOk ('(' :: r) with
      | none =>
        simp only
        rcases hp : optSpec inp with e | ⟨r, p⟩
        · obtain ⟨_, ⟨pe, rfl⟩ | rfl⟩ := optSpec_err hp <;> simp [bind, Except.bind, ifOk]
        · obtain ⟨t, v, h, _⟩ := optSpec_ok hp
          rw [hf, ho] at h; simp at h
      | some tv =>
        obtain ⟨t, v⟩ := tv
        rw [← hf] at ho
        rw [optSpec_of_optOk ho]
        obtain ⟨_, _, ho', hfr, _⟩ := optSpec_ok (optSpec_of_optOk ho)
        rw [ho] at ho'; simp only [Option.some.injEq, Prod.mk.injEq] at ho'; obtain ⟨rfl, rfl⟩ := ho'
        simp only [bind, Except.bind, escapedReservedChars0_eq isInOptional (by decide), Span.sub_frag]
        have hnp := failTake_prefix inp ('(' :: t ++ [')']) v .nestedOptional (blen t + 2)
          (by rw [hfr]; simp) (by simp; omega)
        cases he : escOut (inp.sub ('(' :: t ++ [')']) v) (erun isInOptional v).1 (erun isInOptional v).2 with
        | error e =>
          obtain ⟨pe, rfl, hb⟩ := escOut_err he
          simp only [ifOk]
          have : closedRun isInOptional ')' v = false := by simp [closedRun, hb]
          simp [this]
        | ok a =>
          obtain ⟨rfl, hb⟩ := escOut_ok he
          simp only
          by_cases hcl : closedRun isInOptional ')' v = true
          · have : (erun isInOptional v).2.head? = some ')' := by simpa [closedRun] using hcl
            obtain ⟨w, hw⟩ : ∃ w, (erun isInOptional v).2 = ')' :: w := by
              cases hq : (erun isInOptional v).2 with
              | nil => rw [hq] at this; simp at this
              | cons x y => rw [hq] at this; simp at this; exact ⟨y, by rw [this]⟩
            rw [tag1_cons ')' w _ (by simp [hw])]
            simp only [hcl, if_true, ifOk, pure, Except.pure, Span.sub_inputLen, hnp]
          · rw [tag1_ne ')' _ (by simpa [closedRun] using hcl)]
            simp [hcl, ifOk]
    · exact absurd rfl (hh ')' (by simp [hf])).2.2
    · have hu := (h1 .unescapedReservedCharacter '{' rfl).resolve_right (by decide)
      simp only [List.head?_cons, peek, hpar (by simp [hf]) 0, hu]
      cases ho : parOk ('{' :: r) with
      | none =>
        rcases hp : parSpec inp 0 with ⟨⟨e⟩ | ⟨r, p⟩, m⟩
        · obtain ⟨_, _, ⟨pe, rfl⟩ | rfl⟩ := parSpec_err hp <;> simp [ifOk]
        · obtain ⟨t, v, h, _⟩ := parSpec_ok hp
          rw [hf, ho] at h; simp at h
      | some tv =>
        obtain ⟨t, v⟩ := tv
        rw [← hf] at ho
        rw [parSpec_of_parOk 0 ho]
        obtain ⟨_, _, ho', hfr, _⟩ := parSpec_ok (parSpec_of_parOk 0 ho)
        rw [ho] at ho'; simp only [Option.some.injEq, Prod.mk.injEq] at ho'; obtain ⟨rfl, rfl⟩ := ho'
        simp only [ifOk, Span.sub_inputLen]
        rw [failTake_prefix inp ('{' :: t ++ ['}']) v _ _ (by rw [hfr]; simp) (by simp; omega)]
    · exact absurd rfl (hh '\\' (by simp [hf])).2.1
    · have hu := (h1 .alternationInOptional '/' rfl).resolve_right (by decide)
      simp [hu]

theorem paramOpt_eq (fuel : Nat) :
    (∀ (s : Span) (n : Nat), openers s.frag < fuel → parameterF fuel s n = parSpec s n) ∧
    (∀ (s : Span), openers s.frag < fuel → optionalF fuel s = optSpec s) := by
  induction fuel with
  | zero => simp
  | succ fuel ih =>
    obtain ⟨ihp, iho⟩ := ih
    constructor
    · intro s n hfuel
      unfold parameterF parSpec
      by_cases hh : s.frag.head? = some '{'
      · obtain ⟨r, hf⟩ : ∃ r, s.frag = '{' :: r := by
          cases hq : s.frag with
          | nil => rw [hq] at hh; simp at hh
          | cons x y => rw [hq] at hh; simp at hh; exact ⟨y, by rw [hh]⟩
        rw [tag1_cons '{' r s hf, hf]
        simp only [escapedReservedChars0_eq isName (by decide), Span.sub_frag]
        cases he : escOut (s.sub ['{'] r) (erun isName r).1 (erun isName r).2 with
        | error e => simp
        | ok a =>
          obtain ⟨rfl, hb⟩ := escOut_ok he
          simp only [Span.sub_sub, Span.sub_frag, mapErr]
          have hop : openers (erun isName r).2 < fuel := by
            have := openers_erun_le isName r
            rw [hf] at hfuel
            simp [openers] at hfuel this ⊢
            omega
          by_cases hcl : (erun isName r).2.head? = some '}'
          · obtain ⟨w, hw⟩ : ∃ w, (erun isName r).2 = '}' :: w := by
              cases hq : (erun isName r).2 with
              | nil => rw [hq] at hcl; simp at hcl
              | cons x y => rw [hq] at hcl; simp at hcl; exact ⟨y, by rw [hcl]⟩
            rw [tag1_cons '}' w _ (by simp [hw])]
            simp only [hw, Span.sub_sub]
            simp
          · rw [tag1_ne '}' _ (by simpa using hcl)]
            rw [parameterFail_eq]
            · simp only []
              split
              next v hv => rw [hv] at hcl; simp at hcl
              simp
            · intro _ m; exact ihp _ m (by simpa using hop)
            · intro _; exact iho _ (by simpa using hop)
            · intro c hc
              simp only [Span.sub_frag] at hc
              cases hq : (erun isName r).2 with
              | nil => rw [hq] at hc; simp at hc
              | cons x y =>
                have hx := erun_rest_head isName r x y hq
                rw [hq] at hc hb hcl; simp at hc hb hcl; subst hc
                exact ⟨hx.1 hb, hb, hcl⟩
      · rw [tag1_ne '{' s hh]
        simp only []
        split
        next r hf => rw [hf] at hh; simp at hh
        simp
    · intro s hfuel
      unfold optionalF optSpec
      by_cases hh : s.frag.head? = some '('
      · obtain ⟨r, hf⟩ : ∃ r, s.frag = '(' :: r := by
          cases hq : s.frag with
          | nil => rw [hq] at hh; simp at hh
          | cons x y => rw [hq] at hh; simp at hh; exact ⟨y, by rw [hh]⟩
        rw [tag1_cons '(' r s hf, hf]
        simp only [escapedReservedChars0_eq isInOptional (by decide), Span.sub_frag]
        cases he : escOut (s.sub ['('] r) (erun isInOptional r).1 (erun isInOptional r).2 with
        | error e => simp
        | ok a =>
          obtain ⟨rfl, hb⟩ := escOut_ok he
          simp only [Span.sub_sub, Span.sub_frag, mapErr]
          have hop : openers (erun isInOptional r).2 < fuel := by
            have := openers_erun_le isInOptional r
            rw [hf] at hfuel
            simp [openers] at hfuel this ⊢
            omega
          have happ := erun_append isInOptional r
          by_cases hcl : (erun isInOptional r).2.head? = some ')'
          · obtain ⟨w, hw⟩ : ∃ w, (erun isInOptional r).2 = ')' :: w := by
              cases hq : (erun isInOptional r).2 with
              | nil => rw [hq] at hcl; simp at hcl
              | cons x y => rw [hq] at hcl; simp at hcl; exact ⟨y, by rw [hcl]⟩
            rw [tag1_cons ')' w _ (by simp [hw])]
            simp only [hw, Span.sub_sub, Span.sub_inputLen, blen_eq_zero]
            by_cases ht : (erun isInOptional r).1 = []
            · rw [if_pos ht, if_pos ht]
              rw [failTake_prefix s ['(', ')'] w _ 2 (by rw [hf, ← happ, hw, ht]; simp) (by decide)]
            · rw [if_neg ht, if_neg ht]; simp
          · rw [tag1_ne ')' _ (by simpa using hcl)]
            rw [optionalFail_eq]
            · simp only []
              split
              next v hv => rw [hv] at hcl; simp at hcl
              simp
            · intro _ m; exact ihp _ m (by simpa using hop)
            · intro _; exact iho _ (by simpa using hop)
            · intro c hc
              simp only [Span.sub_frag] at hc
              cases hq : (erun isInOptional r).2 with
              | nil => rw [hq] at hc; simp at hc
              | cons x y =>
                have hx := erun_rest_head isInOptional r x y hq
                rw [hq] at hc hb hcl; simp at hc hb hcl; subst hc
                exact ⟨hx.1 hb, hb, hcl⟩
      · rw [tag1_ne '(' s hh]
        simp only []
        split
        next r hf => rw [hf] at hh; simp at hh
        simp

theorem parameter_eq (s : Span) (n : Nat) : parameter s n = parSpec s n :=
  (paramOpt_eq _).1 s n (Nat.lt_succ_of_le (openers_le_blen _))

theorem optional_eq (s : Span) : optional s = optSpec s :=
  (paramOpt_eq _).2 s (Nat.lt_succ_of_le (openers_le_blen _))

end CE
