import Verif.Proof.Adapters

/-! # The iterators of the expansion, and when a provider is asked (C60) -/

namespace CE
open Spec Iter

variable {S : Type}

/-- C60, without custom parameters: the iterator of an element of any kind (parsed or built by hand) yields the pattern
of the element, character by character, has no effects, and returns `None` forever afterwards; an unknown parameter
yields its error and the items after it are still yielded. -/
theorem C60_iterators :
    (∀ o : Optional, Emits (optNext : NextS S _ Item) (optNew o) (oks (enclosed (literal o.input.frag) ++ ['?']))) ∧
    (∀ a : Alternative, Emits (altvNext : NextS S _ Item) (altvNew a) (oks (alternativePattern a))) ∧
    (∀ a : Alternation, Emits (altNext : NextS S _ Item) (altNew a) (oks (plainPattern (.alternation a)))) ∧
    (∀ p : Parameter, Emits (parNext : NextS S _ Item) (parNew p) (answered (fun _ => none) p none)) ∧
    (∀ el : SingleExpression, Emits (singleNext : NextS S _ Item) (singleNew el)
      (itemsOf (fun _ => none) (fun _ => none) el)) ∧
    (∀ e : Expression, Emits (exprNext : NextS S _ Item) (exprNew e)
      ([.ok '^'] ++ e.flatMap (itemsOf (fun _ => none) (fun _ => none)) ++ [.ok '$'])) := by
  refine ⟨emits_opt, emits_altv, emits_alt, emits_par (fun _ => none), fun el => ?_, emits_expr (fun _ => none)⟩
  by_cases hp : ∃ p, el = .parameter p
  · obtain ⟨p, rfl⟩ := hp; exact emits_singlePar (fun _ => none) p
  · have h : ∀ p, el ≠ .parameter p := fun p hp' => hp ⟨p, hp'⟩
    rw [itemsOf_other _ _ h]
    exact emits_single el h

/-- C60: these are the items of the model with lists, on which the other theorems are built. -/
theorem C60_lists (parseHir : List Char → Option Hir) (pr : Provider) (e : Expression) :
    e.chars = some ([.ok '^'] ++ e.flatMap (itemsOf (fun _ => none) (fun _ => none)) ++ [.ok '$']) ∧
    WithCustom.chars parseHir pr e = some ([.ok '^'] ++ e.flatMap (itemsOf parseHir pr) ++ [.ok '$']) :=
  ⟨chars_itemsOf _ e, withChars_eq parseHir pr e⟩

variable {P : Type} (parseHir : List Char → Option Hir) (get : P → Span → S → Option (List Char) × S)

/-- C60, with custom parameters: making the iterator asks for nothing; while it is stepped, the provider is asked once
for each parameter, in order, by the call of `next` that returns the first item of the parameter; the answer given then
is the one that is used; and after the end nothing happens. -/
theorem C60_trace (e : Expression) (pars : P) (st : S) :
    Traces (exprWithNext parseHir get) (exprWithNew e pars) st
      ([(.ok '^', st)] ++ (trace parseHir get pars e st).1 ++ [(.ok '$', (trace parseHir get pars e st).2)])
      (trace parseHir get pars e st).2 :=
  traces_exprWith parseHir get pars e st

/-- C60: `regex_with_parameters` asks for one parameter after another, each once, and stops at the first that fails; if
the expression does not parse, nothing is asked. (`N`: the iterator ends.) -/
theorem C60_lookups (input : List Char) (pars : P) (st : S) : ∃ N, ∀ fuel, N ≤ fuel →
    Iter.regexWithParameters parseHir get fuel input pars st =
      match Expression.parse input with
      | .err x => (.err (.parsing x), st)
      | .panic => (.panic, st)
      | .diverge => (.diverge, st)
      | .ok e =>
        match askAll parseHir get pars e st with
        | (.error x, st') => (.err (.expansion x), st')
        | (.ok cs, st') =>
          match Regex.parse ('^' :: cs ++ ['$']) with
          | .error x => (.err (.regex x), st')
          | .ok r => (.ok ⟨'^' :: cs ++ ['$'], r⟩, st') := by
  cases hp : Expression.parse input with
  | ok e =>
    refine ⟨(((.ok '^', st) :: (trace parseHir get pars e st).1) ++
      [((.ok '$' : Item), (trace parseHir get pars e st).2)]).length + 1, fun fuel hf => ?_⟩
    unfold Iter.regexWithParameters
    simp only [hp]
    rw [collectRes_of_traces (traces_exprWith parseHir get pars e st) fuel hf]
    have h : traceResult (((.ok '^', st) :: (trace parseHir get pars e st).1) ++ [(.ok '$', (trace parseHir get pars e st).2)])
        (trace parseHir get pars e st).2 =
        match askAll parseHir get pars e st with
        | (.error x, st') => (.error x, st')
        | (.ok cs, st') => (.ok ('^' :: cs ++ ['$']), st') := by
      rw [List.cons_append, traceResult, traceResult_append, ← traceResult_trace parseHir get pars e st]
      rcases htr : traceResult (trace parseHir get pars e st).1 (trace parseHir get pars e st).2 with ⟨x | cs, st'⟩
      · rfl
      · rw [traceResult_snd_ok htr]
        rfl
    rw [h]
    rcases askAll parseHir get pars e st with ⟨x | cs, st'⟩
    · rfl
    · simp only
      cases Regex.parse ('^' :: cs ++ ['$']) <;> rfl
  | err x => exact ⟨0, fun fuel _ => by unfold Iter.regexWithParameters; simp only [hp]⟩
  | panic => exact ⟨0, fun fuel _ => by unfold Iter.regexWithParameters; simp only [hp]⟩
  | diverge => exact ⟨0, fun fuel _ => by unfold Iter.regexWithParameters; simp only [hp]⟩

/-- C60: a provider whose answers do not depend on its state gives the outcome of the model without state. -/
theorem C60_stateless (pr : Provider) (input : List Char) (pars : P) (hg : ∀ sp st, (get pars sp st).1 = pr sp) (st : S) :
    ∃ N, ∀ fuel, N ≤ fuel → (Iter.regexWithParameters parseHir get fuel input pars st).1 =
      Expression.regexWithParameters parseHir pr input := by
  obtain ⟨N, hN⟩ := C60_lookups parseHir get input pars st
  refine ⟨N, fun fuel hf => ?_⟩
  rw [hN fuel hf]
  unfold Expression.regexWithParameters
  cases Expression.parse input with
  | ok e =>
    have h : (askAll parseHir get pars e st).1 = collectResult (e.flatMap (itemsOf parseHir pr)) := by
      rw [← traceResult_trace, traceResult_fst, trace_stateless parseHir get pars pr hg]
    simp only [withChars_eq, compile_items, ← h]
    rcases askAll parseHir get pars e st with ⟨x | cs, st'⟩
    · rfl
    · simp only
      cases Regex.parse ('^' :: cs ++ ['$']) <;> rfl
  | err x => rfl
  | panic => rfl
  | diverge => rfl

/-- C60: what a provider is asked for while an expression is expanded: the names of its parameters, in order, each as
often as it is written, up to the first parameter that fails. -/
theorem C60_log (pr : Provider) (input : List Char) : ∃ N, ∀ fuel, N ≤ fuel →
    Iter.regexWithParameters parseHir (logging pr) fuel input () [] =
      (Expression.regexWithParameters parseHir pr input,
        match Expression.parse input with
        | .ok e => (upToFirst (fails parseHir pr) (params e)).map (·.input)
        | _ => []) := by
  obtain ⟨N, hN⟩ := C60_lookups parseHir (logging pr) input () []
  obtain ⟨M, hM⟩ := C60_stateless parseHir (logging pr) pr input () (fun _ _ => rfl) []
  refine ⟨max N M, fun fuel hf => Prod.ext (hM fuel (by omega)) ?_⟩
  rw [hN fuel (by omega)]
  cases Expression.parse input with
  | ok e =>
    have h := askAll_log parseHir pr e []
    simp only [List.nil_append] at h
    simp only
    rw [← h]
    rcases askAll parseHir (logging pr) () e [] with ⟨x | cs, st'⟩
    · rfl
    · simp only
      cases Regex.parse ('^' :: cs ++ ['$']) <;> rfl
  | err x => rfl
  | panic => rfl
  | diverge => rfl

/-- A provider that counts its calls, and answers with a different regex each time. -/
def counting : Unit → Span → Nat → Option (List Char) × Nat := fun _ _ n => (some (decimal n), n + 1)

/-- Non-vacuity: two parameters of the same name get different answers; the state is 3 when `$` is returned. -/
example : collectRes (exprWithNext (fun _ => none) counting) 20
    (exprWithNew [.parameter ⟨⟨1, 1, "a".toList⟩, 0⟩, .text ⟨3, 1, "x".toList⟩, .parameter ⟨⟨5, 1, "a".toList⟩, 1⟩] ()) 1 =
    some (.ok "^(1)x(2)$".toList, 3) := by rfl

/-- Non-vacuity: the second of three parameters fails; the third is not asked for. -/
example : collectRes (exprWithNext (fun _ => none) (logging fun sp => if sp.frag = "a".toList then some "b".toList else none))
    20 (exprWithNew [.parameter ⟨⟨1, 1, "a".toList⟩, 0⟩, .parameter ⟨⟨4, 1, "c".toList⟩, 1⟩,
      .parameter ⟨⟨7, 1, "a".toList⟩, 2⟩] ()) [] =
    some (.error (.notFound ⟨4, 1, "c".toList⟩), [⟨1, 1, "a".toList⟩, ⟨4, 1, "c".toList⟩]) := by rfl

/-- Stepping by hand goes on after the error: the third parameter is then asked for. -/
example : (trace (fun _ => none) (logging fun sp => if sp.frag = "a".toList then some "b".toList else none) ()
    [.parameter ⟨⟨4, 1, "c".toList⟩, 1⟩, .parameter ⟨⟨7, 1, "a".toList⟩, 2⟩] []) =
    ([(.error (.notFound ⟨4, 1, "c".toList⟩), [⟨4, 1, "c".toList⟩]), (.ok '(', [⟨4, 1, "c".toList⟩, ⟨7, 1, "a".toList⟩]),
      (.ok 'b', [⟨4, 1, "c".toList⟩, ⟨7, 1, "a".toList⟩]), (.ok ')', [⟨4, 1, "c".toList⟩, ⟨7, 1, "a".toList⟩])],
      [⟨4, 1, "c".toList⟩, ⟨7, 1, "a".toList⟩]) := by rfl

/-- Non-vacuity of `C60_stateless`: the logging provider; of `C60_log`: an expression that parses. -/
example (pr : Provider) : ∀ sp st, (logging pr () sp st).1 = pr sp := fun _ _ => rfl
example : ∃ e, Expression.parse "a {b}".toList = .ok e ∧ (params e).map (·.input) = [⟨3, 1, "b".toList⟩] :=
  ⟨_, rfl, by decide⟩

end CE
