import Verif.Proof.Custom
import Verif.Proof.Compose

/-!
# Expansion with custom parameters: C25, C30, C31, C34, C35, C36

`parseHir` stands for `regex_syntax::Parser::parse` and is arbitrary.
-/

namespace CE
open Spec Regex

variable (parseHir : List Char → Option Hir) (pars : Provider)

/-! ## C31 -/

/-- C31: a map with pairwise distinct keys answers with the value under the parameter's source text, if any. -/
theorem C31_lookup (entries : List (List Char × List Char)) (hn : (entries.map (·.1)).Nodup) (sp : Span) (v : List Char) :
    hashMapProvider entries sp = some v ↔ (sp.frag, v) ∈ entries := by
  induction entries with
  | nil => simp [hashMapProvider]
  | cons kv es ih =>
    obtain ⟨k, w⟩ := kv
    rw [List.map_cons, List.nodup_cons] at hn
    have ih := ih hn.2
    unfold hashMapProvider at ih ⊢
    rw [List.findSome?_cons]
    by_cases hk : k = sp.frag
    · subst hk
      simp only [if_true]
      constructor
      · intro h; cases h; simp
      · intro h
        rcases List.mem_cons.1 h with h | h
        · rw [Prod.mk.injEq] at h; rw [h.2]
        · exact absurd (List.mem_map.2 ⟨_, h, rfl⟩) hn.1
    · simp only [if_neg hk]
      rw [ih]
      constructor
      · intro h; exact List.mem_cons_of_mem _ h
      · intro h
        rcases List.mem_cons.1 h with h | h
        · rw [Prod.mk.injEq] at h; exact absurd h.1.symm hk
        · exact h

/-- C31: the iteration order does not matter. -/
theorem C31_order (es es' : List (List Char × List Char)) (hp : es.Perm es') (hn : (es.map (·.1)).Nodup) :
    hashMapProvider es = hashMapProvider es' := by
  have hn' : (es'.map (·.1)).Nodup := (hp.map _).nodup_iff.1 hn
  funext sp
  apply Option.ext
  intro v
  rw [C31_lookup es hn, C31_lookup es' hn', hp.mem_iff]

/-- C31: hence neither does the outcome of expanding any expression. -/
theorem C31_expansion (es es' : List (List Char × List Char)) (hp : es.Perm es') (hn : (es.map (·.1)).Nodup)
    (src : List Char) : Expression.regexWithParameters parseHir (hashMapProvider es) src =
      Expression.regexWithParameters parseHir (hashMapProvider es') src := by rw [C31_order es es' hp hn]

example : hashMapProvider [("a".toList, "x".toList), ("b".toList, "y".toList)] ⟨3, 1, "b".toList⟩ = some "y".toList := by decide

/-! ## C30 -/

/-- C30: where the provider knows none of the parameters, the outcome is that without a provider. -/
theorem C30_fallback (src : List Char)
    (h : ∀ e, Expression.parse src = .ok e → ∀ p ∈ params e, pars p.input = none) :
    Expression.regexWithParameters parseHir pars src = Expression.regex src := by
  cases hp : Expression.parse src with
  | ok e =>
    rw [regexWith_eq parseHir pars hp, regex_eq hp, seqPat_congr (qr := builtinRes) (fun p hm => by
      simp only [customRes, h e hp p hm])]
  | err x => simp [Expression.regexWithParameters, Expression.regex, hp]
  | panic => simp [Expression.regexWithParameters, Expression.regex, hp]
  | diverge => simp [Expression.regexWithParameters, Expression.regex, hp]

/-- C30: the outcome depends only on what the provider says about the parameters that occur. -/
theorem C30_local (pars' : Provider) (src : List Char)
    (h : ∀ e, Expression.parse src = .ok e → ∀ p ∈ params e, pars p.input = pars' p.input) :
    Expression.regexWithParameters parseHir pars src = Expression.regexWithParameters parseHir pars' src := by
  cases hp : Expression.parse src with
  | ok e =>
    rw [regexWith_eq parseHir pars hp, regexWith_eq parseHir pars' hp,
      seqPat_congr (qr := customRes parseHir pars') (fun p hm => by simp only [customRes, h e hp p hm])]
  | err x => simp [Expression.regexWithParameters, hp]
  | panic => simp [Expression.regexWithParameters, hp]
  | diverge => simp [Expression.regexWithParameters, hp]

/-- What a parameter the provider knows expands to: a function of its regex and its id alone. -/
def customPattern (id : Nat) (v : List Char) : List Char :=
  match (if '(' ∈ v then parseHir v else none) with
  | some h => if h.outerGroup then enclosed (h.renameCaptureGroups id).print else ['('] ++ v ++ [')']
  | none => ['('] ++ v ++ [')']

/-- C30: parameters the provider knows are expanded from its regex, even if they are built in; the others are expanded as
built in; all other elements as without a provider. -/
theorem C30_precedence (src : List Char) (e : Expression) (h : Expression.parse src = .ok e) (c : Compiled)
    (hc : Expression.regexWithParameters parseHir pars src = .ok c) (pat : Parameter → List Char)
    (hcustom : ∀ p v, pars p.input = some v → pat p = customPattern parseHir p.id v)
    (hbuiltin : ∀ p (b : Builtin), pars p.input = none → p.input.frag = b.name → pat p = b.pattern p.id) :
    c.pattern = ['^'] ++ e.flatMap (elementPattern pat) ++ ['$'] ∧
    ∀ p ∈ params e, pars p.input = none → IsBuiltin p := by
  rw [regexWith_eq parseHir pars h] at hc
  cases hs : seqPat (customRes parseHir pars) e with
  | error x => rw [hs] at hc; cases hc
  | ok cs =>
    have hok := seqPat_isOk hs
    have hb : ∀ p ∈ params e, pars p.input = none → IsBuiltin p := by
      intro p hp hn
      obtain ⟨q, hq⟩ := hok p hp
      simp only [customRes, hn, builtinRes] at hq
      cases hb : builtinNamed p.input.frag with
      | none => rw [hb] at hq; cases hq
      | some b => exact ⟨b, builtinNamed_some.1 hb⟩
    have h2 := seqPat_ok (pr := customRes parseHir pars) (pp := pat) (e := e) (by
      intro p hp
      obtain ⟨q, hq⟩ := hok p hp
      cases hv : pars p.input with
      | none =>
        obtain ⟨b, hn⟩ := hb p hp hv
        simp only [customRes, hv, builtinRes, builtinNamed_some.2 hn, hbuiltin p b hv hn, builtinPat_eq]
      | some v =>
        rw [hcustom p v hv]
        simp only [customRes, hv, valueRes, customPattern] at hq ⊢
        by_cases hpar : '(' ∈ v
        · rw [if_pos hpar] at hq ⊢; rw [if_pos hpar]
          cases hh : parseHir v with
          | none => rw [hh] at hq; cases hq
          | some hir =>
            simp only []
            have e1 : "(?:".toList = ['(', '?', ':'] := by decide
            split <;> simp [enclosed, e1]
        · rw [if_neg hpar, if_neg hpar]; rfl)
    rw [hs] at h2 hc
    cases h2
    refine ⟨?_, hb⟩
    simp only [compileRes] at hc
    split at hc
    · cases hc
    · cases hc
      show ['^'] ++ exprPat pat e ++ ['$'] = _
      rw [exprPat_eq h]

/-- Non-vacuity: `int` redefined, `word` built in. -/
example : ∃ c, Expression.regexWithParameters (fun _ => none) (hashMapProvider [("int".toList, "a|b".toList)])
    "{int} {word}".toList = .ok c ∧ c.pattern = "^(a|b) ([^\\s]+)$".toList := ⟨_, rfl, by decide⟩

/-! ## C34 -/

/-- C34: a custom regex in which no parenthesis opens, or which has no capture group outside repetitions, expands to itself in
parentheses. -/
theorem C34_parenthesised (src : List Char) (e : Expression) (h : Expression.parse src = .ok e) (c : Compiled)
    (hc : Expression.regexWithParameters parseHir pars src = .ok c) (l r : Expression) (p : Parameter)
    (he : e = l ++ .parameter p :: r) (v : List Char) (hv : pars p.input = some v)
    (hg : '(' ∉ v ∨ ∃ hir, parseHir v = some hir ∧ hir.outerGroup = false) :
    ∃ pat, c.pattern = ['^'] ++ l.flatMap (elementPattern pat) ++ (['('] ++ v ++ [')']) ++
      r.flatMap (elementPattern pat) ++ ['$'] := by
  let pat : Parameter → List Char := fun p => match pars p.input with
    | some v => customPattern parseHir p.id v
    | none => match builtinNamed p.input.frag with
      | some b => b.pattern p.id
      | none => []
  have := (C30_precedence parseHir pars src e h c hc pat (fun p v hv => by simp only [pat, hv])
    (fun p b hn hb => by simp only [pat, hn, builtinNamed_some.2 hb])).1
  refine ⟨pat, ?_⟩
  rw [this, he]
  have hp : pat p = ['('] ++ v ++ [')'] := by
    simp only [pat, hv, customPattern]
    rcases hg with hg | ⟨hir, h1, h2⟩
    · rw [if_neg hg]
    · by_cases hpar : '(' ∈ v
      · rw [if_pos hpar, h1]; simp [h2]
      · rw [if_neg hpar]
  simp [elementPattern, hp]

example : ∃ c, Expression.regexWithParameters (fun _ => some (.repetition 0 none true (.capture 1 none (.literal ['x']))))
    (hashMapProvider [("a".toList, "(x)*".toList), ("b".toList, "x|y".toList)])
    "{a} {b}".toList = .ok c ∧ c.pattern = "^((x)*) (x|y)$".toList := ⟨_, rfl, by decide⟩

/-! ## C25 -/

/-- The parameter can be expanded. -/
def Known (p : Parameter) : Prop :=
  match pars p.input with
  | none => IsBuiltin p
  | some v => '(' ∈ v → parseHir v ≠ none

/-- C25: with a provider, expansion fails iff some parameter is neither custom nor built in or has a custom regex with
parentheses that does not parse; and then the leftmost such parameter is reported. -/
theorem C25_with_parameters (src : List Char) (x : ParameterError) :
    Expression.regexWithParameters parseHir pars src = .err (.expansion x) ↔
    ∃ e ps p qs, Expression.parse src = .ok e ∧ params e = ps ++ p :: qs ∧ (∀ q ∈ ps, Known parseHir pars q) ∧
      ((pars p.input = none ∧ ¬ IsBuiltin p ∧ x = .notFound p.input) ∨
       ∃ v, pars p.input = some v ∧ '(' ∈ v ∧ parseHir v = none ∧ x = .renameRegexGroup p.input v) := by
  have hk : ∀ p, (∃ cs, customRes parseHir pars p = .ok cs) ↔ Known parseHir pars p := by
    intro p
    unfold customRes Known
    cases hv : pars p.input with
    | none =>
      unfold builtinRes
      cases hb : builtinNamed p.input.frag with
      | none => simpa [IsBuiltin] using builtinNamed_none.1 hb
      | some b => simpa using ⟨b, builtinNamed_some.1 hb⟩
    | some v =>
      simp only [valueRes]
      by_cases hp : '(' ∈ v
      · rw [if_pos hp]
        cases hh : parseHir v with
        | none => simpa using hp
        | some hir => simp only []; split <;> simp
      · rw [if_neg hp]; simp [hp]
  have her : ∀ p x, customRes parseHir pars p = .error x ↔ (pars p.input = none ∧ ¬ IsBuiltin p ∧ x = .notFound p.input) ∨
       ∃ v, pars p.input = some v ∧ '(' ∈ v ∧ parseHir v = none ∧ x = .renameRegexGroup p.input v := by
    intro p x
    unfold customRes
    cases hv : pars p.input with
    | none =>
      unfold builtinRes
      cases hb : builtinNamed p.input.frag with
      | none =>
        have : ¬ IsBuiltin p := fun ⟨b, h⟩ => builtinNamed_none.1 hb b h
        simp [this, eq_comm]
      | some b =>
        have : IsBuiltin p := ⟨b, builtinNamed_some.1 hb⟩
        simp [this]
    | some v =>
      simp only [valueRes]
      by_cases hp : '(' ∈ v
      · rw [if_pos hp]
        cases hh : parseHir v with
        | none => simp [hp, hh, eq_comm]
        | some hir => simp only []; split <;> simp [hh]
      · rw [if_neg hp]; simp [hp]
  cases hp : Expression.parse src with
  | ok e =>
    have h1 : Expression.regexWithParameters parseHir pars src = .err (.expansion x) ↔
        seqPat (customRes parseHir pars) e = .error x := by
      rw [regexWith_eq parseHir pars hp]
      cases hs : seqPat (customRes parseHir pars) e with
      | error y => simp [compileRes]
      | ok cs => simp only [compileRes]; split <;> simp
    rw [h1, seqPat_error]
    constructor
    · rintro ⟨ps, p, qs, h2, h3, h4⟩
      exact ⟨e, ps, p, qs, rfl, h2, fun q hq => (hk q).1 (h3 q hq), (her p x).1 h4⟩
    · rintro ⟨e', ps, p, qs, h0, h2, h3, h4⟩
      cases h0
      exact ⟨ps, p, qs, h2, fun q hq => (hk q).2 (h3 q hq), (her p x).2 h4⟩
  | err y => simp [Expression.regexWithParameters, hp]
  | panic => simp [Expression.regexWithParameters, hp]
  | diverge => simp [Expression.regexWithParameters, hp]

example : Expression.regexWithParameters (fun _ => none)
    (hashMapProvider [("a".toList, "x".toList), ("b".toList, "(".toList)]) "{a} {b} {c}".toList =
    .err (.expansion (.renameRegexGroup ⟨5, 1, "b".toList⟩ "(".toList)) := rfl

/-! ## C35 -/

/-- C35: the name of a parameter is the source text between its braces, as written. -/
theorem C35_raw (src : List Char) (e : Expression) (h : Expression.parse src = .ok e) (l r : Expression) (p : Parameter)
    (he : e = l ++ .parameter p :: r) : src = print l ++ '{' :: p.input.frag ++ '}' :: print r := by
  rw [← C01_lossless src e h, he]
  simp [print, printSingle]

/-- C35: a parameter is found in a map exactly under the source text between its braces. -/
theorem C35_lookup (entries : List (List Char × List Char)) (hn : (entries.map (·.1)).Nodup) (src : List Char) (e : Expression)
    (h : Expression.parse src = .ok e) (l r : Expression) (p : Parameter) (he : e = l ++ .parameter p :: r) :
    ∃ raw, src = print l ++ '{' :: raw ++ '}' :: print r ∧
      ∀ v, hashMapProvider entries p.input = some v ↔ (raw, v) ∈ entries :=
  ⟨p.input.frag, C35_raw src e h l r p he, fun v => C31_lookup entries hn p.input v⟩

/-- C35: a name with a backslash is not found under the unescaped name. -/
theorem C35_escaped (entries : List (List Char × List Char)) (src : List Char) (e : Expression)
    (h : Expression.parse src = .ok e) (p : Parameter) (hp : p ∈ params e) (hb : '\\' ∈ p.input.frag)
    (hk : ∀ k v, (k, v) ∈ entries → '\\' ∉ k) :
    ∃ x, Expression.regexWithParameters parseHir (hashMapProvider entries) src = .err (.expansion x) := by
  have hnone : hashMapProvider entries p.input = none := by
    unfold hashMapProvider
    rw [List.findSome?_eq_none_iff]
    rintro ⟨k, v⟩ hkv
    simp only []
    rw [if_neg]
    rintro rfl
    exact hk _ _ hkv hb
  have hbi : ¬ IsBuiltin p := by
    rintro ⟨b, hn⟩
    rw [hn] at hb
    revert hb
    cases b <;> decide
  rw [regexWith_eq parseHir _ h]
  cases hs : seqPat (customRes parseHir (hashMapProvider entries)) e with
  | error x => exact ⟨x, rfl⟩
  | ok cs =>
    obtain ⟨q, hq⟩ := seqPat_isOk hs p hp
    simp only [customRes, hnone, builtinRes] at hq
    cases hbn : builtinNamed p.input.frag with
    | none => rw [hbn] at hq; cases hq
    | some b => exact absurd ⟨b, builtinNamed_some.1 hbn⟩ hbi

example : Expression.regexWithParameters (fun _ => none) (hashMapProvider [("a/b".toList, "x".toList)])
    "{a\\/b}".toList = .err (.expansion (.notFound ⟨1, 1, "a\\/b".toList⟩)) := rfl
example : ∃ c, Expression.regexWithParameters (fun _ => none) (hashMapProvider [("a\\/b".toList, "x".toList)])
    "{a\\/b}".toList = .ok c := ⟨_, rfl⟩

/-! ## C36 -/

/-- C36 is false: an invalid custom regex can become part of a valid one, by itself or with the help of another, valid or
not. -/
theorem C36_false :
    (Regex.parse "?:x".toList = .error .invalid ∧
      ∃ c, Expression.regexWithParameters (fun _ => none) (hashMapProvider [("a".toList, "?:x".toList)]) "{a}".toList = .ok c) ∧
    (Regex.parse "[".toList = .error .invalid ∧ Regex.parse "]".toList = .ok (.lit ']') ∧
      ∃ c, Expression.regexWithParameters (fun _ => none)
        (hashMapProvider [("a".toList, "[".toList), ("b".toList, "]".toList)]) "{a}{b}".toList = .ok c) ∧
    (Regex.parse "\\".toList = .error .invalid ∧ Regex.parse ")".toList = .error .invalid ∧
      ∃ c, Expression.regexWithParameters (fun _ => none)
        (hashMapProvider [("a".toList, "\\".toList), ("b".toList, ")".toList)]) "{a}{b}".toList = .ok c) :=
  ⟨⟨rfl, _, rfl⟩, ⟨rfl, rfl, _, rfl⟩, ⟨rfl, rfl, _, rfl⟩⟩

/-- C36, the part that holds, for regexes with parentheses: a regex in which a parenthesis opens and which the parser
rejects is never accepted, whatever surrounds it. -/
theorem C36_parens_partial (src : List Char) (e : Expression) (h : Expression.parse src = .ok e) (p : Parameter)
    (hp : p ∈ params e) (v : List Char) (hv : pars p.input = some v) (hpar : '(' ∈ v) (hbad : parseHir v = none) :
    ∃ x, Expression.regexWithParameters parseHir pars src = .err (.expansion x) := by
  rw [regexWith_eq parseHir pars h]
  cases hs : seqPat (customRes parseHir pars) e with
  | error x => exact ⟨x, rfl⟩
  | ok cs =>
    obtain ⟨q, hq⟩ := seqPat_isOk hs p hp
    simp only [customRes, hv, valueRes, if_pos hpar, hbad] at hq
    cases hq

end CE
