import Verif.Spec.Size
import Verif.Model.Meter
import Verif.Prop.Expand
import Verif.Prop.Iter

/-! # C70: the size of the pattern, and the work of its iterators -/

namespace CE
open Spec

/-! ## The size of the pattern -/

theorem literal_length_le (t : List Char) : (literal t).length ≤ 2 * t.length := by
  have h1 := quoteAll_length_le (unescape t)
  have h2 := unescape_length_le t
  have h3 : literal t = quoteAll (unescape t) := by simp [literal, quoteAll, List.flatMap]
  rw [h3]; omega

theorem alternativePattern_length (a : Alternative) :
    (alternativePattern a).length ≤ 3 * (printAlternative a).length := by
  cases a with
  | text t => have := literal_length_le t.frag; simp only [alternativePattern, printAlternative]; omega
  | optional o =>
    have := literal_length_le o.input.frag
    have h3 : "(?:".toList.length = 3 := rfl
    simp only [alternativePattern, printAlternative, enclosed, List.length_append, List.length_cons, List.length_nil, h3]
    omega

theorem branchPattern_length (b : SingleAlternation) :
    (b.flatMap alternativePattern).length ≤ 3 * (b.flatMap printAlternative).length := by
  induction b with
  | nil => simp
  | cons a b ih =>
    have := alternativePattern_length a
    simp only [List.flatMap_cons, List.length_append]; omega

theorem barred_length (a : Alternation) :
    (['|'].intercalate (a.map (·.flatMap alternativePattern))).length ≤
      3 * (['/'].intercalate (a.map (fun b => b.flatMap printAlternative))).length := by
  induction a with
  | nil => simp [List.intercalate]
  | cons b a ih =>
    have hb := branchPattern_length b
    cases a with
    | nil => simpa [List.intercalate] using hb
    | cons b' a =>
      simp only [List.map_cons, List.intercalate, List.intersperse_cons_cons, List.flatten_cons, List.length_append,
        List.length_cons, List.length_nil] at ih ⊢
      omega

theorem printAlternation_pos (a : Alternation) (h : 2 ≤ a.length) : 1 ≤ (printSingle (.alternation a)).length := by
  match a, h with
  | b :: b' :: a, _ =>
    simp only [printSingle, List.map_cons, List.intercalate, List.intersperse_cons_cons, List.flatten_cons,
      List.length_append, List.length_cons, List.length_nil]
    omega

theorem string_pattern_length (id : Nat) : (Builtin.string.pattern id).length = 71 + 2 * (decimal id).length + 2 := by
  have h1 : ("(?:\"(?P<".toList : List Char).length = 8 := by decide
  have h2 : (">[^\"\\\\]*(?:\\\\.[^\"\\\\]*)*)\"|'(?P<".toList : List Char).length = 31 := by decide
  have h3 : (">[^'\\\\]*(?:\\\\.[^'\\\\]*)*)')".toList : List Char).length = 26 := by decide
  have h5 : (decimal 0).length = 1 := by decide
  have h6 : (decimal 1).length = 1 := by decide
  unfold Builtin.pattern groupName
  rewrite [List.length_append, List.length_append, List.length_append, List.length_append, h1, h2, h3]
  rewrite [List.length_append, List.length_append, List.length_append, List.length_append, List.length_append,
    List.length_append, h5, h6]
  generalize (decimal id).length = n
  simp only [List.length_cons, List.length_nil]
  omega

theorem _root_.CE.Spec.Builtin.pattern_length (b : Builtin) (id : Nat) :
    (b.pattern id).length ≤ 10 * (b.name.length + 2) +
      if b.name = "string".toList then 2 * (decimal id).length else 0 := by
  cases b with
  | string =>
    have h4 : (Builtin.string.name).length = 6 := by decide
    rewrite [if_pos (show Builtin.string.name = "string".toList by decide), h4, string_pattern_length]
    generalize (decimal id).length = n
    omega
  | int =>
    rw [if_neg (by decide)]
    exact (by decide : (Builtin.pattern .int 0).length ≤ 10 * ((Builtin.name .int).length + 2) + 0)
  | float =>
    rw [if_neg (by decide)]
    exact (by decide : (Builtin.pattern .float 0).length ≤ 10 * ((Builtin.name .float).length + 2) + 0)
  | word =>
    rw [if_neg (by decide)]
    exact (by decide : (Builtin.pattern .word 0).length ≤ 10 * ((Builtin.name .word).length + 2) + 0)
  | anonymous =>
    rw [if_neg (by decide)]
    exact (by decide : (Builtin.pattern .anonymous 0).length ≤ 10 * ((Builtin.name .anonymous).length + 2) + 0)

theorem pattern_length_aux (pat : Parameter → List Char) (e : Expression)
    (hpat : ∀ p, SingleExpression.parameter p ∈ e → ∃ b : Builtin, p.input.frag = b.name ∧ pat p = b.pattern p.id)
    (halt : ∀ a, SingleExpression.alternation a ∈ e → 2 ≤ a.length) :
    (e.flatMap (elementPattern pat)).length ≤ 10 * (print e).length + idDigits e := by
  induction e with
  | nil => simp
  | cons x e ih =>
    have ih := ih (fun p hp => hpat p (List.mem_cons_of_mem _ hp)) (fun a ha => halt a (List.mem_cons_of_mem _ ha))
    have hx : (elementPattern pat x).length ≤ 10 * (printSingle x).length + idDigits [x] := by
      cases x with
      | text t => have := literal_length_le t.frag; simp only [elementPattern, printSingle]; omega
      | whitespaces t => simp only [elementPattern, printSingle]; omega
      | optional o =>
        have := alternativePattern_length (.optional o)
        simp only [alternativePattern, printAlternative] at this
        simp only [elementPattern, printSingle]; omega
      | alternation a =>
        have h1 := barred_length a
        have h2 := printAlternation_pos a (halt a (List.mem_cons_self ..))
        have h3 : "(?:".toList.length = 3 := rfl
        simp only [elementPattern, printSingle, enclosed, List.length_append, List.length_cons, List.length_nil, h3] at *
        omega
      | parameter p =>
        obtain ⟨b, hb, hp⟩ := hpat p (List.mem_cons_self ..)
        have := b.pattern_length p.id
        simp only [elementPattern, printSingle, hp, hb, idDigits, List.map_cons, List.map_nil, List.sum_cons, List.sum_nil,
          List.length_append, List.length_cons, List.length_nil]
        omega
    have hs : idDigits (x :: e) = idDigits [x] + idDigits e := by simp [idDigits]
    rw [hs]
    simp only [print, List.flatMap_cons, List.length_append] at *
    omega

/-- C70: with built-in parameters, the pattern is at most ten times as long as the expression, not counting `^`, `$` and
the numbers in the group names of `{string}` parameters. -/
theorem C70_pattern (src : List Char) (e : Expression) (h : Expression.parse src = .ok e) (hb : AllBuiltin e)
    (c : Compiled) (hc : Expression.regex src = .ok c) :
    c.pattern.length ≤ 10 * src.length + 2 + idDigits e := by
  obtain ⟨c', h1, h2⟩ := C42_pattern src e h hb
  rw [hc] at h1
  cases h1
  have hpat : ∃ pat : Parameter → List Char, ∀ p (b : Builtin), p.input.frag = b.name → pat p = b.pattern p.id :=
    ⟨fun p => match builtinNamed p.input.frag with | some b => b.pattern p.id | none => [],
      fun p b hn => by simp [builtinNamed_some.2 hn]⟩
  obtain ⟨pat, hpat⟩ := hpat
  rw [h2 pat hpat]
  have h3 := pattern_length_aux pat e
    (fun p hp => by obtain ⟨b, hn⟩ := hb p hp; exact ⟨b, hn, hpat p b hn⟩)
    (fun a ha => by
      have hv := (C06_parse_then_print src e h).1.1 _ (List.mem_map_of_mem (f := eraseSingle) ha)
      have := hv.1
      simpa using this)
  rw [C01_lossless src e h] at h3
  simp only [List.length_append, List.length_cons, List.length_nil]
  omega

theorem idDigits_le (k : Nat) (e : Expression) (h : ∀ i ∈ ids e, (decimal i).length ≤ k) :
    idDigits e ≤ 2 * k * (ids e).length := by
  induction e with
  | nil => simp [idDigits]
  | cons x e ih =>
    have hs : idDigits (x :: e) = idDigits [x] + idDigits e := by simp [idDigits]
    have hi : ids (x :: e) = ids [x] ++ ids e := by simp [ids]
    rw [hi] at h
    have ih := ih fun i hi => h i (List.mem_append_right _ hi)
    have hx : idDigits [x] ≤ 2 * k * (ids [x]).length := by
      cases x with
      | parameter p =>
        have := h p.id (List.mem_append_left _ (by simp [ids, singleIds]))
        simp only [idDigits, List.map_cons, List.map_nil, List.sum_cons, List.sum_nil, ids, List.flatMap_cons,
          List.flatMap_nil, singleIds, List.append_nil, List.length_cons, List.length_nil]
        split <;> omega
      | _ => simp [idDigits]
    rw [hs, hi, List.length_append, Nat.mul_add]
    omega

/-- C70: with at most `10 ^ k` parameters, these numbers take at most `2 * k` characters for each. -/
theorem C70_ids (src : List Char) (e : Expression) (h : Expression.parse src = .ok e) (k : Nat) (hk : 0 < k)
    (hn : (ids e).length ≤ 10 ^ k) : idDigits e ≤ 2 * k * (ids e).length := by
  refine idDigits_le k e fun i hi => ?_
  rw [C03_ids src e h] at hi
  exact (Nat.length_toDigits_le_iff (by decide) hk).2 (by have := List.mem_range.1 hi; omega)

/-! ## The work of `OwnedChars` -/

theorem nthPassed_eq (cs : List Char) (k : Nat) : nthPassed cs k = (cs[k]?, min (k + 1) cs.length) := by
  induction cs generalizing k with
  | nil => simp [nthPassed]
  | cons c cs ih =>
    cases k with
    | zero => simp [nthPassed]
    | succ k => simp [nthPassed, ih]

/-- C70: counting does not change what `OwnedChars` yields. -/
theorem C70_same (s : OwnedChars) : OwnedChars.next s = some s.nextPassed.1 := by
  unfold OwnedChars.next OwnedChars.nextPassed
  rw [nthPassed_eq]
  cases s.str[s.cur]? <;> rfl

theorem drainPassed_from (str : List Char) (k cur : Nat) (h : cur + k = str.length) :
    ∃ n, OwnedChars.drainPassed (k + 1) ⟨str, cur⟩ = some (str.drop cur, n) ∧
      2 * n = 2 * k * cur + k * (k + 1) + 2 * str.length := by
  induction k generalizing cur with
  | zero =>
    refine ⟨str.length, ?_, by simp⟩
    have h1 : str[cur]? = none := by simp; omega
    have h2 : str.drop cur = [] := by simp; omega
    have h3 : min (cur + 1) str.length = str.length := by omega
    simp [OwnedChars.drainPassed, OwnedChars.nextPassed, nthPassed_eq, h1, h2, h3]
  | succ k ih =>
    obtain ⟨n, h1, h2⟩ := ih (cur + 1) (by omega)
    have hlt : cur < str.length := by omega
    refine ⟨cur + 1 + n, ?_, ?_⟩
    · have h3 : min (cur + 1) str.length = cur + 1 := by omega
      rw [OwnedChars.drainPassed]
      simp only [OwnedChars.nextPassed, nthPassed_eq, List.getElem?_eq_getElem hlt, h3, h1, Option.map_some]
      rw [List.drop_eq_getElem_cons hlt]
    · have e1 : 2 * (k + 1) * cur = 2 * k * cur + 2 * cur := by
        rw [Nat.mul_add, Nat.add_mul]
      have e2 : 2 * k * (cur + 1) = 2 * k * cur + 2 * k := by rw [Nat.mul_add, Nat.mul_one]
      have e3 : (k + 1) * (k + 1 + 1) = k * (k + 1) + 2 * (k + 1) := by
        rw [Nat.mul_add (k + 1) (k + 1) 1, Nat.mul_one, Nat.add_mul k 1 (k + 1)]; omega
      omega

/-- C70: reading a string of `n` characters to its end goes past `n (n + 1) / 2 + n` characters: the work of inserting a
custom expression with groups grows with the square of its length. -/
theorem C70_quadratic (str : List Char) :
    ∃ n, OwnedChars.drainPassed (str.length + 1) (OwnedChars.new str) = some (str, n) ∧
      2 * n = str.length * (str.length + 1) + 2 * str.length := by
  obtain ⟨n, h1, h2⟩ := drainPassed_from str str.length 0 (by simp)
  exact ⟨n, by simpa [OwnedChars.new] using h1, by simpa using h2⟩

/-! ## Concrete cases -/

example : ∃ e c, Expression.parse "a(b) {string}".toList = .ok e ∧ AllBuiltin e ∧
    Expression.regex "a(b) {string}".toList = .ok c ∧ c.pattern.length = 85 ∧ idDigits e = 2 := by
  refine ⟨_, _, rfl, ?_, rfl, ?_, ?_⟩
  · intro p hp
    simp at hp
    exact ⟨.string, by rw [hp]; rfl⟩
  · decide
  · decide

example : OwnedChars.drainPassed 4 (OwnedChars.new "abc".toList) = some ("abc".toList, 9) := rfl

end CE
