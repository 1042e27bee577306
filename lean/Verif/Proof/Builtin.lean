import Verif.Proof.RegexParse
import Verif.Proof.RegexSem

/-! # The patterns of the built-in parameters -/

namespace CE.Regex
open CE.Spec

/-- Lexing a fixed pattern, one token at a time. -/
macro "lex_fixed" : tactic =>
  `(tactic| (intro rest; simp only [List.cons_append, List.nil_append];
             repeat (first | rw [lex_cons (by rfl), prep_prep] | rw [lex_cons (by rfl)]);
             try rfl))

def digitCls : Cls := ⟨false, [.perl false .digit]⟩
def reDigits : Re := .rep (.cls digitCls) 1 none true
def reDigits0 : Re := .rep (.cls digitCls) 0 none true
def reSign : Re := .rep (.cls ⟨false, [.single '+', .single '-']⟩) 0 (some 1) true

def intPattern : List Char := "((?:-?\\d+)|(?:\\d+))".toList
def floatPattern : List Char := "([+-]?(?:inf|NaN|(?:\\d+|\\d+\\.\\d*|\\d*\\.\\d+)(?:[eE][+-]?\\d+)?))".toList
def wordPattern : List Char := "([^\\s]+)".toList
def anonPattern : List Char := "(.*)".toList

def intRe : Re := .cap none (.alt (.cat (.rep (.lit '-') 0 (some 1) true) reDigits) reDigits)
def mantissaRe : Re := .alt reDigits (.alt (.cat reDigits (.cat (.lit '.') reDigits0)) (.cat reDigits0 (.cat (.lit '.') reDigits)))
def exponentRe : Re := .rep (.cat (.cls ⟨false, [.single 'e', .single 'E']⟩) (.cat reSign reDigits)) 0 (some 1) true
def floatRe : Re := .cap none (.cat reSign (.alt (.cat (.lit 'i') (.cat (.lit 'n') (.lit 'f')))
  (.alt (.cat (.lit 'N') (.cat (.lit 'a') (.lit 'N'))) (.cat mantissaRe exponentRe))))
def wordRe : Re := .cap none (.rep (.cls ⟨true, [.perl false .space]⟩) 1 none true)
def anonRe : Re := .cap none (.rep .dot 0 none true)

def intToks : List Tok := [.capture none, .group, .lit '-', .quest, .cls digitCls, .plus, .close, .bar, .group, .cls digitCls,
  .plus, .close, .close]

theorem lexes_int : Lexes intPattern intToks := by
  unfold intPattern
  rw [show "((?:-?\\d+)|(?:\\d+))".toList = ['(', '(', '?', ':', '-', '?', '\\', 'd', '+', ')', '|', '(', '?', ':', '\\', 'd',
    '+', ')', ')'] by decide]
  lex_fixed

theorem reads_int : ReadsAs intToks [intRe] := fun _ => ⟨false, fun _ _ _ _ => rfl⟩

def floatToks : List Tok := [.capture none, .cls ⟨false, [.single '+', .single '-']⟩, .quest, .group, .lit 'i', .lit 'n', .lit 'f',
  .bar, .lit 'N', .lit 'a', .lit 'N', .bar, .group, .cls digitCls, .plus, .bar, .cls digitCls, .plus, .lit '.', .cls digitCls,
  .star, .bar, .cls digitCls, .star, .lit '.', .cls digitCls, .plus, .close, .group, .cls ⟨false, [.single 'e', .single 'E']⟩,
  .cls ⟨false, [.single '+', .single '-']⟩, .quest, .cls digitCls, .plus, .close, .quest, .close, .close]

theorem lexes_float : Lexes floatPattern floatToks := by
  unfold floatPattern
  rw [show "([+-]?(?:inf|NaN|(?:\\d+|\\d+\\.\\d*|\\d*\\.\\d+)(?:[eE][+-]?\\d+)?))".toList =
    ['(', '[', '+', '-', ']', '?', '(', '?', ':', 'i', 'n', 'f', '|', 'N', 'a', 'N', '|', '(', '?', ':', '\\',
    'd', '+', '|', '\\', 'd', '+', '\\', '.', '\\', 'd', '*', '|', '\\', 'd', '*', '\\', '.', '\\', 'd', '+',
    ')', '(', '?', ':', '[', 'e', 'E', ']', '[', '+', '-', ']', '?', '\\', 'd', '+', ')', '?', ')', ')'] by decide]
  lex_fixed

theorem reads_float : ReadsAs floatToks [floatRe] := fun _ => ⟨false, fun _ _ _ _ => rfl⟩

def wordToks : List Tok := [.capture none, .cls ⟨true, [.perl false .space]⟩, .plus, .close]

theorem lexes_word : Lexes wordPattern wordToks := by
  unfold wordPattern
  rw [show "([^\\s]+)".toList = ['(', '[', '^', '\\', 's', ']', '+', ')'] by decide]
  lex_fixed

theorem reads_word : ReadsAs wordToks [wordRe] := fun _ => ⟨false, fun _ _ _ _ => rfl⟩

def anonToks : List Tok := [.capture none, .dot, .star, .close]

theorem lexes_anon : Lexes anonPattern anonToks := by
  unfold anonPattern
  rw [show "(.*)".toList = ['(', '.', '*', ')'] by decide]
  lex_fixed

theorem reads_anon : ReadsAs anonToks [anonRe] := fun _ => ⟨false, fun _ _ _ _ => rfl⟩

/-! ## `string` -/

theorem capName_ok : ∀ (ds : List Char) (_ : ∀ c ∈ ds, c.isDigit = true ∨ c = '_') (rest : List Char),
    capName false (ds ++ '>' :: rest) = .ok (ds, rest)
  | [], _, rest => by simp [capName]
  | c :: ds, h, rest => by
    have ih := capName_ok ds (fun d hd => h d (by simp [hd])) rest
    have hc := h c (by simp)
    have h1 : c ≠ '>' := by
      rintro rfl; revert hc; decide
    have h2 : ¬ 128 ≤ c.toNat := by
      rcases hc with hc | rfl
      · simp only [Char.isDigit, Bool.and_eq_true, decide_eq_true_eq, UInt32.le_iff_toNat_le] at hc
        have := hc.2
        simp only [Char.toNat]
        have h9 : '9'.val.toNat = 57 := rfl
        omega
      · decide
    have h3 : isCaptureChar false c = true := by
      rcases hc with hc | rfl
      · simp [isCaptureChar, Char.isAlphanum, hc]
      · decide
    rw [List.cons_append, capName, if_neg h1, if_neg h2, if_pos h3, ih]

theorem isDigit_decimal {c : Char} {n : Nat} (h : c ∈ decimal n) : c.isDigit = true :=
  Nat.isDigit_of_mem_toDigits (by decide) (by decide) h

theorem capName_group (id k : Nat) (rest : List Char) :
    capName true (groupName id k ++ '>' :: rest) = .ok (groupName id k, rest) := by
  have h : capName false ('_' :: (decimal id ++ ['_'] ++ decimal k) ++ '>' :: rest) =
      .ok ('_' :: (decimal id ++ ['_'] ++ decimal k), rest) := by
    refine capName_ok _ ?_ rest
    intro c hc
    simp only [List.mem_cons, List.mem_append, List.not_mem_nil, or_false] at hc
    rcases hc with h | (h | h) | h
    · exact .inr h
    · exact .inl (isDigit_decimal h)
    · exact .inr h
    · exact .inl (isDigit_decimal h)
  have : groupName id k = '_' :: '_' :: (decimal id ++ ['_'] ++ decimal k) := by simp [groupName]
  rw [this, List.cons_append, capName, if_neg (by decide), if_neg (by decide), if_pos (by decide), h]

/-- A named group opens. -/
theorem lexes_named (id k : Nat) : Lexes (['(', '?', 'P', '<'] ++ groupName id k ++ ['>']) [.capture (some (groupName id k))] := by
  intro rest
  simp only [List.cons_append, List.append_assoc, List.nil_append]
  refine lex_cons ?_
  simp only [lexOne, groupOpen, capName_group]

/-- The pattern of a text quoted with `q`, in a named group. -/
def quotedPattern (q : Char) (id k : Nat) : List Char :=
  [q] ++ (['(', '?', 'P', '<'] ++ groupName id k ++ ['>']) ++
    ['[', '^', q, '\\', '\\', ']', '*', '(', '?', ':', '\\', '\\', '.', '[', '^', q, '\\', '\\', ']', '*', ')', '*', ')', q]

def notQuote (q : Char) : Re := .rep (.cls ⟨true, [.single q, .single '\\']⟩) 0 none true

def quotedRe (q : Char) (id k : Nat) : Re :=
  .cat (.lit q) (.cat (.cap (some (groupName id k)) (.cat (notQuote q)
    (.rep (.cat (.lit '\\') (.cat .dot (notQuote q))) 0 none true))) (.lit q))

def quotedToks (q : Char) (id k : Nat) : List Tok :=
  [.lit q] ++ [.capture (some (groupName id k))] ++ [.cls ⟨true, [.single q, .single '\\']⟩, .star, .group, .lit '\\', .dot,
    .cls ⟨true, [.single q, .single '\\']⟩, .star, .close, .star, .close, .lit q]

theorem lexes_quoted (q : Char) (hq : q = '"' ∨ q = '\'') (id k : Nat) : Lexes (quotedPattern q id k) (quotedToks q id k) := by
  unfold quotedPattern quotedToks
  rcases hq with rfl | rfl
  · refine Lexes.append (Lexes.append ?_ (lexes_named id k)) ?_ <;> lex_fixed
  · refine Lexes.append (Lexes.append ?_ (lexes_named id k)) ?_ <;> lex_fixed

def stringToks (id : Nat) : List Tok := [.group] ++ quotedToks '"' id 0 ++ [.bar] ++ quotedToks '\'' id 1 ++ [.close]

def stringRe (id : Nat) : Re := .alt (quotedRe '"' id 0) (quotedRe '\'' id 1)

theorem string_e2 : "_0>[^\"\\\\]*(?:\\\\.[^\"\\\\]*)*)\"|'(?P<__".toList = ['_', '0', '>', '[', '^', '"', '\\', '\\', ']', '*', '(', '?', ':', '\\', '\\', '.', '[', '^', '"', '\\',
    '\\', ']', '*', ')', '*', ')', '"', '|', '\'', '(', '?', 'P', '<', '_', '_'] := by
  decide

theorem string_e3 : "_1>[^'\\\\]*(?:\\\\.[^'\\\\]*)*)')".toList = ['_', '1', '>', '[', '^', '\'', '\\', '\\', ']', '*', '(', '?', ':', '\\', '\\', '.', '[', '^', '\'', '\\',
    '\\', ']', '*', ')', '*', ')', '\'', ')'] := by
  decide

theorem stringPattern_eq (id : Nat) : stringPattern id =
    ['(', '?', ':'] ++ quotedPattern '"' id 0 ++ ['|'] ++ quotedPattern '\'' id 1 ++ [')'] := by
  have h0 : decimal 0 = ['0'] := by decide
  have h1 : decimal 1 = ['1'] := by decide
  have e1 : "(?:\"(?P<__".toList = ['(', '?', ':', '"', '(', '?', 'P', '<', '_', '_'] := by decide
  unfold stringPattern quotedPattern groupName
  rw [h0, h1, e1, string_e2, string_e3]
  simp only [List.append_assoc, List.cons_append, List.nil_append]

theorem lexes_string (id : Nat) : Lexes (stringPattern id) (stringToks id) := by
  rw [stringPattern_eq]
  unfold stringToks
  refine Lexes.append (Lexes.append (Lexes.append (Lexes.append ?_ (lexes_quoted _ (.inl rfl) id 0)) ?_)
    (lexes_quoted _ (.inr rfl) id 1)) ?_ <;> lex_fixed

theorem reads_string (id : Nat) : ReadsAs (stringToks id) [stringRe id] := fun _ => ⟨false, fun _ _ _ _ => rfl⟩

end CE.Regex
