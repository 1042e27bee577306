import Verif.Proof.Iter

/-! # Iterators of the expansion (C37, C38, part of C22) -/

namespace CE
open Spec

/-- C37: `SkipLast` over any iterator that yields `xs` yields `xs` without its last item. (`nx` need not be fused; it is
only required that its calls return.) -/
theorem C37_skipLast {σ α : Type} (nx : Next σ α) (htot : ∀ s, nx s ≠ none) (s : σ) (xs : List α)
    (h : Yields nx s xs) : Yields (SkipLast.next nx) (SkipLast.new s) xs.dropLast :=
  skipLast_yields h htot

/-- Non-vacuity: three characters, of which two are left; one, of which none is left. -/
example : Yields charsNext "abc".toList "abc".toList ∧ ∀ s, charsNext s ≠ none :=
  ⟨.cons _ _ _ _ rfl (.cons _ _ _ _ rfl (.cons _ _ _ _ rfl (.nil _ _ rfl))), by intro s; cases s <;> simp [charsNext]⟩
example : collect (SkipLast.next charsNext) 9 (SkipLast.new "abc".toList) = some "ab".toList := by decide
example : collect (SkipLast.next charsNext) 9 (SkipLast.new "".toList) = some "".toList := by decide

/-- C38: call number `k` of `next` on a new `OwnedChars` returns character number `k` of the string, and `None` for
every `k` past its end. -/
theorem C38_ownedChars (str : List Char) (k : Nat) : nthCall OwnedChars.next k (OwnedChars.new str) = some str[k]? := by
  suffices h : ∀ k j, nthCall OwnedChars.next k ⟨str, j⟩ = some str[j + k]? by
    simpa [OwnedChars.new] using h k 0
  intro k
  induction k with
  | zero =>
    intro j
    cases h : str[j]? <;> simp [nthCall, OwnedChars.next, h]
  | succ k ih =>
    intro j
    cases h : str[j]? with
    | none =>
      have hle : str.length ≤ j := by simpa using h
      have : str[j + (k + 1)]? = none := by simp; omega
      simp only [nthCall, OwnedChars.next, h, Option.bind_some]
      rw [ih j, this]
      simp; omega
    | some c =>
      simp only [nthCall, OwnedChars.next, h, Option.bind_some]
      rw [ih (j + 1), show j + 1 + k = j + (k + 1) by omega]

theorem C38_ownedChars_yields (str : List Char) : Yields OwnedChars.next (OwnedChars.new str) str :=
  owned_yields str 0

/-- C22, first half: `EscapeForRegex` over any text yields the unescaped text, in which exactly the regex meta
characters ``^$[]()\{}.|?*+`` have a backslash. -/
theorem C22_escape_yields (t : List Char) (rounds : Nat) (h : 2 ≤ rounds) :
    Yields (EscapeForRegex.next charsNext rounds) (EscapeForRegex.new t) ((unescape t).map quote).flatten := by
  obtain ⟨m, rfl⟩ : ∃ m, rounds = m + 2 := ⟨rounds - 2, by omega⟩
  exact escape_yields m _ t (Nat.le_refl _) _ (.fresh _)

/-- The example of the documentation (`/repo/src/expand/mod.rs:542-551`). -/
example : ((unescape "\\\\text\\ (\\)\\".toList).map quote).flatten = "\\\\text \\(\\)".toList := by decide

end CE
