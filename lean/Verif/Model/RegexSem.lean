import Verif.Model.Regex

/-!
# The `regex` crate: matching

The standard meaning of a regular expression: which pieces of a subject it can match in which context, and what its
groups capture. `regex::Regex` returns one of these matches (leftmost-first); every statement below about *all* matches
holds in particular for the one returned. `\d`, `\s`, `\w` are Unicode classes, left uninterpreted.
-/

namespace CE.Regex

/-- Interpretation of the Perl classes and of simple case folding. For `/repo/src/expand/mod.rs:66-73`. -/
structure Classes where
  digit : Char → Prop
  space : Char → Prop
  word : Char → Prop
  /-- the characters of a general category -/
  category : List Char → Char → Prop
  /-- the second character differs from the first in case only -/
  fold : Char → Char → Prop

variable (U : Classes)

/-- Membership in a Perl class. For `/repo/src/expand/mod.rs:66-73`. -/
def Perl.mem : Perl → Char → Prop
  | .digit => U.digit
  | .space => U.space
  | .word => U.word
  | .category n => U.category n

/-- Membership in an item. For `/repo/src/expand/mod.rs:66-73`. -/
def CItem.mem : CItem → Char → Prop
  | .single a, c => c = a
  | .range a b, c => a ≤ c ∧ c ≤ b
  | .perl false k, c => k.mem U c
  | .perl true k, c => ¬ k.mem U c
  | .ascii false rs, c => ∃ r ∈ rs, r.1 ≤ c ∧ c ≤ r.2
  | .ascii true rs, c => ¬ ∃ r ∈ rs, r.1 ≤ c ∧ c ≤ r.2
  | .void, _ => False
  | .nested false i, c => i.mem c
  | .nested true i, c => ¬ i.mem c
  | .union i j, c => i.mem c ∨ j.mem c
  | .op .inter i j, c => i.mem c ∧ j.mem c
  | .op .diff i j, c => i.mem c ∧ ¬ j.mem c
  | .op .symm i j, c => ¬ (i.mem c ↔ j.mem c)
  | .fold false i, c => i.mem c ∨ ∃ d, U.fold d c ∧ i.mem d
  | .fold true i, c => ¬ (i.mem c ∨ ∃ d, U.fold d c ∧ i.mem d)

/-- Membership in a class. For `/repo/src/expand/mod.rs:66-73`. -/
def Cls.mem (k : Cls) (c : Char) : Prop :=
  match k.neg with
  | false => ∃ i ∈ k.items, i.mem U c
  | true => ¬ ∃ i ∈ k.items, i.mem U c

/-- There is a word character on exactly one side. For `/repo/src/expand/mod.rs:66-73`. -/
def Boundary (pre post : List Char) : Prop :=
  ¬ ((∃ c, pre.getLast? = some c ∧ U.word c) ↔ (∃ c, post.head? = some c ∧ U.word c))

/-- The condition on the text before and after. For `/repo/src/expand/mod.rs:66-73`. -/
def Mark.Holds : Mark → (pre post : List Char) → Prop
  | .word, pre, post => Boundary U pre post
  | .nonWord, pre, post => ¬ Boundary U pre post
  | .lineStart, pre, _ => pre = [] ∨ pre.getLast? = some '\n'
  | .lineEnd, _, post => post = [] ∨ post.head? = some '\n'

/-- A capture: number of the group, position (in characters) and captured text. For `/repo/src/expand/mod.rs:66-73`. -/
structure Cap where
  group : Nat
  start : Nat
  text : List Char
  deriving DecidableEq, Repr

/-- Text before, matched text, text after, captures in order. For `/repo/src/expand/mod.rs:66-73`. -/
abbrev Matches := List Char → List Char → List Char → List Cap → Prop

/-- Between `m` and `n` consecutive matches. For `/repo/src/expand/mod.rs:66-73`. -/
inductive Repeats (P : Matches) : Nat → Option Nat → Matches
  | done (n pre post) : Repeats P 0 n pre [] post []
  | more (m n pre x y post l k) : n ≠ some 0 → P pre x (y ++ post) l →
      Repeats P (m - 1) (n.map (· - 1)) (pre ++ x) y post k → Repeats P m n pre (x ++ y) post (l ++ k)

/-- `r`, whose first group is number `g`, matches `x` between `pre` and `post`, capturing `l`.
For `/repo/src/expand/mod.rs:66-73`. -/
def Re.Match : Re → Nat → Matches
  | .empty, _, _, x, _, l => x = [] ∧ l = []
  | .lit c, _, _, x, _, l => x = [c] ∧ l = []
  | .dot, _, _, x, _, l => (∃ c, c ≠ '\n' ∧ x = [c]) ∧ l = []
  | .cls k, _, _, x, _, l => (∃ c, k.mem U c ∧ x = [c]) ∧ l = []
  | .bol, _, pre, x, _, l => pre = [] ∧ x = [] ∧ l = []
  | .eol, _, _, x, post, l => post = [] ∧ x = [] ∧ l = []
  | .mark k, _, pre, x, post, l => k.Holds U pre (x ++ post) ∧ x = [] ∧ l = []
  | .cap _ r, g, pre, x, post, l => ∃ k, r.Match (g + 1) pre x post k ∧ l = ⟨g, pre.length, x⟩ :: k
  | .cat a b, g, pre, x, post, l => ∃ y z k m, x = y ++ z ∧ l = k ++ m ∧
      a.Match g pre y (z ++ post) k ∧ b.Match (g + a.groups.length) (pre ++ y) z post m
  | .alt a b, g, pre, x, post, l => a.Match g pre x post l ∨ b.Match (g + a.groups.length) pre x post l
  | .rep r m n _, g, pre, x, post, l => Repeats (r.Match g) m n pre x post l

/-- A match anywhere in the subject `w` (`Regex::find`, `Regex::captures`): the text before, the matched text, the text
after, and the captures. Group 0 is the whole match, so that the first group of `r` is number 1.
For `/repo/src/expand/mod.rs:66-73`. -/
def Re.Finds (r : Re) (w pre x post : List Char) (l : List Cap) : Prop :=
  w = pre ++ x ++ post ∧ r.Match U 1 pre x post l

/-- `Regex::is_match`. For `/repo/src/expand/mod.rs:66-73`. -/
def Re.IsMatch (r : Re) (w : List Char) : Prop := ∃ pre x post l, r.Finds U w pre x post l

end CE.Regex
