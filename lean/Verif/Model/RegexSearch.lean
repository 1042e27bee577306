import Verif.Model.RegexSem

/-!
# The `regex` crate: the match that is returned

`regex::Regex` searches leftmost-first, like a backtracking engine: of all matches it returns one with the leftmost
beginning, and among these the one found first when alternatives are tried from left to right and greedy repetitions try
to go on before they try to stop. The classes `\d`, `\s`, `\w` are arbitrary tests here.

Simplification: an iteration of a repetition beyond the required ones which matches the empty text is not tried. (The crate
has its own rules for such iterations. In the regexes generated from expressions with built-in parameters no repeated
expression matches the empty text.)
-/

namespace CE.Regex

/-- Decision procedures for the Perl classes, and the pairs of characters that differ in case only. For `/repo/src/expand/mod.rs:66-73`. -/
structure Tests where
  digit : Char → Bool
  space : Char → Bool
  word : Char → Bool
  category : List Char → Char → Bool
  folds : List (Char × Char)

/-- The classes they decide. For `/repo/src/expand/mod.rs:66-73`. -/
def Tests.classes (T : Tests) : Classes := ⟨(T.digit · = true), (T.space · = true), (T.word · = true), (T.category · · = true), fun c d => (c, d) ∈ T.folds⟩

variable (T : Tests)

/-- Membership in a Perl class. For `/repo/src/expand/mod.rs:66-73`. -/
def Perl.test : Perl → Char → Bool
  | .digit => T.digit
  | .space => T.space
  | .word => T.word
  | .category n => T.category n

/-- Membership in an item. For `/repo/src/expand/mod.rs:66-73`. -/
def CItem.test : CItem → Char → Bool
  | .single a, c => c == a
  | .range a b, c => decide (a ≤ c ∧ c ≤ b)
  | .perl neg k, c => k.test T c != neg
  | .ascii neg rs, c => (rs.any fun r => decide (r.1 ≤ c ∧ c ≤ r.2)) != neg
  | .void, _ => false
  | .nested neg i, c => i.test c != neg
  | .union i j, c => i.test c || j.test c
  | .op .inter i j, c => i.test c && j.test c
  | .op .diff i j, c => i.test c && !j.test c
  | .op .symm i j, c => i.test c != j.test c
  | .fold neg i, c => (i.test c || T.folds.any fun p => p.2 == c && i.test p.1) != neg

/-- Membership in a class. For `/repo/src/expand/mod.rs:66-73`. -/
def Cls.test (k : Cls) (c : Char) : Bool := k.items.any (·.test T c) != k.neg

/-- Whether there is a word character on exactly one side. For `/repo/src/expand/mod.rs:66-73`. -/
def isBoundary (word : Char → Bool) (pre rest : List Char) : Bool := pre.getLast?.any word != rest.head?.any word

/-- The condition on the text before and after. For `/repo/src/expand/mod.rs:66-73`. -/
def Mark.test (word : Char → Bool) : Mark → (pre rest : List Char) → Bool
  | .word, pre, rest => isBoundary word pre rest
  | .nonWord, pre, rest => !isBoundary word pre rest
  | .lineStart, pre, _ => pre.getLast?.all (· == '\n')
  | .lineEnd, _, rest => rest.head?.all (· == '\n')

/-- A matched text and its captures. For `/repo/src/expand/mod.rs:66-73`. -/
abbrev Try := List Char × List Cap

/-- A single character satisfying `q`. For `/repo/src/expand/mod.rs:66-73`. -/
def oneChar (q : Char → Bool) : List Char → List Try
  | c :: _ => if q c then [([c], [])] else []
  | [] => []

/-- One after the other: `f` continues after the text already matched. For `/repo/src/expand/mod.rs:66-73`. -/
def andThen (l : List Try) (f : List Char → List Try) : List Try :=
  l.flatMap fun a => (f a.1).map fun b => (a.1 ++ b.1, a.2 ++ b.2)

/-- Between `m` and `n` repetitions of `body` (given what is before and after). For `/repo/src/expand/mod.rs:66-73`. -/
def repTries (body : List Char → List Char → List Try) (greedy : Bool) :
    (fuel m : Nat) → (n : Option Nat) → (pre rest : List Char) → List Try
  | 0, m, _, _, _ => if m = 0 then [([], [])] else []
  | fuel + 1, m, n, pre, rest =>
    let more := if n = some 0 then [] else
      andThen ((body pre rest).filter fun a => m != 0 || !a.1.isEmpty) fun x =>
        repTries body greedy fuel (m - 1) (n.map (· - 1)) (pre ++ x) (rest.drop x.length)
    let done := if m = 0 then [([], [])] else []
    if greedy then more ++ done else done ++ more

/-- All matches of a beginning of `rest`, in the order in which they are tried; the first group of the regex is number `g`.
For `/repo/src/expand/mod.rs:66-73`. -/
def Re.tries : Re → (g : Nat) → (pre rest : List Char) → List Try
  | .empty, _, _, _ => [([], [])]
  | .lit c, _, _, rest => oneChar (· == c) rest
  | .dot, _, _, rest => oneChar (· != '\n') rest
  | .cls k, _, _, rest => oneChar (k.test T) rest
  | .bol, _, pre, _ => if pre.isEmpty then [([], [])] else []
  | .eol, _, _, rest => if rest.isEmpty then [([], [])] else []
  | .mark k, _, pre, rest => if k.test T.word pre rest then [([], [])] else []
  | .cap _ r, g, pre, rest => (r.tries (g + 1) pre rest).map fun a => (a.1, ⟨g, pre.length, a.1⟩ :: a.2)
  | .cat a b, g, pre, rest => andThen (a.tries g pre rest) fun x => b.tries (g + a.groups.length) (pre ++ x) (rest.drop x.length)
  | .alt a b, g, pre, rest => a.tries g pre rest ++ b.tries (g + a.groups.length) pre rest
  | .rep r m n greedy, g, pre, rest => repTries (fun p q => r.tries g p q) greedy (m + rest.length) m n pre rest

/-- `Regex::captures`: the beginning (in characters), the text and the captures of the returned match.
For `/repo/src/expand/mod.rs:66-73`. -/
def Re.find (r : Re) (w : List Char) : Option (Nat × Try) :=
  (List.range (w.length + 1)).findSome? fun i => ((r.tries T 1 (w.take i) (w.drop i)).head?).map (i, ·)

end CE.Regex
