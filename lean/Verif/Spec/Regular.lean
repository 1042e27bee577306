import Verif.Model.RegexAst
import Verif.Model.RegexSem

/-!
# Specification: regexes which the translation into the HIR keeps

The HIR has no place for groups that can never take part in a match (as in `(a){0}`), repetitions of what matches only the
empty text are cut short (`(^)*` is `(^)?`, and `(^)+` is `(^)`), and a `?` is printed directly after what it repeats
(`(?:a+)?` as `a+?`, see `C45_false`). Regexes without these are regular.
-/

namespace CE.Regex

mutual
/-- Matches only the empty text, by its shape. -/
def Ast.weightless : Ast → Bool
  | .empty => true
  | .bol => true
  | .eol => true
  | .mark _ => true
  | .cap _ a => a.weightless
  | .group a => a.weightless
  | .concat as => allWeightless as
  | .alt as => allWeightless as
  | .rep a _ n _ => n = some 0 || a.weightless
  | _ => false
def Ast.allWeightless : List Ast → Bool
  | [] => true
  | a :: as => a.weightless && allWeightless as
end

/-- Repeated between `m` and `n` times is once: `{1}`, and `+`, `{2}` after what matches only the empty text. -/
def Ast.once (a : Ast) (m : Nat) (n : Option Nat) : Bool := m = 1 && n = some 1 || a.weightless && m ≠ 0

mutual
/-- Nothing at all: possibly in non-capturing groups, or repeated zero times. -/
def Ast.void : Ast → Bool
  | .empty => true
  | .group a => a.void
  | .concat as => allVoid as
  | .rep a m n _ => n = some 0 || a.once m n && a.void
  | _ => false
def Ast.allVoid : List Ast → Bool
  | [] => true
  | a :: as => a.void && allVoid as
end

mutual
/-- A greedy repetition (or one of a fixed number), possibly in non-capturing groups. -/
def Ast.eager : Ast → Bool
  | .rep a m n g =>
    if n = some 0 then false
    else if a.once m n then a.eager
    else n == some m || g
  | .group a => a.eager
  | .concat as => eagerOne as
  | _ => false
/-- An eager repetition and nothing else. -/
def Ast.eagerOne : List Ast → Bool
  | [] => false
  | a :: as => if a.void then eagerOne as else a.eager && allVoid as
end

mutual
/-- The groups, in the order of their opening parentheses: name, and whether the group is inside a repetition. (`{1}` is
none.) -/
def Ast.marked : Ast → List (Option (List Char) × Bool)
  | .cap n a => (n, false) :: a.marked
  | .group a => a.marked
  | .concat as => allMarked as
  | .alt as => allMarked as
  | .rep a m n _ => if m = 1 ∧ n = some 1 then a.marked else a.toRe.groups.map (·, true)
  | _ => []
def Ast.allMarked : List Ast → List (Option (List Char) × Bool)
  | [] => []
  | a :: as => a.marked ++ allMarked as
end

mutual
/-- What has groups is not repeated zero times, and if it matches only the empty text, at most once; `?` (or `*` after
what matches only the empty text) does not follow an eager repetition. -/
def Ast.Regular : Ast → Prop
  | .cap _ a => a.Regular
  | .group a => a.Regular
  | .concat as => AllRegular as
  | .alt as => AllRegular as
  | .rep a m n _ => a.Regular ∧
      (a.toRe.groups = [] ∨ n ≠ some 0 ∧ (a.weightless = true → n = some 1)) ∧
      ¬ (a.eager = true ∧ m = 0 ∧ (n = some 1 ∨ n ≠ some 0 ∧ a.weightless = true))
  | _ => True
def Ast.AllRegular : List Ast → Prop
  | [] => True
  | a :: as => a.Regular ∧ AllRegular as
end

end CE.Regex
