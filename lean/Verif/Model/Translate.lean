import Verif.Model.Hir
import Verif.Model.RegexAst
import Verif.Model.RegexSearch

/-!
# `regex_syntax::hir::translate`: from the syntax tree to the HIR

External (crate `regex_syntax` 0.8, default flags), modelled after its source, for the fragment of `Model/Regex.lean`. The
Unicode tables are a parameter.
-/

namespace CE
open Regex (Ast Cls CItem Perl Tests Classes)

/-- The tables of `\d`, `\s`, `\w`, lists of ranges, and of simple case folding, as pairs (`regex_syntax::unicode`, external). For `/repo/src/expand/parameters.rs:206-209`. -/
structure Tables where
  digit : List (Char × Char)
  space : List (Char × Char)
  word : List (Char × Char)
  category : List Char → List (Char × Char)
  folds : List (Char × Char)
  digit_valid : ∀ r ∈ digit, r.1 ≤ r.2
  space_valid : ∀ r ∈ space, r.1 ≤ r.2
  word_valid : ∀ r ∈ word, r.1 ≤ r.2
  category_valid : ∀ n, ∀ r ∈ category n, r.1 ≤ r.2

namespace Tables
variable (T : Tables)

/-- The tests they stand for. For `/repo/src/expand/parameters.rs:206-209`. -/
def tests : Tests := ⟨Ranges.mem T.digit, Ranges.mem T.space, Ranges.mem T.word, fun n => Ranges.mem (T.category n), T.folds⟩

/-- The classes they stand for. For `/repo/src/expand/parameters.rs:206-209`. -/
def classes : Classes := T.tests.classes

/-- `unicode::perl_digit`, `perl_space`, `perl_word`, `unicode::class` (external). For `/repo/src/expand/parameters.rs:206-209`. -/
def perl : Perl → List (Char × Char)
  | .digit => T.digit
  | .space => T.space
  | .word => T.word
  | .category n => T.category n

/-- `IntervalSet::case_fold_simple` (external). For `/repo/src/expand/parameters.rs:206-209`. -/
def foldRanges (rs : List (Char × Char)) : List (Char × Char) :=
  rs ++ (T.folds.filter fun p => Ranges.mem rs p.1).map fun p => (p.2, p.2)

/-- The characters of an item of a class: `TranslatorI::hir_perl_unicode_class`, `hir_ascii_unicode_class`,
`visit_class_set_item_post` and `visit_class_set_binary_op_post` (external). For `/repo/src/expand/parameters.rs:206-209`. -/
def item : CItem → List (Char × Char)
  | .single c => [(c, c)]
  | .range a b => [(a, b)]
  | .perl false k => T.perl k
  | .perl true k => Ranges.negate (Ranges.canon (T.perl k))
  | .ascii false rs => rs
  | .ascii true rs => Ranges.negate (Ranges.canon rs)
  | .void => []
  | .nested false i => item i
  | .nested true i => Ranges.negate (Ranges.canon (item i))
  | .union i j => item i ++ item j
  | .op .inter i j => Ranges.inter (Ranges.canon (item i)) (Ranges.canon (item j))
  | .op .diff i j => Ranges.diff (Ranges.canon (item i)) (Ranges.canon (item j))
  | .op .symm i j => Ranges.symm (Ranges.canon (item i)) (Ranges.canon (item j))
  | .fold false i => T.foldRanges (item i)
  | .fold true i => Ranges.negate (Ranges.canon (T.foldRanges (item i)))

/-- The characters of a class. For `/repo/src/expand/parameters.rs:206-209`. -/
def cls (k : Cls) : List (Char × Char) :=
  let rs := Ranges.canon (k.items.flatMap T.item)
  if k.neg then Ranges.negate rs else rs

end Tables

/-- What `.` matches: all but the line feed (`Hir::dot(Dot::AnyCharExceptLF)`, external).
For `/repo/src/expand/parameters.rs:206-209`. -/
def dotRanges : List (Char × Char) := [(Char.ofNat 0, Char.ofNat 9), (Char.ofNat 11, Char.ofNat 0x10FFFF)]

mutual
/-- `TranslatorI::visit_post` (external). Capture groups are numbered in the order of their opening parentheses; the second
component of the result is the next number. For `/repo/src/expand/parameters.rs:206-209`. -/
def translate (T : Tables) : Ast → Nat → Hir × Nat
  | .empty, i => (.empty, i)
  | .lit c, i => (Hir.mkLiteral [c], i)
  | .dot, i => (Hir.mkClass dotRanges, i)
  | .cls k, i => (Hir.mkClass (T.cls k), i)
  | .bol, i => (.look .start, i)
  | .eol, i => (.look .finish, i)
  | .mark k, i => (.look (.mark k T.word), i)
  | .cap n a, i => (.capture i n (translate T a (i + 1)).1, (translate T a (i + 1)).2)
  | .group a, i => translate T a i
  | .concat as, i => (Hir.mkConcat (translateL T as i).1, (translateL T as i).2)
  | .alt as, i => (Hir.mkAlternation (translateL T as i).1, (translateL T as i).2)
  | .rep a m n g, i => (Hir.mkRepetition m n g (translate T a i).1, (translate T a i).2)
/-- One after the other. For `/repo/src/expand/parameters.rs:206-209`. -/
def translateL (T : Tables) : List Ast → Nat → List Hir × Nat
  | [], i => ([], i)
  | a :: as, i => ((translate T a i).1 :: (translateL T as (translate T a i).2).1, (translateL T as (translate T a i).2).2)
end

/-- `regex_syntax::Parser::parse` (external): `none` is an error. For `/repo/src/expand/parameters.rs:206-209`. -/
def hirOf (T : Tables) (v : List Char) : Option Hir :=
  match Ast.parse v with
  | .ok a => some (translate T a 1).1
  | .error _ => none

end CE
