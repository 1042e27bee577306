import Verif.Model.Hir

/-!
# `/repo/src/expand/parameters.rs`: custom parameters

`regex_syntax::Parser::new().parse` is external and left uninterpreted: it is the argument `parseHir` of the definitions
below.
-/

namespace CE

/-- `Provider::get` (`/repo/src/expand/parameters.rs:54-76`), with values as their characters. -/
abbrev Provider := Span → Option (List Char)

/-- `Provider for &HashMap` (`/repo/src/expand/parameters.rs:78-96`): `entries` is the map in its (arbitrary) iteration
order. -/
def hashMapProvider (entries : List (List Char × List Char)) : Provider := fun input =>
  entries.findSome? fun (k, v) => if k = input.frag then some v else none

/-- `IntoRegexCharIter for WithCustom<Parameter, P>` (`/repo/src/expand/parameters.rs:179-255`). -/
def WithCustom.parameterChars (parseHir : List Char → Option Hir) (pars : Provider) (p : Parameter) : Option (List Item) :=
  match pars p.input with
  | none => p.chars
  | some v =>
    let parsed : Except Unit (Option Hir) :=
      if v.any (· = '(') then
        match parseHir v with
        | none => .error ()
        | some hir => .ok (if hir.hasCaptureGroups then some hir else none)
      else .ok none
    match parsed with
    | .error () => some [.error (.renameRegexGroup p.input v)]
    | .ok none => some ([.ok '('] ++ okChars v ++ [.ok ')'])
    | .ok (some hir) =>
      (ownedChars (hir.renameCaptureGroups p.id).print).map fun cs =>
        okChars "(?:".toList ++ okChars cs ++ [.ok ')']

/-- `IntoRegexCharIter for WithCustom<SingleExpression, Pars>` (`/repo/src/expand/parameters.rs:147-168`). -/
def WithCustom.singleChars (parseHir : List Char → Option Hir) (pars : Provider) : SingleExpression → Option (List Item)
  | .parameter p => parameterChars parseHir pars p
  | e => e.chars

/-- `IntoRegexCharIter for WithCustom<Expression, Pars>` (`/repo/src/expand/parameters.rs:98-123`). -/
def WithCustom.chars (parseHir : List Char → Option Hir) (pars : Provider) (e : Expression) : Option (List Item) :=
  (flatItems (singleChars parseHir pars) e).map fun l => [.ok '^'] ++ l ++ [.ok '$']

/-- `Expression::regex_with_parameters` (`/repo/src/expand/mod.rs:103-118`). -/
def Expression.regexWithParameters (parseHir : List Char → Option Hir) (pars : Provider) (input : List Char) :
    Outcome ExpandError Compiled :=
  match Expression.parse input with
  | .err e => .err (.parsing e)
  | .panic => .panic
  | .diverge => .diverge
  | .ok e => compile (WithCustom.chars parseHir pars e)

end CE
