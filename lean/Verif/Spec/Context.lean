import Verif.Spec.Errors
import Verif.Spec.Print

/-! # Specification: places inside an expression where text is being read -/

namespace CE.Spec

/-- `p` is a beginning of an expression without any defect, at whose end a new piece of text starts: right after
whitespace, a parameter, an optional, an opening bracket, or a `/`. -/
inductive TextStart : List Char → List Char → Prop
  /-- In text: after complete elements `es`, complete branches `bs` and pieces `b` not ending with text. -/
  | text (es bs b) : Canonical es → Fresh es → Branches bs → ValidPieces b →
      (∀ q, b.getLast? = some q → q.isText = false) →
      TextStart (render es ++ (slashTerminated bs ++ renderPieces b)) textStops
  /-- In an optional, which may also follow a text. -/
  | optional (es bs b) : Canonical es → Fresh es → Branches bs → ValidPieces b →
      TextStart (render es ++ (slashTerminated bs ++ renderPieces b) ++ ['(']) optStops
  /-- In the name of a parameter. -/
  | parameter (es) : Canonical es → TextStart (render es ++ ['{']) nameStops

/-- The text at the end of an AST, if it ends with text. -/
def finalText (x : Expression) : Option Span :=
  match x.getLast? with
  | some (.text s) => some s
  | some (.alternation a) =>
    match a.getLast? with
    | some b =>
      match b.getLast? with
      | some (.text s) => some s
      | _ => none
    | none => none
  | _ => none

end CE.Spec
