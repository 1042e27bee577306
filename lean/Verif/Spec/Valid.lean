import Verif.Model.Parameters
import Verif.Spec.CustomLang

/-! # Specification: custom parameters with valid regexes -/

namespace CE.Spec

variable (pars : Provider)

/-- The parameter is built in, or its custom regex is valid by itself. Nothing is said of its shape. -/
def ValidParam (p : Parameter) : Prop :=
  match pars p.input with
  | none => ∃ b : Builtin, p.input.frag = b.name
  | some v => ∃ r, Regex.parse v = .ok r

/-- Its regex, if custom, has no named groups. -/
def Nameless (p : Parameter) : Prop := ∀ v r, pars p.input = some v → Regex.parse v = .ok r → r.names = []

end CE.Spec
