/-! # Custom regexes that cannot close a class of another one -/

namespace CE.Spec

/-- No parenthesis opens, no bracket is left unescaped, no character is given by its number, no class by its name. -/
inductive Calm : List Char → Prop
  | nil : Calm []
  | plain {c : Char} {w : List Char} : c ∉ ['(', '[', ']', '\\'] → Calm w → Calm (c :: w)
  | esc {c : Char} {w : List Char} : c ∉ ['(', 'x', 'u', 'U', 'p', 'P'] → Calm w → Calm ('\\' :: c :: w)

end CE.Spec
