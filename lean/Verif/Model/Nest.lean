import Verif.Model.RegexAst

/-!
# The nesting limit of `regex_syntax`

`regex_syntax::ast::parse::NestLimiter` (external) is run over every parsed pattern, both by `regex::Regex::new`
(`/repo/src/expand/mod.rs:72,117`) and by `regex_syntax::Parser` (`/repo/src/expand/parameters.rs:206-209`), and refuses
trees nested deeper than 250. Simplification: the tree does not tell `\d` from `[\d]`; the former is counted like the
latter, that is by one too deep; so are literals under the flag `i`, dots under the flag `s`, and flags of their own.
-/

namespace CE.Regex

/-- `ParserBuilder::default().nest_limit` (external). For `/repo/src/expand/mod.rs:72,117`. -/
def nestLimit : Nat := 250

/-- `visit_class_set_item_pre` and `visit_class_set_binary_op_pre` (external), of an item, and of an item that is the rest of a
union. For `/repo/src/expand/mod.rs:72,117`. -/
def CItem.nest : CItem → Nat × Nat
  | .nested _ i => (i.nest.1 + 1, i.nest.1 + 1)
  | .union i j => (max i.nest.1 j.nest.2 + 1, max i.nest.1 j.nest.2)
  | .op _ i j => (max i.nest.1 j.nest.1 + 1, max i.nest.1 j.nest.1 + 1)
  | .fold _ i => i.nest
  | _ => (0, 0)

/-- `visit_pre` for `Ast::ClassBracketed` (external). For `/repo/src/expand/mod.rs:72,117`. -/
def Cls.nest (k : Cls) : Nat := (CItem.all k.items).nest.1 + 1

mutual
/-- The depth that `NestLimiter::visit_pre` (external) counts. For `/repo/src/expand/mod.rs:72,117`. -/
def Ast.nest : Ast → Nat
  | .empty | .lit _ | .dot | .bol | .eol | .mark _ => 0
  | .cls k => k.nest
  | .cap _ a => a.nest + 1
  | .group a => a.nest + 1
  | .concat as => Ast.nests as + 1
  | .alt as => Ast.nests as + 1
  | .rep a _ _ _ => a.nest + 1
/-- The deepest of several trees. For `/repo/src/expand/mod.rs:72,117`. -/
def Ast.nests : List Ast → Nat
  | [] => 0
  | a :: as => max a.nest (Ast.nests as)
end

/-- `NestLimiter::check` (external). For `/repo/src/expand/mod.rs:72,117`. -/
def withinNestLimit (pattern : List Char) : Bool :=
  match Ast.parse pattern with
  | .ok a => a.nest ≤ nestLimit
  | .error _ => false

end CE.Regex
