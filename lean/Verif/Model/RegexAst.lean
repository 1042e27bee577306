import Verif.Model.Regex

/-!
# The `regex` crate: syntax trees as the parser builds them

`Re` (`Model/Regex.lean`) forgets non-capturing groups and the arity of concatenations and alternations. The translation
into the HIR depends on them, so here is the stack machine again, with the trees of `regex_syntax::ast`. (That both agree
is proved in `Proof/RegexAst.lean`.)
-/

namespace CE.Regex

/-- `regex_syntax::ast::Ast` (external). For `/repo/src/expand/mod.rs:72,117` and `/repo/src/expand/parameters.rs:206-209`. -/
inductive Ast
  | empty
  | lit (c : Char)
  | dot
  | cls (k : Cls)
  | bol
  | eol
  | mark (k : Mark)
  | cap (name : Option (List Char)) (a : Ast)
  /-- A non-capturing group. -/
  | group (a : Ast)
  | concat (as : List Ast)
  | alt (as : List Ast)
  | rep (a : Ast) (min : Nat) (max : Option Nat) (greedy : Bool)
  deriving Repr

mutual
/-- The tree without non-capturing groups. For `/repo/src/expand/mod.rs:72,117`. -/
def Ast.toRe : Ast → Re
  | .empty => .empty
  | .lit c => .lit c
  | .dot => .dot
  | .cls k => .cls k
  | .bol => .bol
  | .eol => .eol
  | .mark k => .mark k
  | .cap n a => .cap n a.toRe
  | .group a => a.toRe
  | .concat as => catL (toRes as)
  | .alt as => altL (toRes as)
  | .rep a m n g => .rep a.toRe m n g
/-- Of each. For `/repo/src/expand/mod.rs:72,117`. -/
def Ast.toRes : List Ast → List Re
  | [] => []
  | a :: as => a.toRe :: toRes as
end

/-- `Concat::into_ast` (external). For `/repo/src/expand/mod.rs:72,117`. -/
def catA : List Ast → Ast
  | [] => .empty
  | [a] => a
  | as => .concat as

/-- `Alternation::into_ast` (external). For `/repo/src/expand/mod.rs:72,117`. -/
def altA : List Ast → Ast
  | [] => .empty
  | [a] => a
  | as => .alt as

/-- The group being read, as `Frame`. For `/repo/src/expand/mod.rs:72,117`. -/
structure AFrame where
  branches : List Ast
  items : List Ast
  fresh : Bool
  deriving Repr

/-- A group just opened. For `/repo/src/expand/mod.rs:72,117`. -/
def AFrame.start : AFrame := ⟨[], [], false⟩

/-- The tree of the group. For `/repo/src/expand/mod.rs:72,117`. -/
def AFrame.finish (f : AFrame) : Ast := altA (catA f.items.reverse :: f.branches).reverse

/-- One more item. For `/repo/src/expand/mod.rs:72,117`. -/
def AFrame.push (f : AFrame) (a : Ast) : AFrame := ⟨f.branches, a :: f.items, false⟩

/-- The node of the group. For `/repo/src/expand/mod.rs:72,117`. -/
def Kind.wrapA : Kind → Ast → Ast
  | .capture n, a => .cap n a
  | .group, a => .group a

/-- A repetition operator. For `/repo/src/expand/mod.rs:72,117`. -/
def AFrame.repeated (f : AFrame) (m : Nat) (n : Option Nat) : Except RErr AFrame :=
  match f.items with
  | [] => .error .invalid
  | a :: as => .ok ⟨f.branches, .rep a m n true :: as, true⟩

/-- A `?`. For `/repo/src/expand/mod.rs:72,117`. -/
def AFrame.quest (f : AFrame) : Except RErr AFrame :=
  match f.fresh, f.items with
  | true, .rep a m n _ :: as => .ok ⟨f.branches, .rep a m n false :: as, false⟩
  | _, _ => f.repeated 0 (some 1)

/-- The stack machine. For `/repo/src/expand/mod.rs:72,117`. -/
def buildA (st : List (Kind × AFrame)) (f : AFrame) : List Tok → Except RErr Ast
  | [] =>
    match st with
    | [] => .ok f.finish
    | _ :: _ => .error .invalid
  | t :: ts =>
    match t with
    | .lit c => buildA st (f.push (.lit c)) ts
    | .dot => buildA st (f.push .dot) ts
    | .cls k => buildA st (f.push (.cls k)) ts
    | .bol => buildA st (f.push .bol) ts
    | .eol => buildA st (f.push .eol) ts
    | .mark k => buildA st (f.push (.mark k)) ts
    | .capture n => buildA ((.capture n, f) :: st) .start ts
    | .group => buildA ((.group, f) :: st) .start ts
    | .close => match st with
      | [] => .error .invalid
      | (k, g) :: st' => buildA st' (g.push (k.wrapA f.finish)) ts
    | .bar => buildA st ⟨catA f.items.reverse :: f.branches, [], false⟩ ts
    | .quest => match f.quest with
      | .ok f' => buildA st f' ts
      | .error e => .error e
    | .star => match f.repeated 0 none with
      | .ok f' => buildA st f' ts
      | .error e => .error e
    | .plus => match f.repeated 1 none with
      | .ok f' => buildA st f' ts
      | .error e => .error e
    | .count m n => match f.repeated m n with
      | .ok f' => buildA st f' ts
      | .error e => .error e

/-- `regex_syntax::ast::parse::Parser::parse` (external). For `/repo/src/expand/mod.rs:72,117` and
`/repo/src/expand/parameters.rs:206-209`. -/
def Ast.parse (cs : List Char) : Except RErr Ast :=
  match lex cs with
  | .error e => .error e
  | .ok ts =>
    match buildA [] .start ts with
    | .error e => .error e
    | .ok a => if a.toRe.names.Nodup then .ok a else .error .invalid

end CE.Regex
