import Verif.Model.Translate
import Verif.Model.Parameters

/-!
# The `regex` crate: the flag `x`

`(?x)` makes the parser of the `regex` crate skip white space and comments (`ParserI::bump_space`, external). `Model/Regex`
treats this flag as outside its fragment; here is the same parser with the flag, as an extension: `C78_extends` proves that the two
agree on everything that `Model/Regex` accepts.

Not modelled (error `unsupported`): comments inside of counts, white space between their digits or directly after their comma if no digits follow, white space and comments inside of other tokens (classes, escapes), between `(` and `?`, and
between a repetition operator and a `?`.
-/

namespace CE.Verbose
open Regex

/-- `ParserI::bump_space` (external): what follows white space and comments; the argument tells whether a comment has begun. For `/repo/src/expand/mod.rs:72,117`. -/
def skipBlank (comment : Bool) : List Char → List Char
  | [] => []
  | c :: r =>
    if comment then skipBlank (c ≠ '\n') r
    else if isBlank c then skipBlank false r
    else if c = '#' then skipBlank true r
    else c :: r

/-- The same, if the flag is set. For `/repo/src/expand/mod.rs:72,117`. -/
def skip (x : Bool) (cs : List Char) : List Char := if x then skipBlank false cs else cs

/-- Whether white space or a comment begins with it. For `/repo/src/expand/mod.rs:72,117`. -/
def skippable (c : Char) : Bool := isBlank c || c == '#'

/-- Whether the model covers setting or clearing the flag. For `/repo/src/expand/mod.rs:72,117`. -/
def known (p : Flag × Bool) : Bool := Flag.known p || p.1 == .x

/-- What follows `(?`, if these are flags: `ParserI::parse_group` (external). For `/repo/src/expand/mod.rs:72,117`. -/
def flagsTok (r : List Char) : Except RErr (RTok × List Char) :=
  match readFlags [] false false r with
  | .error e => .error e
  | .ok (l, colon, q) =>
    if l.isEmpty then .error .invalid
    else if l.all known then .ok (if colon then .scope l else .flags l, q)
    else .error .unsupported

/-- Whether white space or comments would be significant for the token `t`, which begins with `c` and is followed by `q`. For `/repo/src/expand/mod.rs:72,117`. -/
def astray (c : Char) (t : Tok) (r q : List Char) : Bool :=
  match t with
  | .capture none => (skipBlank false r).head? == some '?'
  | .quest | .star | .plus | .count _ _ => q.head?.any skippable && (skipBlank false q).head? == some '?'
  | _ => ((r.take (r.length - q.length)).drop (if c == '\\' then 1 else 0)).any skippable

/-- One token, or flags. For `/repo/src/expand/mod.rs:72,117`. -/
def one (x : Bool) (c : Char) (r : List Char) : Except RErr (RTok × List Char) :=
  if atFlags c r then flagsTok (r.drop 1)
  else match lexOne c r with
    | .error e => .error (if x && r.any skippable then .unsupported else e)
    | .ok (t, q) => if x && astray c t r q then .error .unsupported else .ok (.tok c t, q)

/-- The flag after it is set or cleared: `Flags::flag_state` (external). For `/repo/src/expand/mod.rs:72,117`. -/
def setting (x : Bool) (l : List (Flag × Bool)) : Bool :=
  match l.find? (·.1 == .x) with
  | some (_, b) => b
  | none => x

/-- The flag after a token, and its values at the end of the enclosing groups: `ParserI::push_group`, `pop_group` (external). For `/repo/src/expand/mod.rs:72,117`. -/
def after (x : Bool) (st : List Bool) : RTok → Bool × List Bool
  | .tok _ (.capture _) => (x, x :: st)
  | .tok _ .group => (x, x :: st)
  | .tok _ .close => (st.headD false, st.tail)
  | .tok _ _ => (x, st)
  | .flags l => (setting x l, st)
  | .scope l => (setting x l, x :: st)

/-- All tokens before the other flags are applied: `ParserI::parse_with_comments` (external). The first argument bounds their number. For `/repo/src/expand/mod.rs:72,117`. -/
def lexF : Nat → Bool → List Bool → List Char → Except RErr (List RTok)
  | 0, x, _, cs => if (skip x cs).isEmpty then .ok [] else .error .invalid
  | n + 1, x, st, cs =>
    match skip x cs with
    | [] => .ok []
    | c :: r =>
      match one x c r with
      | .error e => .error e
      | .ok (t, q) =>
        match lexF n (after x st t).1 (after x st t).2 q with
        | .error e => .error e
        | .ok ts => .ok (t :: ts)

/-- All tokens of a pattern. For `/repo/src/expand/mod.rs:72,117`. -/
def lex (cs : List Char) : Except RErr (List Tok) :=
  match lexF cs.length false [] cs with
  | .error e => .error e
  | .ok ts => resolve {} [] ts

/-- `Regex::new` (external), with the flag `x`. For `/repo/src/expand/mod.rs:72,117`. -/
def parse (cs : List Char) : Except RErr Re :=
  match lex cs with
  | .error e => .error e
  | .ok ts =>
    match build [] .start ts with
    | .error e => .error e
    | .ok r => if r.names.Nodup then .ok r else .error .invalid

/-- `regex_syntax::ast::parse::Parser::parse` (external), with the flag `x`. For `/repo/src/expand/parameters.rs:206-209`. -/
def ast (cs : List Char) : Except RErr Ast :=
  match lex cs with
  | .error e => .error e
  | .ok ts =>
    match buildA [] .start ts with
    | .error e => .error e
    | .ok a => if a.toRe.names.Nodup then .ok a else .error .invalid

/-- `regex_syntax::Parser::parse` (external), with the flag `x`. For `/repo/src/expand/parameters.rs:206-209`. -/
def hirOf (T : Tables) (v : List Char) : Option Hir :=
  match ast v with
  | .ok a => some (translate T a 1).1
  | .error _ => none

/-- `Regex::new(&re_str).map_err(Into::into)` (`/repo/src/expand/mod.rs:72,117`), with the flag `x`. -/
def compile (items : Option (List Item)) : Outcome ExpandError Compiled :=
  match items with
  | none => .diverge
  | some l =>
    match collectResult l with
    | .error e => .err (.expansion e)
    | .ok cs =>
      match parse cs with
      | .error e => .err (.regex e)
      | .ok r => .ok ⟨cs, r⟩

/-- `Expression::regex_with_parameters` (`/repo/src/expand/mod.rs:103-118`), with the flag `x`. -/
def regexWithParameters (T : Tables) (pars : Provider) (input : List Char) : Outcome ExpandError Compiled :=
  match Expression.parse input with
  | .err e => .err (.parsing e)
  | .panic => .panic
  | .diverge => .diverge
  | .ok e => compile (WithCustom.chars (hirOf T) pars e)

end CE.Verbose
