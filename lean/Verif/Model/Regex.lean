/-!
# The `regex` crate: syntax

`/repo/src/expand/mod.rs:72,117` hands the produced pattern to `regex::Regex::new`. The crate is external; this file
models a fragment of its concrete syntax (`regex_syntax::ast::parse`, default flags), as a tokeniser followed by the
stack machine which `regex_syntax` uses.

The fragment: literals, escapes of meta characters, `\d \s \w` and their negations, `.`, bracketed classes of single
characters, ranges, those escapes, ASCII classes, nested classes and set operations, hexadecimal escapes, general categories by
their abbreviated names (`\pL`, `\P{Lu}`), groups (capturing, named, non-capturing), `|`, `? * + {m,n}` with lazy variants and with spaces around the numbers, `^ $ \A \z \b \B`, the inline flags `i`, `m`, `s` and their
negations, and `u`. What `regex_syntax` would reject is `invalid`; what is outside the fragment (the flags `U`, `R`, `x` and `-u`,
other Unicode properties, one-sided word boundaries, non-ASCII group names) is `unsupported`.

Not modelled: the limits on nesting (250) and compiled size (10 MB), error positions.
-/

namespace CE.Regex

/-- Why a pattern is not read. For `/repo/src/expand/mod.rs:72,117`. -/
inductive RErr
  | invalid
  | unsupported
  deriving DecidableEq, Repr

/-- The Unicode-aware Perl classes and the general categories by their abbreviated names. For `/repo/src/expand/mod.rs:72,117`. -/
inductive Perl
  | digit
  | space
  | word
  | category (name : List Char)
  deriving DecidableEq, Repr

/-- The operations `&&`, `--`, `~~` on classes. For `/repo/src/expand/mod.rs:72,117`. -/
inductive SetOp
  | inter
  | diff
  | symm
  deriving DecidableEq, Repr

/-- An item of a bracketed class. For `/repo/src/expand/mod.rs:72,117`. -/
inductive CItem
  | single (c : Char)
  | range (a b : Char)
  | perl (neg : Bool) (k : Perl)
  /-- `[:alpha:]` and the like, by their ranges -/
  | ascii (neg : Bool) (rs : List (Char × Char))
  /-- no characters at all -/
  | void
  /-- a class inside of a class -/
  | nested (neg : Bool) (i : CItem)
  /-- the items before or after an operation, or inside of a nested class -/
  | union (i j : CItem)
  | op (k : SetOp) (i j : CItem)
  /-- an item with all characters that differ from its characters in case only, negated or not -/
  | fold (neg : Bool) (i : CItem)
  deriving DecidableEq, Repr

/-- A bracketed class. For `/repo/src/expand/mod.rs:72,117`. -/
structure Cls where
  neg : Bool
  items : List CItem
  deriving DecidableEq, Repr

/-- The conditions on a position which are not the start or the end of the text. For `/repo/src/expand/mod.rs:72,117`. -/
inductive Mark
  /-- `\b` -/
  | word
  /-- `\B` -/
  | nonWord
  /-- `^` under the flag `m` -/
  | lineStart
  /-- `$` under the flag `m` -/
  | lineEnd
  deriving DecidableEq, Repr

/-- Regular expressions. A non-capturing group is no node of its own. For `/repo/src/expand/mod.rs:72,117`. -/
inductive Re
  | empty
  | lit (c : Char)
  | dot
  | cls (k : Cls)
  /-- `^` -/
  | bol
  /-- `$` -/
  | eol
  | mark (k : Mark)
  | cap (name : Option (List Char)) (r : Re)
  | cat (a b : Re)
  | alt (a b : Re)
  | rep (r : Re) (min : Nat) (max : Option Nat) (greedy : Bool)
  deriving DecidableEq, Repr

/-- Tokens. For `/repo/src/expand/mod.rs:72,117`. -/
inductive Tok
  | lit (c : Char)
  | dot
  | cls (k : Cls)
  | bol
  | eol
  | mark (k : Mark)
  | capture (name : Option (List Char))
  | group
  | close
  | bar
  | quest
  | star
  | plus
  | count (m : Nat) (n : Option Nat)
  deriving DecidableEq, Repr

/-- `regex_syntax::is_meta_character` (external). For `/repo/src/expand/mod.rs:72,117`. -/
def isMeta (c : Char) : Bool :=
  "\\.+*?()|[]{}^$#&-~".toList.contains c

/-- `regex_syntax::is_escapeable_character` (external): also every other ASCII character but letters, digits, `<`, `>`.
For `/repo/src/expand/mod.rs:72,117`. -/
def isEscapeable (c : Char) : Bool :=
  isMeta c || (c.toNat < 128 && !c.isAlphanum && c != '<' && c != '>')

/-- What follows a backslash: `ParserI::parse_escape` (external). For `/repo/src/expand/mod.rs:72,117`. -/
inductive Esc
  | lit (c : Char)
  | perl (neg : Bool) (k : Perl)
  | start
  | finish
  | mark (k : Mark)
  deriving DecidableEq, Repr

/-- The value of a hexadecimal digit. For `/repo/src/expand/mod.rs:72,117`. -/
def hexVal (c : Char) : Option Nat :=
  if c.isDigit then some (c.toNat - 48)
  else if 'a' ≤ c ∧ c ≤ 'f' then some (c.toNat - 87)
  else if 'A' ≤ c ∧ c ≤ 'F' then some (c.toNat - 55)
  else none

/-- `n` hexadecimal digits after the value `v`: `ParserI::parse_hex_digits` (external). For `/repo/src/expand/mod.rs:72,117`. -/
def hexFixed : Nat → Nat → List Char → Except RErr (Nat × List Char)
  | 0, v, r => .ok (v, r)
  | _ + 1, _, [] => .error .invalid
  | n + 1, v, c :: r => match hexVal c with
    | some d => hexFixed n (16 * v + d) r
    | none => .error .invalid

/-- Hexadecimal digits up to a brace: `ParserI::parse_hex_brace` (external). For `/repo/src/expand/mod.rs:72,117`. -/
def hexBrace : Bool → Nat → List Char → Except RErr (Nat × List Char)
  | _, _, [] => .error .invalid
  | first, v, c :: r =>
    if c = '}' then (if first then .error .invalid else .ok (v, r))
    else match hexVal c with
      | some d => hexBrace false (16 * v + d) r
      | none => .error .invalid

/-- What follows `\x`, `\u`, `\U`: `ParserI::parse_hex` (external). For `/repo/src/expand/mod.rs:72,117`. -/
def hexDigits (n : Nat) : List Char → Except RErr (Nat × List Char)
  | '{' :: r => hexBrace true 0 r
  | r => hexFixed n 0 r

/-- The character of a hexadecimal escape. For `/repo/src/expand/mod.rs:72,117`. -/
def hexEsc (n : Nat) (r : List Char) : Except RErr (Esc × List Char) :=
  match hexDigits n r with
  | .error e => .error e
  | .ok (v, r') => if v.isValidChar then .ok (.lit (Char.ofNat v), r') else .error .invalid

/-- An escape which is complete with its first character. For `/repo/src/expand/mod.rs:72,117`. -/
def escapeChar (c : Char) : Except RErr Esc :=
  if isMeta c then .ok (.lit c)
  else match c with
  | 'd' => .ok (.perl false .digit)
  | 'D' => .ok (.perl true .digit)
  | 's' => .ok (.perl false .space)
  | 'S' => .ok (.perl true .space)
  | 'w' => .ok (.perl false .word)
  | 'W' => .ok (.perl true .word)
  | 'a' => .ok (.lit '\x07')
  | 'f' => .ok (.lit '\x0c')
  | 't' => .ok (.lit '\t')
  | 'n' => .ok (.lit '\n')
  | 'r' => .ok (.lit '\r')
  | 'v' => .ok (.lit '\x0b')
  | 'A' => .ok .start
  | 'z' => .ok .finish
  | 'b' => .ok (.mark .word)
  | 'B' => .ok (.mark .nonWord)
  | c => if ['<', '>'].contains c then .error .unsupported
    else if isEscapeable c then .ok (.lit c) else .error .invalid

/-- The abbreviated names of general categories: `unicode::general_category` (external). For `/repo/src/expand/mod.rs:72,117`. -/
def categories : List (List Char) :=
  [['L'], ['L', 'u'], ['L', 'l'], ['L', 't'], ['L', 'm'], ['L', 'o'], ['M'], ['M', 'n'], ['M', 'c'], ['M', 'e'],
   ['N'], ['N', 'd'], ['N', 'l'], ['N', 'o'], ['P'], ['P', 'c'], ['P', 'd'], ['P', 's'], ['P', 'e'], ['P', 'i'], ['P', 'f'], ['P', 'o'],
   ['S'], ['S', 'm'], ['S', 'c'], ['S', 'k'], ['S', 'o'], ['Z'], ['Z', 's'], ['Z', 'l'], ['Z', 'p'], ['C'], ['C', 'c'], ['C', 'f'], ['C', 'o']]

/-- A name up to a brace. For `/repo/src/expand/mod.rs:72,117`. -/
def braceName : List Char → Option (List Char × List Char)
  | [] => none
  | c :: r =>
    if c = '}' then some ([], r)
    else match braceName r with
      | some (n, r') => some (c :: n, r')
      | none => none

/-- The class of a given name. Other names (scripts, properties, long names, names in another case) are not modelled.
For `/repo/src/expand/mod.rs:72,117`. -/
def categoryEsc (neg : Bool) (n r : List Char) : Except RErr (Esc × List Char) :=
  if n ∈ categories then .ok (.perl neg (.category n), r) else .error .unsupported

/-- What follows `\p`, `\P`: `ParserI::parse_unicode_class` (external). For `/repo/src/expand/mod.rs:72,117`. -/
def unicodeEsc (neg : Bool) : List Char → Except RErr (Esc × List Char)
  | [] => .error .invalid
  | c :: r =>
    if c = '{' then
      match braceName r with
      | some (n, r') => categoryEsc neg n r'
      | none => .error .invalid
    else if c = '\\' then .error .invalid
    else categoryEsc neg [c] r

/-- An escape and what follows it. For `/repo/src/expand/mod.rs:72,117`. -/
def escape (c : Char) (r : List Char) : Except RErr (Esc × List Char) :=
  match c with
  | 'x' => hexEsc 2 r
  | 'u' => hexEsc 4 r
  | 'U' => hexEsc 8 r
  | 'p' => unicodeEsc false r
  | 'P' => unicodeEsc true r
  | c => match escapeChar c with
    | .ok e => .ok (e, r)
    | .error e => .error e

/-- One item of a class: `ParserI::parse_set_class_item` (external). For `/repo/src/expand/mod.rs:72,117`. -/
def clsPrim : List Char → Except RErr (CItem × List Char)
  | [] => .error .invalid
  | ['\\'] => .error .invalid
  | '\\' :: c :: r =>
    match escape c r with
    | .ok (.lit d, r') => .ok (.single d, r')
    | .ok (.perl n k, r') => .ok (.perl n k, r')
    | .ok _ => .error .invalid
    | .error e => .error e
  | c :: r => .ok (.single c, r)

/-- An item or range: `ParserI::parse_set_class_range` (external). For `/repo/src/expand/mod.rs:72,117`. -/
def clsRange (cs : List Char) : Except RErr (CItem × List Char) :=
  match clsPrim cs with
  | .error e => .error e
  | .ok (a, r) =>
    match r with
    | [] => .error .invalid
    | ['-'] => .error .invalid
    | '-' :: d :: r' =>
      if d = ']' ∨ d = '-' then .ok (a, r)
      else match clsPrim (d :: r') with
        | .error e => .error e
        | .ok (b, r'') =>
          match a, b with
          | .single x, .single y => if x ≤ y then .ok (.range x y, r'') else .error .invalid
          | _, _ => .error .invalid
    | _ => .ok (a, r)

/-- The names and ranges of the ASCII classes: `ClassAsciiKind::from_name`, `hir::translate::ascii_class` (external).
For `/repo/src/expand/mod.rs:72,117`. -/
def asciiNames : List (List Char × List (Char × Char)) :=
  [(['a', 'l', 'n', 'u', 'm'], [('0', '9'), ('A', 'Z'), ('a', 'z')]),
   (['a', 'l', 'p', 'h', 'a'], [('A', 'Z'), ('a', 'z')]),
   (['a', 's', 'c', 'i', 'i'], [('\x00', '\x7f')]),
   (['b', 'l', 'a', 'n', 'k'], [('\t', '\t'), (' ', ' ')]),
   (['c', 'n', 't', 'r', 'l'], [('\x00', '\x1f'), ('\x7f', '\x7f')]),
   (['d', 'i', 'g', 'i', 't'], [('0', '9')]),
   (['g', 'r', 'a', 'p', 'h'], [('!', '~')]),
   (['l', 'o', 'w', 'e', 'r'], [('a', 'z')]),
   (['p', 'r', 'i', 'n', 't'], [(' ', '~')]),
   (['p', 'u', 'n', 'c', 't'], [('!', '/'), (':', '@'), ('[', '`'), ('{', '~')]),
   (['s', 'p', 'a', 'c', 'e'], [('\t', '\t'), ('\n', '\n'), ('\x0b', '\x0b'), ('\x0c', '\x0c'), ('\r', '\r'), (' ', ' ')]),
   (['u', 'p', 'p', 'e', 'r'], [('A', 'Z')]),
   (['w', 'o', 'r', 'd'], [('0', '9'), ('A', 'Z'), ('_', '_'), ('a', 'z')]),
   (['x', 'd', 'i', 'g', 'i', 't'], [('0', '9'), ('A', 'F'), ('a', 'f')])]

/-- The ASCII classes as they are written after `[`. For `/repo/src/expand/mod.rs:72,117`. -/
def asciiTable : List (List Char × CItem) :=
  asciiNames.flatMap fun x => [(':' :: x.1 ++ [':', ']'], .ascii false x.2), (':' :: '^' :: x.1 ++ [':', ']'], .ascii true x.2)]

/-- What follows a given beginning. For `/repo/src/expand/mod.rs:72,117`. -/
def strip : List Char → List Char → Option (List Char)
  | [], cs => some cs
  | _ :: _, [] => none
  | w :: ws, c :: cs => if w = c then strip ws cs else none

/-- `ParserI::maybe_parse_ascii_class` (external), after `[`. The crate reads a name up to the next `:` and looks it up; as no
name has a `:`, this is the same as trying all of them. For `/repo/src/expand/mod.rs:72,117`. -/
def asciiClass (cs : List Char) : Option (CItem × List Char) :=
  asciiTable.findSome? fun x => (strip x.1 cs).map fun r => (x.2, r)

/-- What a class is made of. For `/repo/src/expand/mod.rs:72,117`. -/
inductive CPiece
  | item (i : CItem)
  | op (k : SetOp)
  deriving DecidableEq, Repr

/-- `ClassSetUnion::into_item` (external). For `/repo/src/expand/mod.rs:72,117`. -/
def CItem.all : List CItem → CItem
  | [] => .void
  | [i] => i
  | i :: j :: is => .union i (CItem.all (j :: is))

/-- `ParserI::pop_class_op` (external). For `/repo/src/expand/mod.rs:72,117`. -/
def popOp : Option (SetOp × CItem) → List CItem → List CItem
  | none, is => is
  | some (k, l), is => [.op k l (.all is)]

/-- The items of a class of given pieces: `ParserI::push_class_op`, `pop_class` (external); all operations are left-associative
and have the same precedence. For `/repo/src/expand/mod.rs:72,117`. -/
def assemble : Option (SetOp × CItem) → List CItem → List CPiece → List CItem
  | p, is, [] => popOp p is
  | p, is, .item i :: ps => assemble p (is ++ [i]) ps
  | p, is, .op k :: ps => assemble (some (k, .all (popOp p is))) [] ps

/-- Leading dashes of a class. For `/repo/src/expand/mod.rs:72,117`. -/
def clsDashes : List Char → List CItem × List Char
  | '-' :: r => let (is, r') := clsDashes r; (.single '-' :: is, r')
  | r => ([], r)

/-- What is literal at the beginning of a class. For `/repo/src/expand/mod.rs:72,117`. -/
def clsLead (cs : List Char) : List CItem × List Char :=
  match clsDashes cs with
  | ([], ']' :: r) => ([.single ']'], r)
  | x => x

/-- Whether the class is negated, what is literal at its beginning, and the rest: `ParserI::parse_set_class_open` (external),
after `[`. For `/repo/src/expand/mod.rs:72,117`. -/
def clsHead : List Char → Bool × List CItem × List Char
  | '^' :: r => (true, clsLead r)
  | r => (false, clsLead r)

/-- One more piece. For `/repo/src/expand/mod.rs:72,117`. -/
def putPiece (p : CPiece) : Except RErr (List CPiece × List Char) → Except RErr (List CPiece × List Char)
  | .error e => .error e
  | .ok (ps, r) => .ok (p :: ps, r)

/-- The rest of a class up to `]`: the loop of `ParserI::parse_set_class` (external), with an explicit stack there.
For `/repo/src/expand/mod.rs:72,117`. -/
def clsItems : Nat → List Char → Except RErr (List CPiece × List Char)
  | 0, _ => .error .invalid
  | n + 1, cs =>
    match cs with
    | [] => .error .invalid
    | ']' :: r => .ok ([], r)
    | '[' :: r =>
      match asciiClass r with
      | some (i, r') => putPiece (.item i) (clsItems n r')
      | none =>
        match clsHead r with
        | (neg, is, q) =>
          match clsItems n q with
          | .error e => .error e
          | .ok (ps, r') => putPiece (.item (.nested neg (.all (assemble none is ps)))) (clsItems n r')
    | '&' :: '&' :: r => putPiece (.op .inter) (clsItems n r)
    | '-' :: '-' :: r => putPiece (.op .diff) (clsItems n r)
    | '~' :: '~' :: r => putPiece (.op .symm) (clsItems n r)
    | cs =>
      match clsRange cs with
      | .error e => .error e
      | .ok (i, r) => putPiece (.item i) (clsItems n r)

/-- What follows `[`: `ParserI::parse_set_class` (external). For `/repo/src/expand/mod.rs:72,117`. -/
def clsOpen (cs : List Char) : Except RErr (Cls × List Char) :=
  match clsHead cs with
  | (neg, is, r) =>
    match clsItems (r.length + 1) r with
    | .error e => .error e
    | .ok (ps, r') => .ok (⟨neg, assemble none is ps⟩, r')

/-- `is_capture_char` (external), on ASCII. For `/repo/src/expand/mod.rs:72,117`. -/
def isCaptureChar (first : Bool) (c : Char) : Bool :=
  c = '_' || (if first then c.isAlpha else c.isAlphanum || c = '.' || c = '[' || c = ']')

/-- A group name up to `>`: `ParserI::parse_capture_name` (external). For `/repo/src/expand/mod.rs:72,117`. -/
def capName : Bool → List Char → Except RErr (List Char × List Char)
  | _, [] => .error .invalid
  | first, c :: r =>
    if c = '>' then (if first then .error .invalid else .ok ([], r))
    else if 128 ≤ c.toNat then .error .unsupported
    else if isCaptureChar first c then
      match capName false r with
      | .ok (n, r') => .ok (c :: n, r')
      | .error e => .error e
    else .error .invalid

/-- What follows `(`: `ParserI::parse_group` (external). For `/repo/src/expand/mod.rs:72,117`. -/
def groupOpen : List Char → Except RErr (Tok × List Char)
  | '?' :: ':' :: r => .ok (.group, r)
  | '?' :: '=' :: _ => .error .invalid
  | '?' :: '!' :: _ => .error .invalid
  | '?' :: '<' :: '=' :: _ => .error .invalid
  | '?' :: '<' :: '!' :: _ => .error .invalid
  | '?' :: '<' :: r =>
    match capName true r with
    | .ok (n, r') => .ok (.capture (some n), r')
    | .error e => .error e
  | '?' :: 'P' :: '<' :: r =>
    match capName true r with
    | .ok (n, r') => .ok (.capture (some n), r')
    | .error e => .error e
  | ['?'] => .error .invalid
  | '?' :: c :: _ => if "imsUuRx-".toList.contains c then .error .unsupported else .error .invalid
  | r => .ok (.capture none, r)

/-- A decimal number. For `/repo/src/expand/mod.rs:72,117`. -/
def decDigits : List Char → List Char × List Char
  | c :: r => if c.isDigit then let (ds, r') := decDigits r; (c :: ds, r') else ([], c :: r)
  | [] => ([], [])

/-- The value of decimal digits. For `/repo/src/expand/mod.rs:72,117`. -/
def decVal (ds : List Char) : Nat := ds.foldl (fun n c => 10 * n + (c.toNat - 48)) 0

/-- `char::is_whitespace` (external). For `/repo/src/expand/mod.rs:72,117`. -/
def isBlank (c : Char) : Bool :=
  (9 ≤ c.toNat && c.toNat ≤ 13) || (0x2000 ≤ c.toNat && c.toNat ≤ 0x200A) ||
    [0x20, 0x85, 0xA0, 0x1680, 0x2028, 0x2029, 0x202F, 0x205F, 0x3000].contains c.toNat

/-- Decimal digits, white space before and after them: `ParserI::parse_decimal` (external). Simplified: `regex_syntax` rejects numbers of
2³² or more. For `/repo/src/expand/mod.rs:72,117`. -/
def numeral (cs : List Char) : List Char × List Char :=
  match decDigits (cs.dropWhile isBlank) with
  | (ds, r) => (ds, r.dropWhile isBlank)

/-- What follows `{`: `ParserI::parse_counted_repetition` (external). For `/repo/src/expand/mod.rs:72,117`. -/
def countTok (cs : List Char) : Except RErr (Tok × List Char) :=
  match numeral cs with
  | ([], _) => .error .invalid
  | (m, '}' :: r) => .ok (.count (decVal m) (some (decVal m)), r)
  | (m, ',' :: '}' :: r) => .ok (.count (decVal m) none, r)
  | (m, ',' :: r) =>
    match numeral r with
    | ([], _) => .error .invalid
    | (n, '}' :: r') => if decVal m ≤ decVal n then .ok (.count (decVal m) (some (decVal n)), r') else .error .invalid
    | _ => .error .invalid
  | _ => .error .invalid

/-- One token of a non-empty pattern `c :: r`: the dispatch of `ParserI::parse_with_comments` and `parse_primitive`
(external). For `/repo/src/expand/mod.rs:72,117`. -/
def lexOne (c : Char) (r : List Char) : Except RErr (Tok × List Char) :=
  match c with
  | '(' => groupOpen r
  | ')' => .ok (.close, r)
  | '|' => .ok (.bar, r)
  | '[' => match clsOpen r with
    | .ok (k, r') => .ok (.cls k, r')
    | .error e => .error e
  | '?' => .ok (.quest, r)
  | '*' => .ok (.star, r)
  | '+' => .ok (.plus, r)
  | '{' => countTok r
  | '.' => .ok (.dot, r)
  | '^' => .ok (.bol, r)
  | '$' => .ok (.eol, r)
  | '\\' => match r with
    | [] => .error .invalid
    | d :: r' => match escape d r' with
      | .ok (.lit e, q) => .ok (.lit e, q)
      | .ok (.perl n k, q) => .ok (.cls ⟨false, [.perl n k]⟩, q)
      | .ok (.start, q) => .ok (.bol, q)
      | .ok (.finish, q) => .ok (.eol, q)
      | .ok (.mark k, q) => .ok (.mark k, q)
      | .error e => .error e
  | c => .ok (.lit c, r)

/-- The inline flags. For `/repo/src/expand/mod.rs:72,117`. -/
inductive Flag
  | i
  | m
  | s
  | U
  | u
  | R
  | x
  deriving DecidableEq, Repr

/-- `ParserI::parse_flag` (external). For `/repo/src/expand/mod.rs:72,117`. -/
def flagOf : Char → Option Flag
  | 'i' => some .i
  | 'm' => some .m
  | 's' => some .s
  | 'U' => some .U
  | 'u' => some .u
  | 'R' => some .R
  | 'x' => some .x
  | _ => none

/-- Flags up to `:` (then the second component is true) or `)`, each with whether it is set or cleared: `ParserI::parse_flags`
(external). The arguments are the flags already read, whether there was a `-`, and whether it was the latest. For `/repo/src/expand/mod.rs:72,117`. -/
def readFlags (seen : List Flag) (neg dangling : Bool) : List Char → Except RErr (List (Flag × Bool) × Bool × List Char)
  | [] => .error .invalid
  | c :: r =>
    if c = ':' ∨ c = ')' then (if dangling then .error .invalid else .ok ([], c == ':', r))
    else if c = '-' then (if neg then .error .invalid else readFlags seen true true r)
    else match flagOf c with
      | none => .error .invalid
      | some f =>
        if f ∈ seen then .error .invalid
        else match readFlags (f :: seen) neg false r with
          | .error e => .error e
          | .ok (l, q) => .ok ((f, !neg) :: l, q)

/-- Whether the model covers setting or clearing the flag. For `/repo/src/expand/mod.rs:72,117`. -/
def Flag.known : Flag × Bool → Bool
  | (.i, _) | (.m, _) | (.s, _) | (.u, true) => true
  | _ => false

/-- Tokens before the flags are applied, with the character with which they begin. For `/repo/src/expand/mod.rs:72,117`. -/
inductive RTok
  | tok (c : Char) (t : Tok)
  /-- `(?i)` -/
  | flags (l : List (Flag × Bool))
  /-- `(?i:` -/
  | scope (l : List (Flag × Bool))
  deriving DecidableEq, Repr

/-- What follows `(?`, if these are flags: `ParserI::parse_group` (external). For `/repo/src/expand/mod.rs:72,117`. -/
def flagsTok (r : List Char) : Except RErr (RTok × List Char) :=
  match readFlags [] false false r with
  | .error e => .error e
  | .ok (l, colon, q) =>
    if l.isEmpty then .error .invalid
    else if l.all Flag.known then .ok (if colon then .scope l else .flags l, q)
    else .error .unsupported

/-- Whether flags begin here. For `/repo/src/expand/mod.rs:72,117`. -/
def atFlags : Char → List Char → Bool
  | '(', '?' :: c :: _ => ['i', 'm', 's', 'U', 'u', 'R', 'x', '-'].contains c
  | _, _ => false

/-- One token, or flags. For `/repo/src/expand/mod.rs:72,117`. -/
def rawOne (c : Char) (r : List Char) : Except RErr (RTok × List Char) :=
  if atFlags c r then flagsTok (r.drop 1)
  else match lexOne c r with
    | .error e => .error e
    | .ok (t, r') => .ok (.tok c t, r')

/-- All tokens before the flags are applied; the first argument bounds their number. For `/repo/src/expand/mod.rs:72,117`. -/
def lexF : Nat → List Char → Except RErr (List RTok)
  | _, [] => .ok []
  | 0, _ :: _ => .error .invalid
  | n + 1, c :: r =>
    match rawOne c r with
    | .error e => .error e
    | .ok (t, r') =>
      match lexF n r' with
      | .error e => .error e
      | .ok ts => .ok (t :: ts)

/-- `hir::translate::Flags` (external), as far as modelled: the flags `i`, `m`, `s`. For `/repo/src/expand/mod.rs:72,117`. -/
structure Flags where
  insens : Bool := false
  multi : Bool := false
  dotAll : Bool := false
  deriving DecidableEq, Repr

/-- `TranslatorI::set_flags` (external). For `/repo/src/expand/mod.rs:72,117`. -/
def Flags.set (f : Flags) : List (Flag × Bool) → Flags
  | [] => f
  | (.i, b) :: l => Flags.set { f with insens := b } l
  | (.m, b) :: l => Flags.set { f with multi := b } l
  | (.s, b) :: l => Flags.set { f with dotAll := b } l
  | _ :: l => Flags.set f l

/-- An item of a class under the flag `i`: `TranslatorI::hir_ascii_unicode_class`, `visit_class_set_item_post` and
`visit_class_set_binary_op_post` (external) fold before they negate or combine. For `/repo/src/expand/mod.rs:72,117`. -/
def CItem.insens : CItem → CItem
  | .ascii neg rs => .fold neg (.ascii false rs)
  | .perl neg (.category n) => .fold neg (.perl false (.category n))
  | .nested neg i => .nested neg (.fold false i.insens)
  | .union i j => .union i.insens j.insens
  | .op k i j => .op k (.fold false i.insens) (.fold false j.insens)
  | .fold neg i => .fold neg i.insens
  | i => i

/-- A bracketed class under the flag `i`: `TranslatorI::unicode_fold_and_negate` (external). For `/repo/src/expand/mod.rs:72,117`. -/
def Cls.insens (k : Cls) : Cls := ⟨k.neg, [.fold false (.all (k.items.map CItem.insens))]⟩

/-- An escape outside brackets under the flag `i`: `TranslatorI::hir_unicode_class` folds, `hir_perl_unicode_class` does not
(external). For `/repo/src/expand/mod.rs:72,117`. -/
def CItem.alone : CItem → CItem
  | .perl neg (.category n) => .fold neg (.perl false (.category n))
  | i => i

/-- The class of such an escape. For `/repo/src/expand/mod.rs:72,117`. -/
def Cls.alone (k : Cls) : Cls := ⟨k.neg, k.items.map CItem.alone⟩

/-- What a token that begins with `c` means under flags: `TranslatorI::hir_literal`, `hir_dot`, `hir_assertion`, `visit_post` for
`Ast::ClassBracketed`, `Ast::ClassUnicode` (external). The flag `i` has no effect on `\d` (but on `[\d]` and `\pL`), the flag `m` none on `\A`. For `/repo/src/expand/mod.rs:72,117`. -/
def Tok.under (f : Flags) (c : Char) : Tok → Tok
  | .lit d => if f.insens then .cls ⟨false, [.fold false (.single d)]⟩ else .lit d
  | .dot => if f.dotAll then .cls ⟨false, [.range (Char.ofNat 0) (Char.ofNat 0x10FFFF)]⟩ else .dot
  | .cls k => if f.insens then (if c == '[' then .cls k.insens else .cls k.alone) else .cls k
  | .bol => if f.multi && c == '^' then .mark .lineStart else .bol
  | .eol => if f.multi && c == '$' then .mark .lineEnd else .eol
  | t => t

/-- The meaning of a token, given the flags and those to be restored at the end of the enclosing groups; the flags after it.
Flags of their own match the empty text. For `/repo/src/expand/mod.rs:72,117`. -/
def RTok.step (f : Flags) (fs : List Flags) : RTok → List Tok × Flags × List Flags
  | .tok _ (.capture n) => ([.capture n], f, f :: fs)
  | .tok _ .group => ([.group], f, f :: fs)
  | .tok _ .close => ([.close], fs.headD {}, fs.tail)
  | .tok c t => ([t.under f c], f, fs)
  | .flags l => ([.group, .close], f.set l, fs)
  | .scope l => ([.group], f.set l, f :: fs)

/-- Whether a repetition operator follows. For `/repo/src/expand/mod.rs:72,117`. -/
def repeats : List RTok → Bool
  | .tok _ .quest :: _ | .tok _ .star :: _ | .tok _ .plus :: _ | .tok _ (.count _ _) :: _ => true
  | _ => false

/-- Tokens in front. For `/repo/src/expand/mod.rs:72,117`. -/
def prep (ts : List Tok) : Except RErr (List Tok) → Except RErr (List Tok)
  | .ok us => .ok (ts ++ us)
  | .error e => .error e

/-- The tokens with the flags applied; flags of their own cannot be repeated. Simplification: the parser of the crate leaves
flags in the tree, and its translator applies them. For `/repo/src/expand/mod.rs:72,117`. -/
def resolve : Flags → List Flags → List RTok → Except RErr (List Tok)
  | _, _, [] => .ok []
  | f, fs, .flags l :: ts => if repeats ts then .error .invalid else prep [.group, .close] (resolve (f.set l) fs ts)
  | f, fs, t :: ts => prep (t.step f fs).1 (resolve (t.step f fs).2.1 (t.step f fs).2.2 ts)

/-- All tokens of a pattern. For `/repo/src/expand/mod.rs:72,117`. -/
def lex (cs : List Char) : Except RErr (List Tok) :=
  match lexF cs.length cs with
  | .error e => .error e
  | .ok ts => resolve {} [] ts

/-- A concatenation. For `/repo/src/expand/mod.rs:72,117`. -/
def catL : List Re → Re
  | [] => .empty
  | [r] => r
  | r :: rs => .cat r (catL rs)

/-- An alternation (of at least one branch). For `/repo/src/expand/mod.rs:72,117`. -/
def altL : List Re → Re
  | [] => .empty
  | [r] => r
  | r :: rs => .alt r (altL rs)

/-- The group being read: finished branches and items of the current branch, both latest first, and whether the latest
item is a repetition operator which a `?` would make lazy. For `/repo/src/expand/mod.rs:72,117`. -/
structure Frame where
  branches : List Re
  items : List Re
  fresh : Bool
  deriving DecidableEq, Repr

/-- A group just opened. For `/repo/src/expand/mod.rs:72,117`. -/
def Frame.start : Frame := ⟨[], [], false⟩

/-- The regex of the group. For `/repo/src/expand/mod.rs:72,117`. -/
def Frame.finish (f : Frame) : Re := altL (catL f.items.reverse :: f.branches).reverse

/-- One more item. For `/repo/src/expand/mod.rs:72,117`. -/
def Frame.push (f : Frame) (r : Re) : Frame := ⟨f.branches, r :: f.items, false⟩

/-- How a group was opened. For `/repo/src/expand/mod.rs:72,117`. -/
inductive Kind
  | capture (name : Option (List Char))
  | group
  deriving DecidableEq, Repr

/-- The node of the group. For `/repo/src/expand/mod.rs:72,117`. -/
def Kind.wrap : Kind → Re → Re
  | .capture n, r => .cap n r
  | .group, r => r

/-- A repetition operator: `ParserI::parse_uncounted_repetition`, `parse_counted_repetition` (external).
For `/repo/src/expand/mod.rs:72,117`. -/
def Frame.repeated (f : Frame) (m : Nat) (n : Option Nat) : Except RErr Frame :=
  match f.items with
  | [] => .error .invalid
  | r :: rs => .ok ⟨f.branches, .rep r m n true :: rs, true⟩

/-- A `?`: makes a directly preceding repetition operator lazy, otherwise it is one itself.
For `/repo/src/expand/mod.rs:72,117`. -/
def Frame.quest (f : Frame) : Except RErr Frame :=
  match f.fresh, f.items with
  | true, .rep r m n _ :: rs => .ok ⟨f.branches, .rep r m n false :: rs, false⟩
  | _, _ => f.repeated 0 (some 1)

/-- The stack machine (`ParserI::push_group`, `pop_group`, `pop_group_end`, `push_alternate`, external).
For `/repo/src/expand/mod.rs:72,117`. -/
def build (st : List (Kind × Frame)) (f : Frame) : List Tok → Except RErr Re
  | [] =>
    match st with
    | [] => .ok f.finish
    | _ :: _ => .error .invalid
  | t :: ts =>
    match t with
    | .lit c => build st (f.push (.lit c)) ts
    | .dot => build st (f.push .dot) ts
    | .cls k => build st (f.push (.cls k)) ts
    | .bol => build st (f.push .bol) ts
    | .eol => build st (f.push .eol) ts
    | .mark k => build st (f.push (.mark k)) ts
    | .capture n => build ((.capture n, f) :: st) .start ts
    | .group => build ((.group, f) :: st) .start ts
    | .close => match st with
      | [] => .error .invalid
      | (k, g) :: st' => build st' (g.push (k.wrap f.finish)) ts
    | .bar => build st ⟨catL f.items.reverse :: f.branches, [], false⟩ ts
    | .quest => match f.quest with
      | .ok f' => build st f' ts
      | .error e => .error e
    | .star => match f.repeated 0 none with
      | .ok f' => build st f' ts
      | .error e => .error e
    | .plus => match f.repeated 1 none with
      | .ok f' => build st f' ts
      | .error e => .error e
    | .count m n => match f.repeated m n with
      | .ok f' => build st f' ts
      | .error e => .error e

/-- The capture groups, in the order of their opening parentheses, with their names.
For `/repo/src/expand/mod.rs:72,117`. -/
def Re.groups : Re → List (Option (List Char))
  | .cap n r => n :: r.groups
  | .cat a b => a.groups ++ b.groups
  | .alt a b => a.groups ++ b.groups
  | .rep r _ _ _ => r.groups
  | _ => []

/-- The group names. For `/repo/src/expand/mod.rs:72,117`. -/
def Re.names (r : Re) : List (List Char) := r.groups.filterMap id

/-- `regex::Regex::new` (external): the syntax tree; duplicate group names are rejected.
For `/repo/src/expand/mod.rs:72,117`. -/
def parse (cs : List Char) : Except RErr Re :=
  match lex cs with
  | .error e => .error e
  | .ok ts =>
    match build [] .start ts with
    | .error e => .error e
    | .ok r => if r.names.Nodup then .ok r else .error .invalid

end CE.Regex
