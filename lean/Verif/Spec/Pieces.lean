import Verif.Model.Parameters
import Verif.Spec.Custom

/-!
# Specification: the meaning of the pieces of a custom regex

How single characters, escapes, classes and repetitions are written and what they match, as the documentation of `regex` has it,
without reference to tokens or syntax trees.
-/

namespace CE.Spec.Pat
open Regex (Cap Matches Classes)

/-- `\a`, `\f`, `\t`, `\n`, `\r`, `\v`. -/
inductive Control
  | bell
  | feed
  | tab
  | newline
  | ret
  | vertical

def Control.letter : Control → Char
  | .bell => 'a'
  | .feed => 'f'
  | .tab => 't'
  | .newline => 'n'
  | .ret => 'r'
  | .vertical => 'v'

/-- The code of the character. -/
def Control.code : Control → Nat
  | .bell => 7
  | .feed => 12
  | .tab => 9
  | .newline => 10
  | .ret => 13
  | .vertical => 11

/-- `\xHH`, `\uHHHH`, `\UHHHHHHHH`; or any number of digits in braces after one of these letters. -/
inductive Form
  | two
  | four
  | eight
  | braces (letter : Char)

/-- The digits and their values. -/
def hexDigits : List (Char × Nat) :=
  [('0', 0), ('1', 1), ('2', 2), ('3', 3), ('4', 4), ('5', 5), ('6', 6), ('7', 7), ('8', 8), ('9', 9),
   ('a', 10), ('b', 11), ('c', 12), ('d', 13), ('e', 14), ('f', 15), ('A', 10), ('B', 11), ('C', 12), ('D', 13), ('E', 14), ('F', 15)]

/-- `n` is the value of digits. -/
inductive HexValue : List Char → Nat → Prop
  | nil : HexValue [] 0
  | snoc (ds n d k) : HexValue ds n → (d, k) ∈ hexDigits → HexValue (ds ++ [d]) (16 * n + k)

/-- What stands for one particular character. -/
inductive Single
  /-- the character itself -/
  | plain (c : Char)
  /-- a punctuation character after a backslash -/
  | escaped (c : Char)
  | control (k : Control)
  /-- the character with this code -/
  | hex (f : Form) (ds : List Char) (n : Nat)

def Single.write : Single → List Char
  | .plain c => [c]
  | .escaped c => ['\\', c]
  | .control k => ['\\', k.letter]
  | .hex .two ds _ => '\\' :: 'x' :: ds
  | .hex .four ds _ => '\\' :: 'u' :: ds
  | .hex .eight ds _ => '\\' :: 'U' :: ds
  | .hex (.braces l) ds _ => '\\' :: l :: '{' :: (ds ++ ['}'])

def Single.char : Single → Char
  | .plain c | .escaped c => c
  | .control k => Char.ofNat k.code
  | .hex _ _ n => Char.ofNat n

/-- It is written correctly; `special` are the characters that need a backslash. -/
def Single.Valid (special : List Char) : Single → Prop
  | .plain c => c ∉ special
  | .escaped c => c.toNat < 128 ∧ c.isAlphanum = false ∧ c ≠ '<' ∧ c ≠ '>'
  | .control _ => True
  | .hex f ds n => HexValue ds n ∧ n.isValidChar ∧ match f with
    | .two => ds.length = 2
    | .four => ds.length = 4
    | .eight => ds.length = 8
    | .braces l => ds ≠ [] ∧ l ∈ ['x', 'u', 'U']

/-- `\d`, `\s`, `\w`, or in capitals for the other characters. -/
inductive Short
  | digit
  | space
  | word

def Short.write : Bool → Short → List Char
  | false, .digit => ['\\', 'd']
  | true, .digit => ['\\', 'D']
  | false, .space => ['\\', 's']
  | true, .space => ['\\', 'S']
  | false, .word => ['\\', 'w']
  | true, .word => ['\\', 'W']

def Short.Has (U : Classes) : Short → Char → Prop
  | .digit => U.digit
  | .space => U.space
  | .word => U.word

/-- The general categories, and the subdivisions of each. -/
def subdivisions : List (Char × List Char) :=
  [('L', ['u', 'l', 't', 'm', 'o']), ('M', ['n', 'c', 'e']), ('N', ['d', 'l', 'o']), ('P', ['c', 'd', 's', 'e', 'i', 'f', 'o']),
   ('S', ['m', 'c', 'k', 'o']), ('Z', ['s', 'l', 'p']), ('C', ['c', 'f', 'o'])]

/-- A general category, by its abbreviated name. -/
structure Category where
  major : Char
  minor : Option Char

def Category.name (k : Category) : List Char := k.major :: k.minor.toList

/-- `\p{Lu}`, `\P{Lu}`; the braces around a single letter may be omitted. -/
def Category.write (neg braces : Bool) (k : Category) : List Char :=
  ['\\', if neg then 'P' else 'p'] ++ if braces then ['{'] ++ k.name ++ ['}'] else k.name

def Category.Valid (braces : Bool) (k : Category) : Prop :=
  (∃ s, (k.major, s) ∈ subdivisions ∧ ∀ m, k.minor = some m → m ∈ s) ∧ (braces = false → k.minor = none)

/-- The ASCII classes. -/
inductive Named
  | alnum
  | alpha
  | ascii
  | blank
  | cntrl
  | digit
  | graph
  | lower
  | print
  | punct
  | space
  | upper
  | word
  | xdigit

def Named.name : Named → List Char
  | .alnum => ['a', 'l', 'n', 'u', 'm']
  | .alpha => ['a', 'l', 'p', 'h', 'a']
  | .ascii => ['a', 's', 'c', 'i', 'i']
  | .blank => ['b', 'l', 'a', 'n', 'k']
  | .cntrl => ['c', 'n', 't', 'r', 'l']
  | .digit => ['d', 'i', 'g', 'i', 't']
  | .graph => ['g', 'r', 'a', 'p', 'h']
  | .lower => ['l', 'o', 'w', 'e', 'r']
  | .print => ['p', 'r', 'i', 'n', 't']
  | .punct => ['p', 'u', 'n', 'c', 't']
  | .space => ['s', 'p', 'a', 'c', 'e']
  | .upper => ['u', 'p', 'p', 'e', 'r']
  | .word => ['w', 'o', 'r', 'd']
  | .xdigit => ['x', 'd', 'i', 'g', 'i', 't']

/-- `[:name:]`, `[:^name:]`. -/
def Named.write (neg : Bool) (n : Named) : List Char :=
  ['[', ':'] ++ (if neg then ['^'] else []) ++ n.name ++ [':', ']']

def Named.Has : Named → Char → Prop
  | .alnum, c => c.isAlphanum
  | .alpha, c => c.isAlpha
  | .ascii, c => c.toNat < 128
  | .blank, c => c = ' ' ∨ c = '\t'
  | .cntrl, c => c.toNat < 32 ∨ c.toNat = 127
  | .digit, c => c.isDigit
  | .graph, c => 32 < c.toNat ∧ c.toNat < 127
  | .lower, c => c.isLower
  | .print, c => 32 ≤ c.toNat ∧ c.toNat < 127
  | .punct, c => 32 < c.toNat ∧ c.toNat < 127 ∧ c.isAlphanum = false
  | .space, c => c = ' ' ∨ 9 ≤ c.toNat ∧ c.toNat ≤ 13
  | .upper, c => c.isUpper
  | .word, c => c.isAlphanum ∨ c = '_'
  | .xdigit, c => ∃ n, (c, n) ∈ hexDigits

/-- What belongs to a class. -/
inductive Item
  | one (s : Single)
  | range (a b : Single)
  | short (neg : Bool) (k : Short)
  | category (neg braces : Bool) (k : Category)
  | named (neg : Bool) (n : Named)

/-- Characters with a meaning in classes. -/
def specialInside : List Char := ['\\', '[', ']', '^', '-', '&', '~', ':']

def Item.write : Item → List Char
  | .one s => s.write
  | .range a b => a.write ++ '-' :: b.write
  | .short neg k => k.write neg
  | .category neg braces k => k.write neg braces
  | .named neg n => n.write neg

def Item.Valid : Item → Prop
  | .one s => s.Valid specialInside
  | .range a b => a.Valid specialInside ∧ b.Valid specialInside ∧ a.char ≤ b.char
  | .category _ braces k => k.Valid braces
  | _ => True

/-- With `neg`, the other characters. -/
def flip (neg : Bool) (P : Char → Prop) (c : Char) : Prop := if neg then ¬ P c else P c

/-- With `ins`, also the characters that differ from one of these in case only. -/
def widen (U : Classes) (ins : Bool) (P : Char → Prop) (c : Char) : Prop := P c ∨ ins ∧ ∃ d, U.fold d c ∧ P d

/-- The characters of an item; `ins`: under the flag `i`. -/
def Item.Has (U : Classes) (ins : Bool) : Item → Char → Prop
  | .one s, c => c = s.char
  | .range a b, c => a.char ≤ c ∧ c ≤ b.char
  | .short neg k, c => flip neg (k.Has U) c
  | .category neg _ k, c => flip neg (widen U ins (U.category k.name)) c
  | .named neg n, c => flip neg (widen U ins n.Has) c

/-- `&&`, `--`, `~~`. -/
inductive Op
  | inter
  | diff
  | symm

def Op.write : Op → List Char
  | .inter => ['&', '&']
  | .diff => ['-', '-']
  | .symm => ['~', '~']

def Op.apply (P Q : Char → Prop) (c : Char) : Op → Prop
  | .inter => P c ∧ Q c
  | .diff => P c ∧ ¬ Q c
  | .symm => ¬ (P c ↔ Q c)

/-- What stands between brackets. -/
inductive Body
  | nil
  | item (i : Item) (r : Body)
  /-- a class in a class -/
  | sub (neg : Bool) (b r : Body)
  | op (k : Op) (r : Body)

/-- A class. -/
def bracketed (neg : Bool) (s : List Char) : List Char := '[' :: ((if neg then ['^'] else []) ++ s ++ [']'])

def Body.write : Body → List Char
  | .nil => []
  | .item i r => i.write ++ r.write
  | .sub neg b r => bracketed neg b.write ++ r.write
  | .op k r => k.write ++ r.write

/-- It begins with an item or class. -/
def Body.Begins : Body → Prop
  | .item _ _ | .sub _ _ _ => True
  | _ => False

def Body.Valid : Body → Prop
  | .nil => True
  | .item i r => i.Valid ∧ r.Valid
  | .sub _ b r => b.Begins ∧ b.Valid ∧ r.Valid
  | .op _ r => r.Valid

/-- The characters of a class: all operations are left-associative and bind weaker than juxtaposition. `left` is what the operation
before makes of the characters up to the next one, `cur` are those since then. -/
def Body.Has (U : Classes) (ins : Bool) (left : (Char → Prop) → Char → Prop) (cur : Char → Prop) : Body → Char → Prop
  | .nil => left cur
  | .item i r => r.Has U ins left fun c => cur c ∨ i.Has U ins c
  | .sub neg b r => r.Has U ins left fun c => cur c ∨ flip neg (widen U ins (b.Has U ins id fun _ => False)) c
  | .op k r => r.Has U ins (fun P c => k.apply (widen U ins (left cur)) (widen U ins P) c) fun _ => False

/-- What matches one character. -/
inductive Piece
  | one (s : Single)
  | short (neg : Bool) (k : Short)
  | category (neg braces : Bool) (k : Category)
  | dot
  | set (neg : Bool) (b : Body)

/-- Characters with a meaning outside classes. -/
def specialOutside : List Char := ['\\', '.', '+', '*', '?', '(', ')', '|', '[', ']', '{', '}', '^', '$']

def Piece.write : Piece → List Char
  | .one s => s.write
  | .short neg k => k.write neg
  | .category neg braces k => k.write neg braces
  | .dot => ['.']
  | .set neg b => bracketed neg b.write

def Piece.Valid : Piece → Prop
  | .one s => s.Valid specialOutside
  | .set _ b => b.Begins ∧ b.Valid
  | .category _ braces k => k.Valid braces
  | _ => True

/-- The characters a piece matches. -/
def Piece.Has (U : Classes) (ins : Bool) : Piece → Char → Prop
  | .one s, c => widen U ins (· = s.char) c
  | .short neg k, c => flip neg (k.Has U) c
  | .category neg _ k, c => flip neg (widen U ins (U.category k.name)) c
  | .dot, c => c ≠ '\n'
  | .set neg b, c => flip neg (widen U ins (b.Has U ins id fun _ => False)) c

/-- How often. -/
inductive Quant
  | optional
  | any
  | some
  | exactly (m : Nat)
  | atLeast (m : Nat)
  | between (m n : Nat)

def Quant.write : Quant → List Char
  | .optional => ['?']
  | .any => ['*']
  | .some => ['+']
  | .exactly m => ['{'] ++ Nat.toDigits 10 m ++ ['}']
  | .atLeast m => ['{'] ++ Nat.toDigits 10 m ++ [',', '}']
  | .between m n => ['{'] ++ Nat.toDigits 10 m ++ [','] ++ Nat.toDigits 10 n ++ ['}']

def Quant.Valid : Quant → Prop
  | .between m n => m ≤ n
  | _ => True

/-- It allows `k` times. -/
def Quant.Allows (k : Nat) : Quant → Prop
  | .optional => k ≤ 1
  | .any => True
  | .some => 1 ≤ k
  | .exactly m => k = m
  | .atLeast m => m ≤ k
  | .between m n => m ≤ k ∧ k ≤ n

/-- A piece, maybe repeated, maybe lazily. -/
structure Factor where
  piece : Piece
  quant : Option (Quant × Bool)

def Factor.write (f : Factor) : List Char :=
  f.piece.write ++ match f.quant with
    | none => []
    | some (q, lazily) => q.write ++ if lazily then ['?'] else []

def Factor.Valid (f : Factor) : Prop := f.piece.Valid ∧ ∀ q l, f.quant = some (q, l) → q.Valid

/-- What a factor matches. -/
def Factor.Takes (U : Classes) (ins : Bool) (f : Factor) (x : List Char) : Prop :=
  (∀ c ∈ x, f.piece.Has U ins c) ∧ match f.quant with
    | none => x.length = 1
    | some (q, _) => q.Allows x.length

/-- One factor after the other. -/
def Sequence (U : Classes) (ins : Bool) : List Factor → List Char → Prop
  | [], x => x = []
  | f :: fs, x => ∃ y z, x = y ++ z ∧ f.Takes U ins y ∧ Sequence U ins fs z

/-- A regex: maybe `(?i)`, then branches. -/
structure Pattern where
  ins : Bool
  first : List Factor
  others : List (List Factor)

def writeBranch (b : List Factor) : List Char := (b.map Factor.write).flatten

def Pattern.value (p : Pattern) : List Char :=
  (if p.ins then ['(', '?', 'i', ')'] else []) ++ writeBranch p.first ++ (p.others.map fun b => '|' :: writeBranch b).flatten

def Pattern.Valid (p : Pattern) : Prop := ∀ b ∈ p.first :: p.others, ∀ f ∈ b, f.Valid

/-- What it matches. -/
def Pattern.Takes (U : Classes) (p : Pattern) (x : List Char) : Prop := ∃ b ∈ p.first :: p.others, Sequence U p.ins b x

/-- What a parameter matches and captures, with given patterns for the custom ones. -/
def patternMatch (U : Classes) (F : Parameter → Option Pattern) (p : Parameter) : Nat → Matches := fun g pre x _ l =>
  match F p with
  | none => ∃ b : Builtin, p.input.frag = b.name ∧ b.Lang U x ∧ b.Captures g pre.length x l
  | some f => f.Takes U x ∧ l = [⟨g, pre.length, x⟩]

/-- The number of its groups. -/
def patternGroups (F : Parameter → Option Pattern) (p : Parameter) : Nat :=
  match F p with
  | none => if p.input.frag = Builtin.string.name then 2 else 1
  | some _ => 1

/-- A parameter is built in or has one of these regexes. -/
def HasPattern (pars : Provider) (F : Parameter → Option Pattern) (p : Parameter) : Prop :=
  match F p with
  | none => pars p.input = none ∧ ∃ b : Builtin, p.input.frag = b.name
  | some f => pars p.input = some f.value ∧ f.Valid

end CE.Spec.Pat
