import Verif.Spec.Lang

/-!
# Specification: values as Rust prints and reads them

`Display` and `FromStr` of the integer and float types, from the documentation of `std`, and quoting of strings.
-/

namespace CE.Spec.Values
open Regex (Classes)

/-- On ASCII characters, `\d` is `0` to `9`. (On others it is not restricted: `regex` has Unicode digits.) -/
def AsciiDigits (U : Classes) : Prop := ∀ c : Char, c.toNat < 128 → (U.digit c ↔ c.isDigit = true)

/-- A text of ASCII characters. -/
def Ascii (x : List Char) : Prop := ∀ c ∈ x, c.toNat < 128

/-! ## Integers -/

/-- How Rust prints an integer. -/
def printInt : Int → List Char
  | .ofNat n => Nat.toDigits 10 n
  | .negSucc n => '-' :: Nat.toDigits 10 (n + 1)

/-- The value of decimal digits. -/
def digitsValue (ds : List Char) : Nat := ds.foldl (fun n c => 10 * n + (c.toNat - '0'.toNat)) 0

/-- One or more ASCII digits. -/
def readNat (x : List Char) : Option Nat := if x ≠ [] ∧ x.all Char.isDigit = true then some (digitsValue x) else none

/-- How Rust reads an integer, of whatever size: an optional sign, then digits. -/
def readInt : List Char → Option Int
  | [] => none
  | c :: d =>
    if c = '-' then (readNat d).map fun n : Nat => -(n : Int)
    else if c = '+' then (readNat d).map fun n : Nat => (n : Int)
    else (readNat (c :: d)).map fun n : Nat => (n : Int)

/-- How Rust reads an integer of a signed type with `bits` bits. -/
def readSigned (bits : Nat) (x : List Char) : Option Int :=
  (readInt x).filter fun n => decide (-(2 : Int) ^ (bits - 1) ≤ n ∧ n < (2 : Int) ^ (bits - 1))

/-! ## Floats -/

/-- Zero or more ASCII digits. -/
def Num0 (x : List Char) : Prop := ∀ c ∈ x, c.isDigit = true
/-- One or more ASCII digits. -/
def Num (x : List Char) : Prop := x ≠ [] ∧ Num0 x

/-- `Number ::= ( Digit+ | Digit+ '.' Digit* | Digit* '.' Digit+ ) Exp?` of `f64::from_str`. -/
def FloatNumber (x : List Char) : Prop :=
  ∃ m e, x = m ++ e ∧
    (Num m ∨ (∃ a b, m = a ++ '.' :: b ∧ Num a ∧ Num0 b) ∨ (∃ a b, m = a ++ '.' :: b ∧ Num0 a ∧ Num b)) ∧
    (e = [] ∨ ∃ c s d, e = c :: (s ++ d) ∧ (c = 'e' ∨ c = 'E') ∧ (s = [] ∨ s = ['+'] ∨ s = ['-']) ∧ Num d)

/-- `inf`, `infinity` or `nan`, in any mixture of cases. -/
def FloatWord (x : List Char) : Prop :=
  x.map Char.toLower ∈ [['i', 'n', 'f'], ['i', 'n', 'f', 'i', 'n', 'i', 't', 'y'], ['n', 'a', 'n']]

/-- `Float ::= Sign? ( 'inf' | 'infinity' | 'nan' | Number )` of `f64::from_str`: the texts it reads. -/
def ReadableFloat (x : List Char) : Prop :=
  ∃ s b, x = s ++ b ∧ (s = [] ∨ s = ['+'] ∨ s = ['-']) ∧ (FloatWord b ∨ FloatNumber b)

/-- What `Display`, `Debug` and `LowerExp`/`UpperExp` print for floats: `-`, if negative; `inf`, `NaN` or digits, digits after
a point, an exponent. -/
def PrintedFloat (x : List Char) : Prop :=
  ∃ s b, x = s ++ b ∧ (s = [] ∨ s = ['-']) ∧
    (b = ['i', 'n', 'f'] ∨ b = ['N', 'a', 'N'] ∨
      ∃ a f e, b = a ++ f ++ e ∧ Num a ∧ (f = [] ∨ ∃ d, f = '.' :: d ∧ Num d) ∧
        (e = [] ∨ ∃ c s d, e = c :: (s ++ d) ∧ (c = 'e' ∨ c = 'E') ∧ (s = [] ∨ s = ['-']) ∧ Num d))

/-! ## Strings -/

/-- A text between quotes `q`: a backslash before every `q` and every backslash. -/
def quoted (q : Char) (x : List Char) : List Char := x.flatMap fun c => if c = q ∨ c = '\\' then ['\\', c] else [c]

/-- Removes the backslashes. -/
def unquoted : List Char → List Char
  | [] => []
  | [c] => [c]
  | c :: d :: cs => if c = '\\' then d :: unquoted cs else c :: unquoted (d :: cs)

end CE.Spec.Values
