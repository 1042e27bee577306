/-!
# Located input spans

Models the input type `Spanned<'s> = nom_locate::LocatedSpan<&'s str>` (`/repo/src/ast.rs:26`) and the
`nom::Input` operations on it that the crate calls. Text is a list of Unicode scalar values; every length
and index is in UTF-8 *bytes*, as in Rust.  Slicing panics in Rust when the index is out of range or not on a
character boundary: here it is `none`.

Simplifications: `usize`/`u32` counters are unbounded naturals; the `extra: ()` field is dropped.
-/

namespace CE

/-- Length in UTF-8 bytes of a string: `<&str as Input>::input_len` (external, `nom::traits`), used at
`/repo/src/parse.rs:75,313`, `/repo/src/combinator.rs:62-69`, `/repo/src/ast.rs:119-120`. -/
def blen : List Char → Nat
  | [] => 0
  | c :: cs => c.utf8Size + blen cs

/-- `(&s[..n], &s[n..])` on a `&str`; `none` models the panic of Rust's string slicing (index out of range, or
inside a multi-byte character). Used by `take`/`take_from`/`take_split` (external, `nom::traits::Input for &str`).
For `/repo/src/parse.rs:78`. -/
def splitBytes : Nat → List Char → Option (List Char × List Char)
  | 0, cs => some ([], cs)
  | _ + 1, [] => none
  | n + 1, c :: cs =>
    if c.utf8Size ≤ n + 1 then
      match splitBytes (n + 1 - c.utf8Size) cs with
      | some (a, b) => some (c :: a, b)
      | none => none
    else none

/-- Number of newlines, as counted by `LocatedSpan::slice_by` (external, `nom_locate`). For `/repo/src/ast.rs:26`. -/
def nlCount : List Char → Nat
  | [] => 0
  | c :: cs => (if c = '\n' then 1 else 0) + nlCount cs

/-- `Spanned<'s>` (`/repo/src/ast.rs:25-26`): a fragment with its byte offset and (1-based) line. -/
structure Span where
  offset : Nat
  line : Nat
  frag : List Char
  deriving DecidableEq, Repr

namespace Span

/-- `Spanned::new(value)` (`/repo/src/ast.rs:41`; external `LocatedSpan::new`). -/
def new (s : List Char) : Span := ⟨0, 1, s⟩

/-- `Input::input_len` of a span: the byte length of its fragment. For `/repo/src/parse.rs:75`. -/
def inputLen (s : Span) : Nat := blen s.frag

/-- `Input::take(n)`: the first `n` bytes; offset and line stay. `none` is a panic.
Called at `/repo/src/parse.rs:78,165,169,175,...`. -/
def take (s : Span) (n : Nat) : Option Span :=
  match splitBytes n s.frag with
  | some (a, _) => some ⟨s.offset, s.line, a⟩
  | none => none

/-- `Input::take_from(n)`: everything but the first `n` bytes; the offset advances by `n`, the line by the number
of newlines skipped (`LocatedSpan::slice_by`). `none` is a panic. Called at `/repo/src/combinator.rs:68,93,98,124`. -/
def takeFrom (s : Span) (n : Nat) : Option Span :=
  match splitBytes n s.frag with
  | some (a, b) => some ⟨s.offset + n, s.line + nlCount a, b⟩
  | none => none

/-- `Input::take_split(n)` = `(take_from(n), take(n))`: rest first. Called at `/repo/src/combinator.rs:115`. -/
def takeSplit (s : Span) (n : Nat) : Option (Span × Span) :=
  match s.takeFrom n, s.take n with
  | some r, some t => some (r, t)
  | _, _ => none

/-- Byte index of the first character satisfying `q`: `Input::position` on `&str`. For `/repo/src/parse.rs:193`. -/
def positionL (q : Char → Bool) : List Char → Option Nat
  | [] => none
  | c :: cs => if q c then some 0 else (positionL q cs).map (c.utf8Size + ·)

/-- `Input::position` on a span. For `/repo/src/parse.rs:193`. -/
def position (s : Span) (q : Char → Bool) : Option Nat := positionL q s.frag

/-- `Input::slice_index(count)` on `&str`: byte index of the `count`-th character, the length if there are exactly
`count` characters, and `Err(Needed::Unknown)` (here `none`) if there are fewer. Called at `/repo/src/parse.rs:78`. -/
def sliceIndexL : Nat → List Char → Option Nat
  | 0, _ => some 0
  | _ + 1, [] => none
  | n + 1, c :: cs => (sliceIndexL n cs).map (c.utf8Size + ·)

/-- `Input::slice_index` on a span. For `/repo/src/parse.rs:78`. -/
def sliceIndex (s : Span) (n : Nat) : Option Nat := sliceIndexL n s.frag

/-- `self.offset(&second)` (external `Offset for LocatedSpan`): difference of the absolute offsets.
Called at `/repo/src/combinator.rs:114`. `none` models the `usize` underflow panic. -/
def offsetTo (s second : Span) : Option Nat :=
  if s.offset ≤ second.offset then some (second.offset - s.offset) else none

end Span
end CE
