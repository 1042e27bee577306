import Verif.Model.Expand
import Verif.Model.Ranges

/-!
# `regex_syntax::hir` and `/repo/src/expand/parameters.rs:295-377`

The high-level intermediate representation of regular expressions, its smart constructors and its printer are external
(crate `regex_syntax` 0.8); they are modelled after its source. Simplifications: literals are valid UTF-8 (as for every
HIR of a default `regex_syntax::Parser`), all classes are Unicode classes, the only look-arounds are the unconditional
start and end of text, start and end of a line, and the Unicode word boundaries (which carry the table of word characters, fixed in
the crate), `Properties` other than the maximal length are dropped.
-/

namespace CE

/-- `hir::Look` (external). For `/repo/src/expand/parameters.rs:314`. -/
inductive Look
  | start
  | finish
  | mark (k : Regex.Mark) (table : List (Char × Char))
  deriving DecidableEq, Repr

/-- `hir::HirKind` (external). For `/repo/src/expand/parameters.rs:336-375`. -/
inductive Hir
  | empty
  | literal (cs : List Char)
  | cls (ranges : List (Char × Char))
  | look (l : Look)
  | repetition (min : Nat) (max : Option Nat) (greedy : Bool) (sub : Hir)
  | capture (index : Nat) (name : Option (List Char)) (sub : Hir)
  | concat (subs : List Hir)
  | alternation (subs : List Hir)
  deriving Repr

namespace Hir

mutual
/-- `PartialEq for Hir` (external, derived). For `/repo/src/expand/parameters.rs:336`. -/
def beq : Hir → Hir → Bool
  | .empty, .empty => true
  | .literal a, .literal b => a == b
  | .cls a, .cls b => a == b
  | .look a, .look b => a == b
  | .repetition a b c x, .repetition a' b' c' x' => a == a' && b == b' && c == c' && beq x x'
  | .capture a b x, .capture a' b' x' => a == a' && b == b' && beq x x'
  | .concat xs, .concat ys => beqs xs ys
  | .alternation xs, .alternation ys => beqs xs ys
  | _, _ => false
/-- Pointwise. For `/repo/src/expand/parameters.rs:336`. -/
def beqs : List Hir → List Hir → Bool
  | [], [] => true
  | x :: xs, y :: ys => beq x y && beqs xs ys
  | _, _ => false
end

mutual
theorem beq_iff : ∀ a b : Hir, a.beq b = true ↔ a = b
  | .empty, b => by cases b <;> simp [beq]
  | .literal _, b => by cases b <;> simp [beq]
  | .cls _, b => by cases b <;> simp [beq]
  | .look _, b => by cases b <;> simp [beq]
  | .repetition _ _ _ x, b => by cases b <;> simp [beq, beq_iff x, and_assoc]
  | .capture _ _ x, b => by cases b <;> simp [beq, beq_iff x, and_assoc]
  | .concat xs, b => by cases b <;> simp [beq, beqs_iff xs]
  | .alternation xs, b => by cases b <;> simp [beq, beqs_iff xs]
theorem beqs_iff : ∀ as bs : List Hir, beqs as bs = true ↔ as = bs
  | [], bs => by cases bs <;> simp [beqs]
  | a :: as, bs => by cases bs <;> simp [beqs, beq_iff a, beqs_iff as]
end

/-- Equality is decidable. For `/repo/src/expand/parameters.rs:336`. -/
instance : DecidableEq Hir := fun a b => decidable_of_iff _ (beq_iff a b)

mutual
/-- `Properties::maximum_len` (external), in bytes. For `/repo/src/expand/parameters.rs:341`. -/
def maxLen : Hir → Option Nat
  | .empty => some 0
  | .literal cs => some (blen cs)
  | .cls rs => (rs.map (fun r => r.2.utf8Size)).max?
  | .look _ => some 0
  | .repetition _ max _ sub =>
    match max, sub.maxLen with
    | some n, some k => some (k * n)
    | _, _ => none
  | .capture _ _ sub => sub.maxLen
  | .concat subs => sumLen subs
  | .alternation subs => maxLens subs
/-- The sum. For `/repo/src/expand/parameters.rs:341`. -/
def sumLen : List Hir → Option Nat
  | [] => some 0
  | h :: hs =>
    match h.maxLen, sumLen hs with
    | some a, some b => some (a + b)
    | _, _ => none
/-- The longest. For `/repo/src/expand/parameters.rs:341`. -/
def maxLens : List Hir → Option Nat
  | [] => some 0
  | h :: hs =>
    match h.maxLen, maxLens hs with
    | some a, some b => some (max a b)
    | _, _ => none
end

/-! ## Smart constructors -/

/-- `Hir::literal` (external). For `/repo/src/expand/parameters.rs:338`. -/
def mkLiteral (cs : List Char) : Hir := if cs.isEmpty then .empty else .literal cs

/-- `Hir::class` (external); an empty class is `Hir::fail`. For `/repo/src/expand/parameters.rs:339`. -/
def mkClass : List (Char × Char) → Hir
  | [(a, b)] => if a = b then .literal [a] else .cls [(a, b)]
  | rs => .cls rs

/-- `Hir::repetition` (external). For `/repo/src/expand/parameters.rs:341`. -/
def mkRepetition (min : Nat) (max : Option Nat) (greedy : Bool) (sub : Hir) : Hir :=
  let (mn, mx) := if sub.maxLen = some 0 then (Nat.min min 1, some (match max with | some n => Nat.min n 1 | none => 1))
    else (min, max)
  if mn = 0 ∧ mx = some 0 then .empty
  else if mn = 1 ∧ mx = some 1 then sub
  else .repetition mn mx greedy sub

/-- The children of a concatenation in which nested concatenations are flattened (one level) and empty ones dropped.
For `/repo/src/expand/parameters.rs:361`. -/
def flatConcat : List Hir → List Hir
  | [] => []
  | .concat subs :: hs => subs ++ flatConcat hs
  | .empty :: hs => flatConcat hs
  | h :: hs => h :: flatConcat hs

/-- Adjacent literals are joined. For `/repo/src/expand/parameters.rs:361`. -/
def joinLits : List Hir → List Hir
  | [] => []
  | h :: hs =>
    match h, joinLits hs with
    | .literal a, .literal b :: rest => .literal (a ++ b) :: rest
    | h, rest => h :: rest

/-- `Hir::concat` (external). For `/repo/src/expand/parameters.rs:361`. -/
def mkConcat (subs : List Hir) : Hir :=
  match joinLits (flatConcat subs) with
  | [] => .empty
  | [h] => h
  | hs => .concat hs

/-- The children of an alternation in which nested alternations are flattened (one level).
For `/repo/src/expand/parameters.rs:369`. -/
def flatAlternation : List Hir → List Hir
  | [] => []
  | .alternation subs :: hs => subs ++ flatAlternation hs
  | h :: hs => h :: flatAlternation hs

/-- The ranges, when every child is a single character or a class. For `/repo/src/expand/parameters.rs:369`. -/
def mixedRanges : List Hir → Option (List (Char × Char))
  | [] => some []
  | .literal [c] :: hs => (mixedRanges hs).map ((c, c) :: ·)
  | .cls rs :: hs => (mixedRanges hs).map (rs ++ ·)
  | _ => none

/-- A single character. For `/repo/src/expand/parameters.rs:369`. -/
def isSingleton : Hir → Bool
  | .literal [_] => true
  | _ => false

/-- A class. For `/repo/src/expand/parameters.rs:369`. -/
def isCls : Hir → Bool
  | .cls _ => true
  | _ => false

/-- `singleton_chars` and `class_chars` (external): the ranges, when every child is a single character, or every child is
a class. For `/repo/src/expand/parameters.rs:369`. -/
def charRanges (hs : List Hir) : Option (List (Char × Char)) :=
  if hs.all isSingleton || hs.all isCls then mixedRanges hs else none

theorem charRanges_mixed {hs : List Hir} {rs : List (Char × Char)} (h : charRanges hs = some rs) : mixedRanges hs = some rs := by
  unfold charRanges at h
  split at h
  · exact h
  · cases h

/-- The longest common beginning of two lists. For `/repo/src/expand/parameters.rs:369`. -/
def commonPrefix : List Hir → List Hir → List Hir
  | a :: as, b :: bs => if a = b then a :: commonPrefix as bs else []
  | _, _ => []

/-- The children of each concatenation; `none` if one of `hs` is no concatenation.
For `/repo/src/expand/parameters.rs:369`. -/
def concats : List Hir → Option (List (List Hir))
  | [] => some []
  | .concat subs :: hs => (concats hs).map (subs :: ·)
  | _ => none

/-- `Hir::alternation` (external). Characters, or classes, are joined to a class; `lift_common_prefix` moves a common beginning of all branches out of the alternation. The first argument bounds the
nesting of these moves. For `/repo/src/expand/parameters.rs:369`. -/
def mkAlternationF : Nat → List Hir → Hir
  | 0, subs => .alternation subs
  | n + 1, subs =>
    match flatAlternation subs with
    | [] => .cls []
    | [h] => h
    | hs =>
      match charRanges hs with
      | some rs => mkClass (Ranges.canon rs)
      | none =>
        match concats hs with
        | none | some [] => .alternation hs
        | some (c :: cs) =>
          match cs.foldl commonPrefix c with
          | [] => .alternation hs
          | p => mkConcat (p ++ [mkAlternationF n ((c :: cs).map fun xs => mkConcat (xs.drop p.length))])

mutual
/-- Size of a tree. For `/repo/src/expand/parameters.rs:369`. -/
def size : Hir → Nat
  | .repetition _ _ _ sub => sub.size + 1
  | .capture _ _ sub => sub.size + 1
  | .concat subs => sizes subs + 1
  | .alternation subs => sizes subs + 1
  | _ => 1
/-- Of a list of trees. For `/repo/src/expand/parameters.rs:369`. -/
def sizes : List Hir → Nat
  | [] => 0
  | h :: hs => h.size + sizes hs
end

/-- `Hir::alternation` (external). For `/repo/src/expand/parameters.rs:369`. -/
def mkAlternation (subs : List Hir) : Hir := mkAlternationF (sizes subs + 1) subs

/-! ## `/repo/src/expand/parameters.rs`, module `regex_hir` -/

mutual
/-- `has_capture_groups` (`/repo/src/expand/parameters.rs:308-320`). -/
def hasCaptureGroups : Hir → Bool
  | .empty => false
  | .literal _ => false
  | .cls _ => false
  | .look _ => false
  | .repetition .. => false
  | .capture .. => true
  | .concat inner => anyCaptureGroups inner
  | .alternation inner => anyCaptureGroups inner
/-- `inner.iter().any(has_capture_groups)`. For `/repo/src/expand/parameters.rs:317`. -/
def anyCaptureGroups : List Hir → Bool
  | [] => false
  | h :: hs => h.hasCaptureGroups || anyCaptureGroups hs
end

mutual
/-- `rename_groups_inner` (`/repo/src/expand/parameters.rs:331-376`); also returns the new value of the indexer. -/
def renameGroupsInner (id : Nat) : Hir → Nat → Hir × Nat
  | .empty, n => (.empty, n)
  | .literal l, n => (mkLiteral l, n)
  | .cls c, n => (mkClass c, n)
  | .look l, n => (.look l, n)
  | .repetition a b g s, n => (mkRepetition a b g s, n)
  | .capture i _ s, n =>
    let (s', n') := renameGroupsInner id s (n + 1)
    (.capture i (some (['_', '_'] ++ decimal id ++ ['_'] ++ decimal n)) s', n')
  | .concat subs, n => let (subs', n') := renameGroupsList id subs n; (mkConcat subs', n')
  | .alternation subs, n => let (subs', n') := renameGroupsList id subs n; (mkAlternation subs', n')
/-- `.into_iter().map(|h| rename_groups_inner(h, ..)).collect()`. For `/repo/src/expand/parameters.rs:361-375`. -/
def renameGroupsList (id : Nat) : List Hir → Nat → List Hir × Nat
  | [], n => ([], n)
  | h :: hs, n =>
    let (h', n') := renameGroupsInner id h n
    let (hs', n'') := renameGroupsList id hs n'
    (h' :: hs', n'')
end

/-- `rename_capture_groups` (`/repo/src/expand/parameters.rs:324-326`). -/
def renameCaptureGroups (h : Hir) (id : Nat) : Hir := (renameGroupsInner id h 0).1

/-! ## The printer -/

/-- `Writer::write_literal_char` (external). For `/repo/src/expand/parameters.rs:245`. -/
def printChar (c : Char) : List Char := if Regex.isMeta c then ['\\', c] else [c]

/-- A range of a class. For `/repo/src/expand/parameters.rs:245`. -/
def printRange (r : Char × Char) : List Char :=
  if r.1 = r.2 then printChar r.1
  else if r.1.toNat + 1 = r.2.toNat then printChar r.1 ++ printChar r.2
  else printChar r.1 ++ '-' :: printChar r.2

/-- The suffix of a repetition. For `/repo/src/expand/parameters.rs:245`. -/
def printRep : Nat → Option Nat → Bool → List Char
  | 0, some 1, g => '?' :: lazy g
  | 0, none, g => '*' :: lazy g
  | 1, none, g => '+' :: lazy g
  | 1, some 1, _ => []
  | m, none, g => ['{'] ++ decimal m ++ [',', '}'] ++ lazy g
  | m, some n, g => if m = n then ['{'] ++ decimal m ++ ['}'] else ['{'] ++ decimal m ++ [','] ++ decimal n ++ ['}'] ++ lazy g
where lazy (g : Bool) : List Char := if g then [] else ['?']

mutual
/-- `Display for Hir` (external): `hir::print::Writer::visit_pre`, `visit_post`, `visit_alternation_in`.
For `/repo/src/expand/parameters.rs:245`. -/
def print : Hir → List Char
  | .empty => ['(', '?', ':', ')']
  | .literal cs => if 1 < cs.length then ['(', '?', ':'] ++ (cs.map printChar).flatten ++ [')'] else (cs.map printChar).flatten
  | .cls rs => if rs.isEmpty then ['[', 'a', '&', '&', 'b', ']'] else ['['] ++ (rs.map printRange).flatten ++ [']']
  | .look .start => ['\\', 'A']
  | .look .finish => ['\\', 'z']
  | .look (.mark .word _) => ['\\', 'b']
  | .look (.mark .nonWord _) => ['\\', 'B']
  | .look (.mark .lineStart _) => ['(', '?', 'm', ':', '^', ')']
  | .look (.mark .lineEnd _) => ['(', '?', 'm', ':', '$', ')']
  | .repetition m n g sub => sub.print ++ printRep m n g
  | .capture _ none sub => ['('] ++ sub.print ++ [')']
  | .capture _ (some name) sub => ['(', '?', 'P', '<'] ++ name ++ ['>'] ++ sub.print ++ [')']
  | .concat subs => ['(', '?', ':'] ++ printCat subs ++ [')']
  | .alternation subs => ['(', '?', ':'] ++ printAlt subs ++ [')']
/-- One after the other. For `/repo/src/expand/parameters.rs:245`. -/
def printCat : List Hir → List Char
  | [] => []
  | h :: hs => h.print ++ printCat hs
/-- Separated by `|`. For `/repo/src/expand/parameters.rs:245`. -/
def printAlt : List Hir → List Char
  | [] => []
  | [h] => h.print
  | h :: hs => h.print ++ '|' :: printAlt hs
end

end Hir
end CE
