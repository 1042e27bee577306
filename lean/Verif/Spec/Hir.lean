import Verif.Model.Hir
import Verif.Model.RegexSem
import Verif.Spec.Lang

/-!
# Specification: what a HIR means

The regular expression a HIR stands for, and which HIRs a parser yields in the modelled fragment.
-/

namespace CE.Spec
open Regex (Re CItem)

/-- A range of a class: single characters, or a range of at least three. -/
def rangeItems (r : Char × Char) : List CItem :=
  if r.1 = r.2 then [.single r.1] else if r.1.toNat + 1 = r.2.toNat then [.single r.1, .single r.2] else [.range r.1 r.2]

/-- The items of a class of given ranges; the class without characters is written as an intersection of disjoint ones. -/
def classItems : List (Char × Char) → List CItem
  | [] => [.op .inter (.single 'a') (.single 'b')]
  | r :: rs => (r :: rs).flatMap rangeItems

end CE.Spec

namespace CE.Hir
open Spec Regex

mutual
/-- The regular expression a HIR stands for. -/
def toRe : Hir → Re
  | .empty => .empty
  | .literal cs => catL (cs.map .lit)
  | .cls rs => .cls ⟨false, classItems rs⟩
  | .look .start => .bol
  | .look .finish => .eol
  | .look (.mark k _) => .mark k
  | .repetition m n g sub => .rep sub.toRe m n (n == some m || g)
  | .capture _ name sub => .cap name sub.toRe
  | .concat subs => catL (toRes subs)
  | .alternation subs => altL (toRes subs)
def toRes : List Hir → List Re
  | [] => []
  | h :: hs => h.toRe :: toRes hs
end

/-- A group name (of ASCII characters). -/
def ValidName (n : List Char) : Prop :=
  ∃ c r, n = c :: r ∧ isCaptureChar true c = true ∧ ∀ d ∈ r, isCaptureChar false d = true

/-- A repetition which is written without a final `?`, so that a `?` written after it makes it lazy. -/
def eager : Hir → Bool
  | .repetition m n g _ => n == some m || g
  | _ => false

mutual
/-- HIRs of the fragment: no empty literal or alternation; sensible bounds; no `?` directly above an eager repetition
(which the printer does not separate) and no repetition that the constructor would simplify; valid group names. -/
def Wf : Hir → Prop
  | .empty => True
  | .literal cs => cs ≠ []
  | .cls rs => ∀ r ∈ rs, r.1 ≤ r.2
  | .look _ => True
  | .repetition m n g sub => sub.Wf ∧ ¬ (sub.eager = true ∧ m = 0 ∧ n = some 1) ∧ (∀ k, n = some k → m ≤ k) ∧ mkRepetition m n g sub = .repetition m n g sub
  | .capture _ name sub => sub.Wf ∧ ∀ n, name = some n → ValidName n
  | .concat subs => WfAll subs
  | .alternation subs => subs ≠ [] ∧ WfAll subs
def WfAll : List Hir → Prop
  | [] => True
  | h :: hs => h.Wf ∧ WfAll hs
end

mutual
/-- The indices of the capture groups, in order; different groups of a parsed regex have different indices. -/
def indices : Hir → List Nat
  | .repetition _ _ _ sub => sub.indices
  | .capture i _ sub => i :: sub.indices
  | .concat subs => indicesL subs
  | .alternation subs => indicesL subs
  | _ => []
def indicesL : List Hir → List Nat
  | [] => []
  | h :: hs => h.indices ++ indicesL hs
end

end CE.Hir

namespace CE.Spec
open Regex (Re)

/-- The groups of a regex, in the order of their opening parentheses: name, and whether the group is inside a
repetition. -/
def _root_.CE.Regex.Re.marked : Re → List (Option (List Char) × Bool)
  | .cap n r => (n, false) :: r.marked
  | .cat a b => a.marked ++ b.marked
  | .alt a b => a.marked ++ b.marked
  | .rep r _ _ _ => r.groups.map (·, true)
  | _ => []

/-- There is a capture group outside repetitions. -/
def _root_.CE.Hir.outerGroup (h : Hir) : Bool := h.toRe.marked.any (! ·.2)

/-- Groups outside repetitions are named `__id_n`, `__id_(n+1)`, …; groups inside keep their names. -/
def relabel (id : Nat) : Nat → List (Option (List Char) × Bool) → List (Option (List Char))
  | _, [] => []
  | n, (_, false) :: gs => some (groupName id n) :: relabel id (n + 1) gs
  | n, (name, true) :: gs => name :: relabel id n gs

/-- The same matches with the same captures (regardless of names), for given classes. -/
def _root_.CE.Regex.LikeIn (U : Regex.Classes) (r s : Re) : Prop := r.groups.length = s.groups.length ∧
  ∀ (g : Nat) (pre x post : List Char) (l : List Regex.Cap), r.Match U g pre x post l ↔ s.Match U g pre x post l

/-- The same matches with the same captures (regardless of names). -/
def _root_.CE.Regex.Like (r s : Re) : Prop := r.groups.length = s.groups.length ∧
  ∀ (U : Regex.Classes) (g : Nat) (pre x post : List Char) (l : List Regex.Cap), r.Match U g pre x post l ↔ s.Match U g pre x post l

end CE.Spec
