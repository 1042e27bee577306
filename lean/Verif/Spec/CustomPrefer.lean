import Verif.Model.HirSearch
import Verif.Spec.CustomRegular
import Verif.Spec.Prefer
import Verif.Spec.Steady

/-!
# Specification: which of several possible matches is returned, with custom parameters

As `Spec/Prefer.lean`. A custom regex by itself tries its matches in a certain order; a custom parameter is to try them in the
same order.
-/

namespace CE.Spec
open Regex (Ast Cap Try)

variable (T : Tables) (pars : Provider)

/-- Captures of groups with numbers greater by `d`. -/
def later (d : Nat) (l : List Cap) : List Cap := l.map fun c => ⟨c.group + d, c.start, c.text⟩

/-- The choice made at an element: as in `Spec/Prefer.lean`; for a custom parameter, a match of its regex (with the captures of
this regex). -/
inductive CustomChoice
  | known (c : Choice)
  | own (a : Try)
  deriving DecidableEq

/-- Choices, and the text each element matches. -/
abbrev Way := List (CustomChoice × List Char)

/-- The whole text. -/
def Way.text (ws : Way) : List Char := (ws.map (·.2)).flatten

/-- What a custom parameter captures where its regex captures `l`: if the regex has no group outside repetitions, also its
whole match `x`. -/
def ownCaptures (a : Ast) (g p : Nat) (x : List Char) (l : List Cap) : List Cap :=
  if a.outerGroup then later (g - 1) l else ⟨g, p, x⟩ :: later g l

/-- With choice `c`, the element matches `x` between `pre` and `post`, its groups, numbered from `g`, capturing `l`. -/
def _root_.CE.SingleExpression.FitsIn (e : SingleExpression) (g : Nat) (pre : List Char) (c : CustomChoice) (x post : List Char)
    (l : List Cap) : Prop :=
  match e, c with
  | .parameter p, .own a => ∃ v t h, pars p.input = some v ∧ Ast.parse v = .ok t ∧ hirOf T v = some h ∧
      a ∈ h.tries pre (x ++ post) ∧ x = a.1 ∧ l = ownCaptures t g pre.length x a.2
  | .parameter p, .known c => pars p.input = none ∧ (SingleExpression.parameter p).Fits T.classes g pre.length c x l
  | e, .known c => e.Fits T.classes g pre.length c x l
  | _, .own _ => False

/-- The expression matches in this way between `pre` and `post`, capturing `l`. -/
inductive FitsC : Expression → (g : Nat) → (pre : List Char) → Way → (post : List Char) → List Cap → Prop
  | nil (g pre post) : FitsC [] g pre [] post []
  | cons (e es g pre c x ws post k l) : e.FitsIn T pars g pre c x (ws.text ++ post) k →
      FitsC es (g + e.groupCountWith (customGroups pars)) (pre ++ x) ws post l →
      FitsC (e :: es) g pre ((c, x) :: ws) post (k ++ l)

/-- In the list, `a` comes before `b`. -/
def ComesFirst (L : List Try) (a b : Try) : Prop := a ≠ b ∧ ∃ l r, L = l ++ a :: r ∧ b ∉ l

/-- The order of choices, where `pre` and `rest` are before and after: a custom parameter tries the matches of its regex in
their order. -/
def _root_.CE.SingleExpression.FirstIn (e : SingleExpression) (pre rest : List Char) (c d : CustomChoice) : Prop :=
  match e, c, d with
  | .parameter p, .own a, .own b => ∃ v h, pars p.input = some v ∧ hirOf T v = some h ∧ ComesFirst (h.tries pre rest) a b
  | e, .known c, .known d => e.TriedBefore T.classes c d
  | _, _, _ => False

/-- At the first element where they differ, the left choice is tried before the right one. -/
inductive PreferredC : Expression → (pre rest : List Char) → Way → Way → Prop
  | here (e es pre rest c d x y ws vs) : e.FirstIn T pars pre rest c d → PreferredC (e :: es) pre rest ((c, x) :: ws) ((d, y) :: vs)
  | there (e es pre rest c x ws vs) : PreferredC es (pre ++ x) (rest.drop x.length) ws vs →
      PreferredC (e :: es) pre rest ((c, x) :: ws) ((c, x) :: vs)

/-- A custom regex that is renamed has no lazy exact number of repetitions (see `C72_false`). -/
def SteadyParam (p : Parameter) : Prop :=
  ∀ v a, pars p.input = some v → Ast.parse v = .ok a → a.outerGroup = true → a.Steady

end CE.Spec
