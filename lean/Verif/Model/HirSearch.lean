import Verif.Model.Translate

/-!
# The `regex` crate: the match that is returned, with the simplifications of the HIR

`regex::Regex` compiles the HIR, not the syntax tree. Translation changes the order in which matches are tried where it moves
the common beginning of all branches out of an alternation (`Hir.mkAlternationF`). As in `Model/RegexSearch.lean`, the matches
are listed in the order in which they are tried.
-/

namespace CE.Hir
open Regex (Try Cap oneChar andThen repTries)

mutual
/-- All matches of a beginning of `rest`, in the order in which they are tried. For `/repo/src/expand/mod.rs:66-73`. -/
def tries : Hir → (pre rest : List Char) → List Try
  | .empty, _, _ => [([], [])]
  | .literal cs, _, rest => if cs.isPrefixOf rest then [(cs, [])] else []
  | .cls rs, _, rest => oneChar (Ranges.mem rs) rest
  | .look .start, pre, _ => if pre.isEmpty then [([], [])] else []
  | .look .finish, _, rest => if rest.isEmpty then [([], [])] else []
  | .look (.mark k t), pre, rest => if k.test (Ranges.mem t) pre rest then [([], [])] else []
  | .repetition m n greedy sub, pre, rest => repTries (fun p q => sub.tries p q) greedy (m + rest.length) m n pre rest
  | .capture i _ sub, pre, rest => (sub.tries pre rest).map fun a => (a.1, ⟨i, pre.length, a.1⟩ :: a.2)
  | .concat subs, pre, rest => catTries subs pre rest
  | .alternation subs, pre, rest => altTries subs pre rest
/-- One after the other. For `/repo/src/expand/mod.rs:66-73`. -/
def catTries : List Hir → (pre rest : List Char) → List Try
  | [], _, _ => [([], [])]
  | h :: hs, pre, rest => andThen (h.tries pre rest) fun x => catTries hs (pre ++ x) (rest.drop x.length)
/-- First the first. For `/repo/src/expand/mod.rs:66-73`. -/
def altTries : List Hir → (pre rest : List Char) → List Try
  | [], _, _ => []
  | h :: hs, pre, rest => h.tries pre rest ++ altTries hs pre rest
end

/-- `Regex::captures`: the beginning (in characters), the text and the captures of the returned match.
For `/repo/src/expand/mod.rs:66-73`. -/
def find (h : Hir) (w : List Char) : Option (Nat × Try) :=
  (List.range (w.length + 1)).findSome? fun i => ((h.tries (w.take i) (w.drop i)).head?).map (i, ·)

end CE.Hir
