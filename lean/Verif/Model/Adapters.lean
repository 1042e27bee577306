import Verif.Model.Parameters

/-!
# The expansion as a machine of iterators

`Verif.Model.Expand` and `Verif.Model.Parameters` describe `into_regex_char_iter` by the list of all items.  Here the
iterators are built as in the code: every adapter of `std::iter` (and `either::Either`) is a state with a `next`
function, and the lookups of custom parameters are effects: `Provider::get` takes `&self`, but a provider may count,
log or change its answers by interior mutability.  `S` is the state it keeps (outside of its clones), and `next` passes
it on.

The adapters are modelled from knowledge of `std`; forward iteration only (`back` iterators are never used by
`next`), `size_hint` and other overridable methods are not modelled.
-/

namespace CE

/-- `Iterator::next` with the effects of lookups on the state `S`; the outer `none`: the call does not return.
For `/repo/src/expand/parameters.rs:188`. -/
abbrev NextS (S σ α : Type) := σ → S → Option ((Option α × σ) × S)

namespace Iter

variable {S σ τ α β : Type}

/-- An iterator without effects. For `/repo/src/expand/mod.rs:297`. -/
def lift (nx : Next σ α) : NextS S σ α := fun s e => (nx s).map (·, e)

/-- An iterator without effects, run on its own. For `/repo/src/expand/mod.rs:297`. -/
def run (nx : NextS Unit σ α) : Next σ α := fun s => (nx s ()).map (·.1)

/-- `iter::Once` (external): the item, while it is there. For `/repo/src/expand/mod.rs:206,208`. -/
def onceNext : NextS S (Option α) α := fun s e => some ((s, none), e)

/-- `vec::IntoIter` (external). For `/repo/src/expand/mod.rs:207,289,297`. -/
def vecNext : NextS S (List α) α
  | [], e => some ((none, []), e)
  | a :: as, e => some ((some a, as), e)

/-- `iter::Repeat` (external): a clone of the value. For `/repo/src/expand/parameters.rs:117`. -/
def repeatNext : NextS S α α := fun a e => some ((some a, a), e)

/-- `iter::Map` (external) with a function without effects. For `/repo/src/expand/mod.rs:296,379`. -/
def mapNext (f : α → β) (nx : NextS S σ α) : NextS S σ β := fun s e =>
  match nx s e with
  | none => none
  | some ((a, s'), e') => some ((a.map f, s'), e')

/-- `iter::Zip` (external): `b` is not asked when `a` has ended. For `/repo/src/expand/parameters.rs:117`. -/
def zipNext (nxa : NextS S σ α) (nxb : NextS S τ β) : NextS S (σ × τ) (α × β) := fun (sa, sb) e =>
  match nxa sa e with
  | none => none
  | some ((none, sa'), e') => some ((none, (sa', sb)), e')
  | some ((some a, sa'), e') =>
    match nxb sb e' with
    | none => none
    | some ((none, sb'), e'') => some ((none, (sa', sb')), e'')
    | some ((some b, sb'), e'') => some ((some (a, b), (sa', sb')), e'')

/-- `iter::Chain` (external). For `/repo/src/expand/mod.rs:206-208`. -/
structure Chain (σ τ : Type) where
  a : Option σ
  b : Option τ

/-- `a.chain(b)`. For `/repo/src/expand/mod.rs:206-208`. -/
def Chain.new (a : σ) (b : τ) : Chain σ τ := ⟨some a, some b⟩

/-- The second half of `Chain::next`: `self.b.as_mut()?.next()`. For `/repo/src/expand/mod.rs:206-208`. -/
def Chain.nextB (nxb : NextS S τ α) : NextS S (Chain σ τ) α := fun s e =>
  match s.b with
  | none => some ((none, s), e)
  | some b =>
    match nxb b e with
    | none => none
    | some ((v, b'), e') => some ((v, ⟨s.a, some b'⟩), e')

/-- `Chain::next` (external): `and_then_or_clear(&mut self.a, next).or_else(|| self.b.as_mut()?.next())`.
For `/repo/src/expand/mod.rs:206-208`. -/
def Chain.next (nxa : NextS S σ α) (nxb : NextS S τ α) : NextS S (Chain σ τ) α := fun s e =>
  match s.a with
  | none => Chain.nextB nxb s e
  | some a =>
    match nxa a e with
    | none => none
    | some ((some v, a'), e') => some ((some v, ⟨some a', s.b⟩), e')
    | some ((none, _), e') => Chain.nextB nxb ⟨none, s.b⟩ e'

/-- `iter::FlatMap` (external): `iter` is the fused iterator of parts. For `/repo/src/expand/mod.rs:207`. -/
structure FlatMap (σ τ : Type) where
  iter : Option σ
  front : Option τ

/-- `iter.flat_map(f)`. For `/repo/src/expand/mod.rs:207`. -/
def FlatMap.new (iter : σ) : FlatMap σ τ := ⟨some iter, none⟩

/-- The part of the loop of `FlatMap::next` after the current part has ended: the next part, made by `f`, becomes the
current one (`again`). For `/repo/src/expand/mod.rs:207`. -/
def FlatMap.advance (f : β → S → τ × S) (nx : NextS S σ β) (again : NextS S (FlatMap σ τ) α) :
    NextS S (FlatMap σ τ) α := fun s e =>
  match s.iter with
  | none => some ((none, s), e)
  | some it =>
    match nx it e with
    | none => none
    | some ((none, _), e') => some ((none, ⟨none, s.front⟩), e')
    | some ((some b, it'), e') =>
      let (t, e'') := f b e'
      again ⟨some it', some t⟩ e''

/-- `FlatMap::next` (external): a loop of at most `rounds` rounds (`none` if they do not suffice).
For `/repo/src/expand/mod.rs:207`. -/
def FlatMap.next (f : β → S → τ × S) (nx : NextS S σ β) (nxi : NextS S τ α) : Nat → NextS S (FlatMap σ τ) α
  | 0, _, _ => none
  | rounds + 1, s, e =>
    match s.front with
    | none => FlatMap.advance f nx (FlatMap.next f nx nxi rounds) s e
    | some t =>
      match nxi t e with
      | none => none
      | some ((some v, t'), e') => some ((some v, ⟨s.iter, some t'⟩), e')
      | some ((none, _), e') => FlatMap.advance f nx (FlatMap.next f nx nxi rounds) ⟨s.iter, none⟩ e'

/-- `FlatMap` over a `Vec`: as many rounds as there are parts left suffice. For `/repo/src/expand/mod.rs:207,290,297`. -/
def FlatMap.nextVec (f : β → τ) (nxi : NextS S τ α) : NextS S (FlatMap (List β) τ) α := fun s e =>
  FlatMap.next (fun b e => (f b, e)) vecNext nxi ((s.iter.getD []).length + 2) s e

/-- `Either::next` (external). For `/repo/src/expand/mod.rs:257-274`. -/
def eitherNext (nxl : NextS S σ α) (nxr : NextS S τ α) : NextS S (σ ⊕ τ) α
  | .inl s, e => (nxl s e).map fun ((v, s'), e') => ((v, .inl s'), e')
  | .inr s, e => (nxr s e).map fun ((v, s'), e') => ((v, .inr s'), e')

/-! ## `/repo/src/expand/mod.rs` -/

/-- `Ok`. For `/repo/src/expand/mod.rs:296`. -/
def ok (c : Char) : Item := .ok c

/-- The iterator of escaped text: `EscapeForRegex::new(t.iter_elements().map(as_char))`
(`/repo/src/expand/mod.rs:248,346,377`); `as_char` is the identity on `char`. -/
abbrev Esc := EscapeForRegex (List Char)

/-- Its `next`; the loop takes at most two rounds. For `/repo/src/expand/mod.rs:248`. -/
def escNext : NextS S Esc Char := lift (EscapeForRegex.next charsNext 2)

/-- `OptionalIter` (`/repo/src/expand/mod.rs:385-397`). -/
abbrev Opt := Chain (Chain (List Char) Esc) (List Char)

/-- `IntoRegexCharIter for Optional` (`/repo/src/expand/mod.rs:365-381`). -/
def optNew (o : Optional) : Opt :=
  .new (.new "(?:".toList (EscapeForRegex.new o.input.frag)) ")?".toList

/-- The `next` of `OptionalIter`. For `/repo/src/expand/mod.rs:385-397`. -/
def optNext : NextS S Opt Item := mapNext ok (Chain.next (Chain.next (lift charsNext) escNext) (lift charsNext))

/-- `AlternativeIter` (`/repo/src/expand/mod.rs:354-363`). -/
abbrev Altv := Opt ⊕ Esc

/-- `IntoRegexCharIter for Alternative` (`/repo/src/expand/mod.rs:331-350`). -/
def altvNew : Alternative → Altv
  | .optional o => .inl (optNew o)
  | .text t => .inr (EscapeForRegex.new t.frag)

/-- The `next` of `AlternativeIter`. For `/repo/src/expand/mod.rs:354-363`. -/
def altvNext : NextS S Altv Item := eitherNext optNext (mapNext ok escNext)

/-- `AlternationIterInner` (`/repo/src/expand/mod.rs:321-329`). -/
abbrev Inner := Chain (FlatMap (List Alternative) Altv) (Option Item)

/-- The closure `single_alt` (`/repo/src/expand/mod.rs:285-292`). -/
def innerNew (alt : SingleAlternation) : Inner := .new (.new alt) (some (.ok '|'))

/-- The `next` of `AlternationIterInner`. For `/repo/src/expand/mod.rs:321-329`. -/
def innerNext : NextS S Inner Item := Chain.next (FlatMap.nextVec altvNew altvNext) onceNext

/-- `AlternationIter` (`/repo/src/expand/mod.rs:304-317`). -/
abbrev Alt := Chain (Chain (List Char) (Peekable (FlatMap (List SingleAlternation) Inner) Item)) (Option Item)

/-- `IntoRegexCharIter for Alternation` (`/repo/src/expand/mod.rs:276-300`). -/
def altNew (a : Alternation) : Alt := .new (.new "(?:".toList (SkipLast.new (.new a))) (some (.ok ')'))

/-- The `next` of `AlternationIter`. For `/repo/src/expand/mod.rs:304-317`. -/
def altNext : NextS S Alt Item :=
  Chain.next
    (Chain.next (mapNext ok (lift charsNext)) (lift (SkipLast.next (run (FlatMap.nextVec innerNew innerNext)))))
    onceNext

/-- `ParameterIter` (`/repo/src/expand/mod.rs:457-467`). -/
abbrev Par := (List Char ⊕ OwnedChars) ⊕ Option Item

/-- `IntoRegexCharIter for Parameter` (`/repo/src/expand/mod.rs:402-453`). -/
def parNew (p : Parameter) : Par :=
  if p.input.frag = "int".toList then .inl (.inl "((?:-?\\d+)|(?:\\d+))".toList)
  else if p.input.frag = "float".toList then
    .inl (.inl "([+-]?(?:inf|NaN|(?:\\d+|\\d+\\.\\d*|\\d*\\.\\d+)(?:[eE][+-]?\\d+)?))".toList)
  else if p.input.frag = "word".toList then .inl (.inl "([^\\s]+)".toList)
  else if p.input.frag = "string".toList then .inl (.inr (OwnedChars.new (stringPattern p.id)))
  else if p.input.frag = "".toList then .inl (.inl "(.*)".toList)
  else .inr (some (.error (.notFound p.input)))

/-- The `next` of `ParameterIter`. For `/repo/src/expand/mod.rs:457-467`. -/
def parNext : NextS S Par Item :=
  eitherNext (eitherNext (mapNext ok (lift charsNext)) (mapNext ok (lift OwnedChars.next))) onceNext

/-- `SingleExpressionIter` (`/repo/src/expand/mod.rs:256-274`). -/
abbrev Single := Alt ⊕ (Opt ⊕ (Par ⊕ Esc))

/-- `IntoRegexCharIter for SingleExpression` (`/repo/src/expand/mod.rs:230-252`). -/
def singleNew : SingleExpression → Single
  | .alternation a => .inl (altNew a)
  | .optional o => .inr (.inl (optNew o))
  | .parameter p => .inr (.inr (.inl (parNew p)))
  | .text t => .inr (.inr (.inr (EscapeForRegex.new t.frag)))
  | .whitespaces t => .inr (.inr (.inr (EscapeForRegex.new t.frag)))

/-- The `next` of `SingleExpressionIter`. For `/repo/src/expand/mod.rs:256-274`. -/
def singleNext : NextS S Single Item :=
  eitherNext altNext (eitherNext optNext (eitherNext parNext (mapNext ok escNext)))

/-- `ExpressionIter` (`/repo/src/expand/mod.rs:214-228`). -/
abbrev Expr := Chain (Chain (Option Item) (FlatMap (List SingleExpression) Single)) (Option Item)

/-- `IntoRegexCharIter for Expression` (`/repo/src/expand/mod.rs:195-210`). -/
def exprNew (e : Expression) : Expr := .new (.new (some (.ok '^')) (.new e)) (some (.ok '$'))

/-- The `next` of `ExpressionIter`. For `/repo/src/expand/mod.rs:214-228`. -/
def exprNext : NextS S Expr Item :=
  Chain.next (Chain.next onceNext (FlatMap.nextVec singleNew singleNext)) onceNext

/-! ## `/repo/src/expand/parameters.rs` -/

/-- `Provider::get` (`/repo/src/expand/parameters.rs:54-76`) of a provider `P` that keeps a state `S`. -/
abbrev Get (P S : Type) := P → Span → S → Option (List Char) × S

/-- `WithParsIter` (`/repo/src/expand/parameters.rs:259-293`). -/
abbrev WithPar := Option Item ⊕ (Par ⊕ (Chain (Chain (List Char) OwnedChars) (Option Item) ⊕
  Chain (Chain (Option Item) (List Char)) (Option Item)))

/-- `IntoRegexCharIter for WithCustom<Parameter, P>` (`/repo/src/expand/parameters.rs:179-255`), once `get` has returned
`value`. -/
def withParValue (parseHir : List Char → Option Hir) (p : Parameter) (value : Option (List Char)) : WithPar :=
  match value with
  | none => .inr (.inl (parNew p))
  | some v =>
    let parsed : Except Unit (Option Hir) :=
      if v.any (· = '(') then
        match parseHir v with
        | none => .error ()
        | some hir => .ok (if hir.hasCaptureGroups then some hir else none)
      else .ok none
    match parsed with
    | .error () => .inl (some (.error (.renameRegexGroup p.input v)))
    | .ok none => .inr (.inr (.inr (.new (.new (some (.ok '(')) v) (some (.ok ')')))))
    | .ok (some hir) =>
      .inr (.inr (.inl (.new (.new "(?:".toList (OwnedChars.new (hir.renameCaptureGroups p.id).print)) (some (.ok ')')))))

/-- `IntoRegexCharIter for WithCustom<Parameter, P>` (`/repo/src/expand/parameters.rs:179-255`). -/
def withParNew {P : Type} (parseHir : List Char → Option Hir) (get : Get P S) (p : Parameter) (pars : P) (e : S) :
    WithPar × S :=
  let (v, e') := get pars p.input e
  (withParValue parseHir p v, e')

/-- The `next` of `WithParsIter`. For `/repo/src/expand/parameters.rs:259-293`. -/
def withParNext : NextS S WithPar Item :=
  eitherNext onceNext
    (eitherNext parNext
      (eitherNext
        (Chain.next (Chain.next (mapNext ok (lift charsNext)) (mapNext ok (lift OwnedChars.next))) onceNext)
        (Chain.next (Chain.next onceNext (mapNext ok (lift charsNext))) onceNext)))

/-- `SingleExprWithParsIter` (`/repo/src/expand/parameters.rs:172-177`). -/
abbrev SingleWith := WithPar ⊕ Single

/-- `IntoRegexCharIter for WithCustom<SingleExpression, Pars>` (`/repo/src/expand/parameters.rs:147-168`). -/
def singleWithNew {P : Type} (parseHir : List Char → Option Hir) (get : Get P S) :
    SingleExpression × P → S → SingleWith × S
  | (.parameter p, pars), e =>
    let (t, e') := withParNew parseHir get p pars e
    (.inl t, e')
  | (el, _), e => (.inr (singleNew el), e)

/-- The `next` of `SingleExprWithParsIter`. For `/repo/src/expand/parameters.rs:172-177`. -/
def singleWithNext : NextS S SingleWith Item := eitherNext withParNext singleNext

/-- `ExpressionWithParsIter` (`/repo/src/expand/parameters.rs:127-145`). -/
abbrev ExprWith (P : Type) :=
  Chain (Chain (Option Item) (FlatMap (List SingleExpression × P) SingleWith)) (Option Item)

/-- `IntoRegexCharIter for WithCustom<Expression, Pars>` (`/repo/src/expand/parameters.rs:98-123`). -/
def exprWithNew {P : Type} (e : Expression) (pars : P) : ExprWith P :=
  .new (.new (some (.ok '^')) (.new (e, pars))) (some (.ok '$'))

/-- The `next` of `ExpressionWithParsIter`; `.map(add_pars)` only turns the pairs of `zip` into `WithCustom`s.
For `/repo/src/expand/parameters.rs:127-145`. -/
def exprWithNext {P : Type} (parseHir : List Char → Option Hir) (get : Get P S) : NextS S (ExprWith P) Item :=
  Chain.next
    (Chain.next onceNext
      (fun s => FlatMap.next (singleWithNew parseHir get) (mapNext id (zipNext vecNext repeatNext)) singleWithNext
        ((s.iter.map (·.1.length)).getD 0 + 2) s))
    onceNext

/-- `collect::<Result<String, _>>()` (external): characters up to the first error, which is returned at once, or to the
end. `none`: `fuel` calls of `next` do not suffice. For `/repo/src/expand/mod.rs:71,116`. -/
def collectRes (nx : NextS S σ Item) : Nat → σ → S → Option (Except ParameterError (List Char) × S)
  | 0, _, _ => none
  | fuel + 1, s, e =>
    match nx s e with
    | none => none
    | some ((none, _), e') => some (.ok [], e')
    | some ((some (.error x), _), e') => some (.error x, e')
    | some ((some (.ok c), s'), e') =>
      match collectRes nx fuel s' e' with
      | none => none
      | some (.error x, e'') => some (.error x, e'')
      | some (.ok cs, e'') => some (.ok (c :: cs), e'')

/-- `Expression::regex_with_parameters` (`/repo/src/expand/mod.rs:103-118`), with the state of the provider, which is `e`
before the call; `fuel` bounds the number of calls of `next`. -/
def regexWithParameters {P : Type} (parseHir : List Char → Option Hir) (get : Get P S) (fuel : Nat) (input : List Char)
    (pars : P) (e : S) : Outcome ExpandError Compiled × S :=
  match Expression.parse input with
  | .err x => (.err (.parsing x), e)
  | .panic => (.panic, e)
  | .diverge => (.diverge, e)
  | .ok expr =>
    match collectRes (exprWithNext parseHir get) fuel (exprWithNew expr pars) e with
    | none => (.diverge, e)
    | some (.error x, e') => (.err (.expansion x), e')
    | some (.ok cs, e') =>
      match Regex.parse cs with
      | .error x => (.err (.regex x), e')
      | .ok r => (.ok ⟨cs, r⟩, e')

end Iter
end CE
