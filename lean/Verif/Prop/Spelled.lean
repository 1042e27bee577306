import Verif.Proof.ExprAst
import Verif.Prop.Algebra
import Verif.Prop.Message
import Verif.Spec.Spelled

/-!
# Patterns tell expressions apart: C53
-/

namespace CE
open Spec Regex

/-! ## Trees of atoms -/

def letterAst : Letter → Ast
  | .char c => .lit c
  | .optional t => .rep (.group (catA (t.map .lit))) 0 (some 1) true

/-- Not split up by `catA`. -/
def Single : Ast → Prop
  | .empty | .concat _ => False
  | _ => True

theorem catA_inj {as bs : List Ast} (ha : ∀ a ∈ as, Single a) (hb : ∀ b ∈ bs, Single b) (h : catA as = catA bs) : as = bs := by
  match as, bs with
  | [], [] => rfl
  | [], [b] => exact absurd (hb b (by simp)) (by simp only [catA] at h; simp [← h, Single])
  | [], _ :: _ :: _ => simp [catA] at h
  | [a], [] => exact absurd (ha a (by simp)) (by simp only [catA] at h; simp [h, Single])
  | [a], [b] => simpa [catA] using h
  | [a], _ :: _ :: _ => exact absurd (ha a (by simp)) (by simp only [catA] at h; simp [h, Single])
  | _ :: _ :: _, [] => simp [catA] at h
  | _ :: _ :: _, [b] => exact absurd (hb b (by simp)) (by simp only [catA] at h; simp [← h, Single])
  | _ :: _ :: _, _ :: _ :: _ => simpa [catA] using h

theorem map_inj {α β : Type} {f : α → β} {as bs : List α} (hf : ∀ a ∈ as, ∀ b ∈ bs, f a = f b → a = b)
    (h : as.map f = bs.map f) : as = bs := by
  induction as generalizing bs with
  | nil => cases bs <;> simp_all
  | cons a as ih =>
    cases bs with
    | nil => simp at h
    | cons b bs =>
      simp only [List.map_cons, List.cons.injEq] at h
      rw [hf a (by simp) b (by simp) h.1, ih (fun x hx y hy => hf x (by simp [hx]) y (by simp [hy])) h.2]

theorem single_letter (l : Letter) : Single (letterAst l) := by cases l <;> trivial

theorem lits_inj {s t : List Char} (h : catA (s.map .lit) = catA (t.map .lit)) : s = t :=
  map_inj (fun _ _ _ _ h => Ast.lit.inj h)
    (catA_inj (by simp [Single]) (by simp [Single]) h)

theorem letterAst_inj {l m : Letter} (h : letterAst l = letterAst m) : l = m := by
  cases l <;> cases m <;> simp only [letterAst, Ast.lit.injEq, Ast.rep.injEq, Ast.group.injEq, reduceCtorEq] at h
  · rw [h]
  · rw [lits_inj h.1]

theorem letters_inj {b c : List Letter} (h : catA (b.map letterAst) = catA (c.map letterAst)) : b = c :=
  map_inj (fun _ _ _ _ h => letterAst_inj h) (catA_inj (by simp [single_letter]) (by simp [single_letter]) h)

/-- The tree of an atom; `k` is the number of the parameter. -/
def atomAst (k : Nat) : Atom → Ast
  | .char c => .lit c
  | .optional t => letterAst (.optional t)
  | .oneOf bs => .group (altA (bs.map fun b => catA (b.map letterAst)))
  | .parameter n => match builtinNamed n with
    | some b => builtinAst b k
    | none => .empty

def atomPat (k : Nat) : Atom → List Char
  | .char c => quote c
  | .optional t => ['(', '?', ':'] ++ quoteAll t ++ [')', '?']
  | .oneOf bs => ['(', '?', ':'] ++ joinBars (bs.map fun b => b.flatMap fun
      | .char c => quote c
      | .optional t => ['(', '?', ':'] ++ quoteAll t ++ [')', '?']) ++ [')']
  | .parameter n => match builtinNamed n with
    | some b => builtinPat b k
    | none => []

/-- With the parameters numbered from `k`. -/
def numbered {α : Type} (f : Nat → Atom → α) : Nat → List Atom → List α
  | _, [] => []
  | k, .parameter n :: as => f k (.parameter n) :: numbered f (k + 1) as
  | k, a :: as => f k a :: numbered f k as

theorem numbered_chars {α : Type} (f : Nat → Atom → α) (k : Nat) (u : List Char) (as : List Atom) :
    numbered f k (u.map .char ++ as) = (u.map fun c => f k (.char c)) ++ numbered f k as := by
  induction u with
  | nil => rfl
  | cons c u ih => simp [numbered, ih]

/-- Alternations have at least two branches, and parameters are built in. -/
def FineAtom : Atom → Prop
  | .oneOf bs => 2 ≤ bs.length
  | .parameter n => ∃ b : Builtin, n = b.name
  | _ => True

theorem cap_letters (b : List Letter) (n : Option (List Char)) (a : Ast) : Ast.cap n a ∉ b.map letterAst := by
  intro h
  obtain ⟨l, -, h⟩ := List.mem_map.1 h
  cases l <;> simp [letterAst] at h

theorem string_oneOf (bs : List (List Letter)) (k : Nat) :
    Ast.group (altA (bs.map fun b => catA (b.map letterAst))) ≠ stringAst k := by
  intro h
  match bs with
  | [] => simp [altA, stringAst] at h
  | [b] =>
    simp only [List.map_cons, List.map_nil, altA, stringAst, Ast.group.injEq] at h
    match b with
    | [] => simp [catA] at h
    | [l] => cases l <;> simp [catA, letterAst] at h
    | _ :: _ :: _ => simp [catA] at h
  | b :: c :: bs =>
    simp only [List.map_cons, altA, stringAst, Ast.group.injEq, Ast.alt.injEq, List.cons.injEq] at h
    have h1 := h.1
    rw [quotedAst] at h1
    have := catA_inj (as := b.map letterAst) (bs := [_, _, _]) (by simp [single_letter]) (by simp [Single]) h1
    have hc := cap_letters b (some (groupName k 0))
    rw [this] at hc
    exact hc _ (List.mem_cons_of_mem _ List.mem_cons_self)

theorem builtinAst_inj {a b : Builtin} {k : Nat} (h : builtinAst a k = builtinAst b k) : a = b := by
  cases a <;> cases b <;> first | rfl | (simp [builtinAst, intAst, floatAst, wordAst, anonAst, stringAst] at h)

theorem altA_inj {as bs : List Ast} (ha : 2 ≤ as.length) (hb : 2 ≤ bs.length) (h : altA as = altA bs) : as = bs := by
  match as, bs with
  | _ :: _ :: _, _ :: _ :: _ => simpa [altA] using h

theorem atomAst_inj {k : Nat} {a b : Atom} (ha : FineAtom a) (hb : FineAtom b) (h : atomAst k a = atomAst k b) : a = b := by
  have par : ∀ n, FineAtom (.parameter n) → ∃ b : Builtin, n = b.name ∧ atomAst k (.parameter n) = builtinAst b k :=
    fun n ⟨b, hn⟩ => ⟨b, hn, by simp [atomAst, builtinNamed_some.2 hn]⟩
  cases a <;> cases b
  case parameter.parameter m n =>
    obtain ⟨x, rfl, hx⟩ := par m ha
    obtain ⟨y, rfl, hy⟩ := par n hb
    rw [hx, hy] at h
    rw [builtinAst_inj h]
  case parameter.oneOf m bs =>
    obtain ⟨x, rfl, hx⟩ := par m ha
    rw [hx] at h
    cases x
    case string => exact absurd h.symm (string_oneOf bs k)
    all_goals simp [builtinAst, intAst, floatAst, wordAst, anonAst, atomAst] at h
  case oneOf.parameter bs m =>
    obtain ⟨x, rfl, hx⟩ := par m hb
    rw [hx] at h
    cases x
    case string => exact absurd h (string_oneOf bs k)
    all_goals simp [builtinAst, intAst, floatAst, wordAst, anonAst, atomAst] at h
  case parameter.char m c | parameter.optional m c =>
    obtain ⟨x, rfl, hx⟩ := par m ha
    rw [hx] at h
    cases x <;> simp [builtinAst, intAst, floatAst, wordAst, anonAst, stringAst, atomAst, letterAst] at h
  case char.parameter c m | optional.parameter c m =>
    obtain ⟨x, rfl, hx⟩ := par m hb
    rw [hx] at h
    cases x <;> simp [builtinAst, intAst, floatAst, wordAst, anonAst, stringAst, atomAst, letterAst] at h
  case char.char => simpa [atomAst] using h
  case optional.optional s t => simpa using letterAst_inj (l := .optional s) (m := .optional t) h
  case oneOf.oneOf bs cs =>
    simp only [atomAst, Ast.group.injEq] at h
    rw [map_inj (fun _ _ _ _ h => letters_inj h) (altA_inj (by simpa [FineAtom] using ha) (by simpa [FineAtom] using hb) h)]
  all_goals simp [atomAst, letterAst] at h

theorem numbered_inj {as bs : List Atom} (ha : ∀ a ∈ as, FineAtom a) (hb : ∀ b ∈ bs, FineAtom b) (k : Nat)
    (h : numbered atomAst k as = numbered atomAst k bs) : as = bs := by
  have one : ∀ k a as, ∃ k', numbered atomAst k (a :: as) = atomAst k a :: numbered atomAst k' as ∧ ∀ as', numbered atomAst k (a :: as') = atomAst k a :: numbered atomAst k' as' := by
    intro k a as
    cases a <;> exact ⟨_, rfl, fun _ => rfl⟩
  induction as generalizing bs k with
  | nil =>
    cases bs with
    | nil => rfl
    | cons b bs => obtain ⟨k', h', -⟩ := one k b bs; rw [h'] at h; simp [numbered] at h
  | cons a as ih =>
    cases bs with
    | nil => obtain ⟨k', h', -⟩ := one k a as; rw [h'] at h; simp [numbered] at h
    | cons b bs =>
      obtain ⟨k', h1, h1'⟩ := one k a as
      obtain ⟨k'', h2, -⟩ := one k b bs
      have hab : a = b := by
        rw [h1, h2] at h
        exact atomAst_inj (ha a (by simp)) (hb b (by simp)) (List.cons.inj h).1
      subst hab
      rw [h1, h1' bs] at h
      rw [ih (fun x hx => ha x (by simp [hx])) (fun x hx => hb x (by simp [hx])) k' (List.cons.inj h).2]

/-! ## Trees and patterns of expressions -/

theorem letterAsts (a : Alternative) : altAsts a = (letters a).map letterAst := by
  cases a <;> simp [altAsts, letters, letterAst]

theorem branchAsts_letters (b : SingleAlternation) : branchAsts b = (b.flatMap letters).map letterAst := by
  induction b with
  | nil => rfl
  | cons a b ih => simp only [branchAsts] at ih ⊢; simp [ih, letterAsts]

def letterPat : Letter → List Char
  | .char c => quote c
  | .optional t => ['(', '?', ':'] ++ quoteAll t ++ [')', '?']

theorem branchPat_letters (b : SingleAlternation) : branchPat b = (b.flatMap letters).flatMap letterPat := by
  have : ∀ a, altPat a = (letters a).flatMap letterPat := by
    intro a
    cases a with
    | text t =>
      simp only [altPat, letters, quoteAll, List.flatMap, List.map_map]
      rfl
    | optional o => simp [altPat, letters, letterPat]
  induction b with
  | nil => rfl
  | cons a b ih => simp only [branchPat] at ih ⊢; simp [ih, this]

theorem atomPat_oneOf (k : Nat) (bs : List (List Letter)) :
    atomPat k (.oneOf bs) = ['(', '?', ':'] ++ joinBars (bs.map (·.flatMap letterPat)) ++ [')'] := by
  have : letterPat = (fun
      | .char c => quote c
      | .optional t => ['(', '?', ':'] ++ quoteAll t ++ [')', '?']) := by
    funext l; cases l <;> rfl
  rw [this]; rfl

/-- Whitespace holds no escapes. -/
def PlainSpaces (e : Expression) : Prop := ∀ t, .whitespaces t ∈ e → unescape t.frag = t.frag

theorem asts_numbered (e : Expression) (hw : PlainSpaces e) (k n : Nat) (hid : (params e).map Parameter.id = List.range' k n) :
    (e.map (elemAsts bAst)).flatten = numbered atomAst k (spelled e) := by
  induction e generalizing k n with
  | nil => rfl
  | cons x e ih =>
    have hw' : PlainSpaces e := fun t h => hw t (by simp [h])
    cases x with
    | parameter p =>
      cases n with
      | zero => simp [params] at hid
      | succ n =>
        simp only [params, List.filterMap_cons, List.map_cons, List.range'_succ, List.cons.injEq] at hid
        simp only [List.map_cons, List.flatten_cons, spelled, List.flatMap_cons, atoms, List.cons_append, List.nil_append, numbered,
          elemAsts]
        rw [ih hw' (k + 1) n hid.2]
        simp only [bAst, atomAst, hid.1, spelled]
        trivial
    | text t =>
      have := ih hw' k n (by simpa [params] using hid)
      simp only [spelled] at this
      simp only [List.map_cons, List.flatten_cons, spelled, List.flatMap_cons, atoms, numbered_chars, elemAsts, this]
      rfl
    | whitespaces t =>
      have := ih hw' k n (by simpa [params] using hid)
      simp only [spelled] at this
      simp only [List.map_cons, List.flatten_cons, spelled, List.flatMap_cons, atoms, numbered_chars, elemAsts, this, hw t (by simp)]
      rfl
    | optional o =>
      have := ih hw' k n (by simpa [params] using hid)
      simp only [spelled] at this
      simp [spelled, atoms, numbered, elemAsts, altAsts, atomAst, letterAst, this]
    | alternation a =>
      have := ih hw' k n (by simpa [params] using hid)
      simp only [spelled] at this
      simp [spelled, atoms, numbered, elemAsts, atomAst, branchAsts_letters, this, Function.comp_def]

theorem pats_numbered (e : Expression) (hw : PlainSpaces e) (k n : Nat) (hid : (params e).map Parameter.id = List.range' k n) :
    exprPat bPat e = (numbered atomPat k (spelled e)).flatten := by
  unfold exprPat
  induction e generalizing k n with
  | nil => rfl
  | cons x e ih =>
    have hw' : PlainSpaces e := fun t h => hw t (by simp [h])
    cases x with
    | parameter p =>
      cases n with
      | zero => simp [params] at hid
      | succ n =>
        simp only [params, List.filterMap_cons, List.map_cons, List.range'_succ, List.cons.injEq] at hid
        simp only [List.map_cons, List.flatten_cons, spelled, List.flatMap_cons, atoms, List.cons_append, List.nil_append, numbered,
          elemPat]
        rw [ih hw' (k + 1) n hid.2]
        simp only [bPat, atomPat, hid.1, spelled]
        trivial
    | text t =>
      have := ih hw' k n (by simpa [params] using hid)
      simp only [spelled] at this
      simp only [List.map_cons, List.flatten_cons, spelled, List.flatMap_cons, atoms, numbered_chars, elemPat, this,
        List.flatten_append]
      rfl
    | whitespaces t =>
      have := ih hw' k n (by simpa [params] using hid)
      simp only [spelled] at this
      simp only [List.map_cons, List.flatten_cons, spelled, List.flatMap_cons, atoms, numbered_chars, elemPat, this, hw t (by simp),
        List.flatten_append]
      rfl
    | optional o =>
      have := ih hw' k n (by simpa [params] using hid)
      simp only [spelled] at this
      simp [spelled, atoms, numbered, elemPat, altPat, atomPat, this]
    | alternation a =>
      have := ih hw' k n (by simpa [params] using hid)
      simp only [spelled] at this
      have hb : a.map branchPat = a.map fun b => (b.flatMap letters).flatMap letterPat :=
        List.map_congr_left fun b _ => branchPat_letters b
      simp only [List.map_cons, List.flatten_cons, spelled, List.flatMap_cons, atoms, List.cons_append, List.nil_append, numbered,
        elemPat, this, atomPat_oneOf, List.map_map, Function.comp_def, hb]

/-! ## C53 -/

theorem ids_range {src : List Char} {e : Expression} (h : Expression.parse src = .ok e) :
    (params e).map Parameter.id = List.range' 0 (ids e).length := by
  rw [← ids_eq, ← List.range_eq_range']; exact C03_ids src e h

theorem spelled_fine {src : List Char} {e : Expression} (h : Expression.parse src = .ok e) (hb : AllBuiltin e) :
    ∀ a ∈ spelled e, FineAtom a := by
  intro a ha
  obtain ⟨x, hx, ha⟩ := List.mem_flatMap.1 ha
  cases x with
  | text t | whitespaces t => obtain ⟨c, -, rfl⟩ := List.mem_map.1 ha; trivial
  | optional o => obtain rfl := List.mem_singleton.1 ha; trivial
  | alternation b =>
    obtain rfl := List.mem_singleton.1 ha
    simpa [FineAtom] using (C11_alternations src e h b hx).1
  | parameter p => obtain rfl := List.mem_singleton.1 ha; exact hb p hx

/-- C53: two expressions with built-in parameters have the same pattern if and only if they are spelled the same. -/
theorem C53_same_pattern (a b : List Char) (x y : Expression) (ha : Expression.parse a = .ok x)
    (hb : Expression.parse b = .ok y) (hx : AllBuiltin x) (hy : AllBuiltin y) :
    ∃ c d, Expression.regex a = .ok c ∧ Expression.regex b = .ok d ∧ (c.pattern = d.pattern ↔ spelled x = spelled y) := by
  refine ⟨_, _, regex_builtin ha hx, regex_builtin hb hy, fun h => ?_, fun h => ?_⟩
  · have tree : ∀ {s e}, Expression.parse s = .ok e → AllBuiltin e →
        Ast.parse (['^'] ++ exprPat bPat e ++ ['$']) = .ok (.concat (.bol :: (numbered atomAst 0 (spelled e) ++ [.eol]))) := by
      intro s e hs he
      rw [ast_pattern (tp := bToks) (ap := bAst) (parse_nonemptyAlts hs) (fun p hp => by
        obtain ⟨b, h⟩ := (allBuiltin_iff e).1 he p hp
        rw [bAst_named h]
        simp only [bPat, bToks, builtinNamed_some.2 h]
        exact ⟨lexes_builtin b p.id, areads_builtin b p.id⟩) (parse_builtin (parse_nonemptyAlts hs) (ids_nodup hs) ((allBuiltin_iff e).1 he)),
        exprAst, asts_numbered e (parse_plainWs hs) 0 _ (ids_range hs)]
    simp only [] at h
    have h1 := tree ha hx
    rw [h, tree hb hy] at h1
    simp only [Except.ok.injEq, Ast.concat.injEq, List.cons.injEq, true_and] at h1
    exact (numbered_inj (spelled_fine hb hy) (spelled_fine ha hx) 0 (List.append_cancel_right h1)).symm
  · simp only []
    rw [pats_numbered x (parse_plainWs ha) 0 _ (ids_range ha), pats_numbered y (parse_plainWs hb) 0 _ (ids_range hb), h]

/-- Non-vacuity: escaping what need not be escaped does not matter; `/` has to be escaped not to be an alternation. -/
example : ∃ x y, Expression.parse (chars! "{int} a) a\\ /b}") = .ok x ∧
    Expression.parse (chars! "{int} a\\) a\\ /b\\}") = .ok y ∧ AllBuiltin x ∧ AllBuiltin y ∧ x ≠ y ∧ spelled x = spelled y := by
  refine ⟨_, _, rfl, rfl, ?_, ?_, by decide, by decide⟩ <;>
  · intro p hp
    simp at hp
    exact ⟨.int, by rw [hp]; rfl⟩

/-- C53: an escaped `/` is a character, an unescaped one an alternation, and the patterns differ. -/
theorem C53_escapes_matter : unescape (chars! "a\\/b") = unescape (chars! "a/b") ∧
    ∃ c d, Expression.regex (chars! "a\\/b") = .ok c ∧ Expression.regex (chars! "a/b") = .ok d ∧ c.pattern ≠ d.pattern :=
  ⟨by decide, _, _, rfl, rfl, by decide⟩

/-! ## Unescaped texts -/

/-- Atoms written without any escapes. -/
def plainLetter : Letter → List Char
  | .char c => [c]
  | .optional t => '(' :: (t ++ [')'])

def joinSlashes : List (List Char) → List Char
  | [] => []
  | [b] => b
  | b :: bs => b ++ '/' :: joinSlashes bs

def plainAtom : Atom → List Char
  | .char c => [c]
  | .optional t => '(' :: (t ++ [')'])
  | .oneOf bs => joinSlashes (bs.map (·.flatMap plainLetter))
  | .parameter n => '{' :: (unescape n ++ ['}'])

theorem unescape_delim {a b : Char} (ha : a ≠ '\\') (hb : b ≠ '\\') {t st : List Char} (h : Escd st t) :
    unescape (a :: (t ++ [b])) = a :: (unescape t ++ [b]) := by
  have h1 : unescape [b] = [b] := by simp [unescape, hb]
  have h2 := unescape_append (s := [a]) (Escd.char (stops := []) a [] ha (by simp) .nil) (t ++ [b])
  rw [unescape_append h, h1] at h2
  rw [show a :: (t ++ [b]) = [a] ++ (t ++ [b]) from rfl, h2]
  simp [unescape, ha]

theorem unescape_flatten {l : List (List Char)} (h : ∀ x ∈ l, Escd [] x) : unescape l.flatten = (l.map unescape).flatten := by
  induction l with
  | nil => rfl
  | cons a l ih =>
    rw [List.flatten_cons, unescape_append (h a (by simp)), ih fun x hx => h x (by simp [hx])]
    rfl

theorem flatMap_char (u : List Char) : (u.map Letter.char).flatMap plainLetter = u := by
  induction u with
  | nil => rfl
  | cons c u ih => simp only [List.map_cons, List.flatMap_cons, ih, plainLetter, List.singleton_append]

theorem flatMap_char' (u : List Char) : (u.map Atom.char).flatMap plainAtom = u := by
  induction u with
  | nil => rfl
  | cons c u ih => simp only [List.map_cons, List.flatMap_cons, ih, plainAtom, List.singleton_append]

theorem unescape_piece {a : Alternative} (h : (erasePiece a).Valid) :
    unescape (erasePiece a).render = (letters a).flatMap plainLetter := by
  cases a with
  | text t => simp only [erasePiece, Piece.render, letters, flatMap_char]
  | optional o =>
    simp only [erasePiece, Piece.render, letters, List.flatMap_cons, List.flatMap_nil, plainLetter, List.append_nil]
    exact unescape_delim (a := '(') (b := ')') (by decide) (by decide) h.2

theorem unescape_pieces {b : SingleAlternation} (h : ValidPieces (b.map erasePiece)) :
    unescape (renderPieces (b.map erasePiece)) = (b.flatMap letters).flatMap plainLetter := by
  rw [renderPieces, unescape_flatten fun x hx => by
    obtain ⟨q, hq, rfl⟩ := List.mem_map.1 hx
    exact escd_piece (h.1 q hq)]
  rw [List.flatMap_assoc, List.flatMap, List.map_map, List.map_map]
  congr 1
  refine List.map_congr_left fun a ha => unescape_piece (h.1 _ (List.mem_map_of_mem ha))

theorem unescape_branches {bs : Alternation} (h : ∀ b ∈ bs, ValidPieces (b.map erasePiece)) :
    unescape (renderBranches (bs.map (·.map erasePiece))) = joinSlashes (bs.map fun b => (b.flatMap letters).flatMap plainLetter) := by
  induction bs with
  | nil => rfl
  | cons b bs ih =>
    cases bs with
    | nil => simpa [renderBranches, joinSlashes] using unescape_pieces (h b (by simp))
    | cons c bs =>
      have ih := ih fun x hx => h x (by simp [hx])
      simp only [List.map_cons, renderBranches, joinSlashes] at ih ⊢
      rw [unescape_append (escd_pieces (h b (by simp))), unescape_pieces (h b (by simp)), ← ih]
      congr 1

theorem unescape_elem {e : SingleExpression} (h : (eraseSingle e).Valid) :
    unescape (eraseSingle e).render = (atoms e).flatMap plainAtom := by
  cases e with
  | text t => simp only [eraseSingle, Elem.render, atoms, flatMap_char']
  | whitespaces t =>
    simp only [eraseSingle, Elem.render, atoms, flatMap_char']
    exact unescape_plain fun hm => by simpa using h.2 _ hm
  | optional o =>
    simp only [eraseSingle, Elem.render, atoms, List.flatMap_cons, List.flatMap_nil, plainAtom, List.append_nil]
    exact unescape_delim (a := '(') (b := ')') (by decide) (by decide) h.2
  | parameter p =>
    simp only [eraseSingle, Elem.render, atoms, List.flatMap_cons, List.flatMap_nil, plainAtom, List.append_nil]
    exact unescape_delim (a := '{') (b := '}') (by decide) (by decide) h
  | alternation a =>
    simp only [eraseSingle, Elem.render, atoms, List.flatMap_cons, List.flatMap_nil, plainAtom, List.append_nil, List.map_map]
    exact unescape_branches fun b hb => (h.2 _ (List.mem_map_of_mem hb)).1

theorem unescape_spelled {src : List Char} {x : Expression} (h : Expression.parse src = .ok x) :
    unescape src = (spelled x).flatMap plainAtom := by
  obtain ⟨hc, hr, -⟩ := C06_parse_then_print src x h
  have hv : ∀ e ∈ x, (eraseSingle e).Valid := fun e he => hc.1 _ (List.mem_map_of_mem he)
  rw [← hr, render, unescape_flatten fun y hy => by
    obtain ⟨q, hq, rfl⟩ := List.mem_map.1 hy
    exact escd_elem (hc.1 q hq)]
  rw [spelled, List.flatMap_assoc, List.flatMap, erase, List.map_map, List.map_map]
  congr 1
  exact List.map_congr_left fun e he => unescape_elem (hv e he)

/-- C53: texts with the same pattern differ in escapes only. -/
theorem C53_differ_in_escapes (a b : List Char) (x y : Expression) (ha : Expression.parse a = .ok x)
    (hb : Expression.parse b = .ok y) (hx : AllBuiltin x) (hy : AllBuiltin y) (c d : Compiled)
    (hc : Expression.regex a = .ok c) (hd : Expression.regex b = .ok d) (h : c.pattern = d.pattern) : unescape a = unescape b := by
  obtain ⟨c', d', hc', hd', hi⟩ := C53_same_pattern a b x y ha hb hx hy
  rw [hc] at hc'; rw [hd] at hd'
  cases hc'; cases hd'
  rw [unescape_spelled ha, unescape_spelled hb, hi.1 h]

end CE
