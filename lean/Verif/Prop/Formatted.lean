import Verif.Proof.Formatted
import Verif.Prop.Verbose
import Verif.Proof.EmptyGroup

/-!
# Regexes of any parts, with white space and comments between them: C81
-/

namespace CE
open Spec Regex

variable (T : Tables) (pars : Provider)

theorem Verbose.weights_parts : ∀ (ps : List Part) (n m : Nat), Verbose.deep n ps = some m → (m : Int) = n + Verbose.weights (Verbose.partsRaw ps)
  | [], n, m, h => by cases h; simp [Verbose.partsRaw, Verbose.weights]
  | p :: ps, n, m, h => by
    have e : Verbose.weights (Verbose.partsRaw (p :: ps)) = Verbose.weights (Verbose.partRaw p) + Verbose.weights (Verbose.partsRaw ps) :=
      Verbose.weights_append _ _
    have zero : Verbose.deep n ps = some m → Verbose.weights (Verbose.partRaw p) = 0 → (m : Int) = n + Verbose.weights (Verbose.partsRaw (p :: ps)) :=
      fun h h' => by have := Verbose.weights_parts ps n m h; rw [e, h']; omega
    cases p with
    | opening o =>
      have := Verbose.weights_parts ps (n + 1) m h
      have h' : Verbose.weights (Verbose.partRaw (.opening o)) = 1 := by cases o <;> rfl
      rw [e, h']
      omega
    | closing =>
      cases n with
      | zero => cases h
      | succ n =>
        have := Verbose.weights_parts ps n m h
        have h' : Verbose.weights (Verbose.partRaw .closing) = -1 := rfl
        rw [e, h']
        omega
    | piece p => exact zero (by cases n <;> exact h) (by cases p <;> rfl)
    | quant q l => exact zero (by cases n <;> exact h) (by cases q <;> cases l <;> rfl)
    | bar => exact zero (by cases n <;> exact h) rfl
    | first => exact zero (by cases n <;> exact h) rfl
    | last => exact zero (by cases n <;> exact h) rfl

/-- The tokens of what a formatted regex says. -/
theorem lexRaw_says {ps : List Part} {b : List Char} {k : Bool} (h : Formats ps b k) {s : List Char} (hs : s.head? ≠ some '?') :
    lexRaw (spaced (writeParts ps) ++ s) = putRaw (.tok '(' .group :: .tok ')' .close :: Verbose.partsRaw ps) (lexRaw s) := by
  rw [show spaced (writeParts ps) ++ s = '(' :: '?' :: ':' :: ')' :: (writeParts ps ++ s) from rfl,
    lexRaw_cons (r' := ')' :: (writeParts ps ++ s)) (t := .tok '(' .group) rfl,
    lexRaw_cons (r' := writeParts ps ++ s) (t := .tok ')' .close) rfl, Verbose.lexRaw_parts h hs, putRaw_putRaw, putRaw_putRaw]
  rfl

theorem parse_tokens {v : List Char} {r : Re} (h : Regex.parse v = .ok r) : ∃ ts, lex v = .ok ts ∧ build [] .start ts = .ok r := by
  unfold Regex.parse at h
  split at h
  · cases h
  · rename_i ts hl
    split at h
    · cases h
    · rename_i r hb
      split at h
      · cases h; exact ⟨ts, hl, hb⟩
      · cases h

/-- It is balanced if it is valid. -/
theorem says_deep {ps : List Part} {b : List Char} {k : Bool} (h : Formats ps b k) {a : Ast} (ha : Ast.parse (spaced (writeParts ps)) = .ok a) :
    Verbose.deep 0 ps = some 0 := by
  obtain ⟨ts, h1, h2⟩ := parse_tokens (parse_re ha)
  obtain ⟨us, h3, h4⟩ := lexRaw_of_lex h1
  have h5 := lexRaw_says h (s := []) (by simp)
  rw [List.append_nil, show lexRaw [] = .ok [] from rfl, h3] at h5
  cases h5
  rw [List.append_nil, resolve_tok, resolve_tok, prep_prep] at h4
  obtain ⟨vs, h6, rfl⟩ := prep_eq_ok h4
  rw [← Verbose.depth_parts ps _ _ vs 0 h6]
  exact depth_build h2

theorem lex_formatted {ps : List Part} {b : List Char} {k : Bool} (h : Formats ps b k) (hh : Headed ps) {a : Ast}
    (ha : Ast.parse (spaced (writeParts ps)) = .ok a) : Verbose.lex (verbose b) = lex (spaced (writeParts ps)) := by
  have h1 : Verbose.run true [] b = .ok (Verbose.partsRaw ps) := by
    have := Verbose.run_formats h [] (s := []) (by simp [Verbose.skip, Verbose.skipBlank]) (by simp) 0 0 (says_deep h ha)
    rw [List.append_nil b] at this
    refine Eq.trans this ?_
    cases k with
    | false => simp [putRaw]
    | true => rw [if_pos rfl, Verbose.run_nil (cs := []) rfl]; simp [putRaw]
  have h5 := lexRaw_says h (s := []) (by simp)
  rw [List.append_nil, show lexRaw [] = .ok [] from rfl] at h5
  have hr := Verbose.repeats_parts hh [] rfl
  rw [List.append_nil] at hr
  rw [Verbose.lex_eq, Verbose.run_flag false [] b rfl, h1]
  unfold lex
  unfold lexRaw at h5
  rw [h5]
  simp only [putRaw, List.cons_append, List.nil_append, List.append_nil]
  exact Verbose.resolve_flag hr {} []

/-- C81: with the flag `x`, a regex is read as its parts without white space and comments. -/
theorem C81_says (ps : List Part) (b : List Char) (k : Bool) (h : Formats ps b k) (hh : Headed ps) (a : Ast)
    (ha : Ast.parse (spaced (writeParts ps)) = .ok a) :
    Verbose.ast (verbose b) = .ok a ∧ Verbose.parse (verbose b) = .ok a.toRe ∧ Verbose.hirOf T (verbose b) = hirOf T (spaced (writeParts ps)) := by
  have h1 : Verbose.ast (verbose b) = .ok a := by
    unfold Ast.parse at ha
    unfold Verbose.ast
    rw [lex_formatted h hh (by unfold Ast.parse; exact ha)]
    exact ha
  refine ⟨h1, ?_, ?_⟩
  · have h2 := parse_re ha
    unfold Regex.parse at h2
    unfold Verbose.parse
    rw [lex_formatted h hh ha]
    exact h2
  · rw [hirOf_ok T ha, Verbose.hirOf, h1]

/-! ## In expressions -/

/-- `pars` gives a formatted regex where `pars'` gives its parts. -/
def Reformatted (ps : List Part) (k : Bool) (v v' : List Char) : Prop :=
  ∃ b, Formats ps b k ∧ Headed ps ∧ v = verbose b ∧ v' = spaced (writeParts ps)

/-- C81: if the regexes have capture groups outside of repetitions, nothing else is needed: they are printed anew, without white space
and comments. -/
theorem C81_grouped (src : List Char) (e : Expression) (h : Expression.parse src = .ok e) (pars' : Provider)
    (hq : ∀ q ∈ params e, pars' q.input = pars q.input ∨ ∃ ps k v v' hir, pars q.input = some v ∧ pars' q.input = some v' ∧
      Reformatted ps k v v' ∧ hirOf T v' = some hir ∧ hir.outerGroup = true)
    (c : Compiled) (hc : Expression.regexWithParameters (hirOf T) pars' src = .ok c) : Verbose.regexWithParameters T pars src = .ok c := by
  rw [regexWith_eq (hirOf T) pars' h] at hc
  rw [Verbose.regexWith_eq h]
  cases hs : seqPat (customRes (hirOf T) pars') e with
  | error x => rw [hs] at hc; cases hc
  | ok cs =>
    rw [hs] at hc
    have h1 : ∀ p ∈ params e, customRes (Verbose.hirOf T) pars p = customRes (hirOf T) pars' p := fun p hp => by
      rcases hq p hp with hv | ⟨ps, k, v, v', hir, h1, h2, ⟨b, hf, hh, rfl, rfl⟩, h3, h4⟩
      · have e : customRes (hirOf T) pars' p = customRes (hirOf T) pars p := by rw [customRes, customRes, hv]
        obtain ⟨q, hq⟩ := seqPat_isOk hs p hp
        rw [e] at hq ⊢
        rw [hq, Verbose.customRes_off hq]
      · have ha : ∃ a, Ast.parse (spaced (writeParts ps)) = .ok a := by
          unfold hirOf at h3
          cases ha : Ast.parse (spaced (writeParts ps)) with
          | ok a => exact ⟨a, rfl⟩
          | error x => rw [ha] at h3; cases h3
        obtain ⟨a, ha⟩ := ha
        have h5 := (C81_says T ps b k hf hh a ha).2.2
        have hp : '(' ∈ verbose b := by simp [verbose]
        have hp' : '(' ∈ spaced (writeParts ps) := by simp [spaced]
        simp only [customRes, h1, h2, valueRes, if_pos hp, if_pos hp', h5, h3, h4]
        try rfl
    rw [seqPat_congr h1, hs]
    simp only [compileRes, Verbose.compileRes] at hc ⊢
    cases hr : Regex.parse (['^'] ++ cs ++ ['$']) with
    | error x => rw [hr] at hc; cases hc
    | ok r => rw [hr] at hc; rw [Verbose.parse_off hr]; exact hc

/-- How such a parameter is inserted if it has no capture group. -/
theorem customRes_formatted {ps : List Part} {b : List Char} {k : Bool} (h : Formats ps b k) (hh : Headed ps) {hir : Hir}
    (hir_eq : hirOf T (spaced (writeParts ps)) = some hir) (hg : hir.outerGroup = false) {p : Parameter} :
    (pars p.input = some (verbose b) → customRes (Verbose.hirOf T) pars p = .ok ('(' :: verbose b ++ [')'])) ∧
    (pars p.input = some (spaced (writeParts ps)) → customRes (hirOf T) pars p = .ok ('(' :: spaced (writeParts ps) ++ [')'])) ∧
    ∃ a, Ast.parse (spaced (writeParts ps)) = .ok a := by
  have ha : ∃ a, Ast.parse (spaced (writeParts ps)) = .ok a := by
    unfold hirOf at hir_eq
    cases ha : Ast.parse (spaced (writeParts ps)) with
    | ok a => exact ⟨a, rfl⟩
    | error x => rw [ha] at hir_eq; cases hir_eq
  refine ⟨fun hv => ?_, fun hv => ?_, ha⟩
  · obtain ⟨a, ha⟩ := ha
    have h5 := (C81_says T ps b k h hh a ha).2.2
    have hp : '(' ∈ verbose b := by simp [verbose]
    simp only [customRes, hv, valueRes, if_pos hp, h5, hir_eq, hg]
    rfl
  · have hp : '(' ∈ spaced (writeParts ps) := by simp [spaced]
    simp only [customRes, hv, valueRes, if_pos hp, hir_eq, hg]
    rfl

/-- Inside an expression, too, the regex is read as its parts. -/
theorem parse_formatted {left right : List Char} {us ws : List RTok} (hl : lexRaw left = .ok us) (hr : lexRaw right = .ok ws)
    {ps : List Part} {b : List Char} (hb : Formats ps b true) (hh : Headed ps) {a : Ast} (ha : Ast.parse (spaced (writeParts ps)) = .ok a) :
    Verbose.parse (left ++ ('(' :: verbose b ++ ')' :: right)) = Regex.parse (left ++ ('(' :: spaced (writeParts ps) ++ ')' :: right)) := by
  have h1 : lexRaw (left ++ ('(' :: spaced (writeParts ps) ++ ')' :: right)) = .ok (us ++ (.tok '(' (.capture none) :: .tok '(' .group ::
      .tok ')' .close :: (Verbose.partsRaw ps ++ .tok ')' .close :: ws))) := by
    have h2 := lexF_append ('(' :: spaced (writeParts ps) ++ ')' :: right) (by simp) left.length left us (Nat.le_refl _) hl
    have h3 : lexRaw ('(' :: spaced (writeParts ps) ++ ')' :: right) = .ok (.tok '(' (.capture none) :: .tok '(' .group ::
        .tok ')' .close :: (Verbose.partsRaw ps ++ .tok ')' .close :: ws)) := by
      rw [List.cons_append, lexRaw_cons (r' := spaced (writeParts ps) ++ ')' :: right) (t := .tok '(' (.capture none)) rfl,
        lexRaw_says hb (by simp), lexRaw_cons (r' := right) (t := .tok ')' .close) rfl, hr]
      simp [putRaw]
    unfold lexRaw at h3 ⊢
    rw [h2, h3]
  have h4 : Verbose.run false [] (left ++ ('(' :: verbose b ++ ')' :: right)) = .ok (us ++ (.tok '(' (.capture none) ::
      .flags [(.x, true)] :: (Verbose.partsRaw ps ++ .tok ')' .close :: ws))) := by
    obtain ⟨st, ho, h5⟩ := run_verbose hl b (')' :: right)
    obtain ⟨st', -, h6⟩ := Verbose.run_off [] (by simp) right.length right ws (Nat.le_refl _) hr st ho
    rw [List.append_nil, Verbose.run_nil (cs := []) rfl] at h6
    have h7 := Verbose.run_formats hb (false :: st) (s := ')' :: right) (fun _ => by rw [Verbose.skip_head (by decide)]; simp)
      (fun h => absurd h (by decide)) 0 0 (says_deep hb ha)
    simp only [List.replicate_zero, List.nil_append, if_true] at h7
    rw [h5, h7, Verbose.run_cons (x := true) (st := false :: st) (c := ')') (r := right)
      (t := .tok ')' .close) (q := right) rfl (by simp [Verbose.one, atFlags, lexOne, Verbose.astray])]
    simp only [Verbose.after, List.headD_cons, List.tail_cons, h6]
    simp [putRaw]
  have h7 : ∀ f fs, resolve f fs (.tok '(' (.capture none) :: .flags [(.x, true)] :: (Verbose.partsRaw ps ++ .tok ')' .close :: ws)) =
      resolve f fs (.tok '(' (.capture none) :: .tok '(' .group :: .tok ')' .close :: (Verbose.partsRaw ps ++ .tok ')' .close :: ws)) :=
    fun f fs => congrArg (prep [.capture none]) (Verbose.resolve_flag (Verbose.repeats_parts hh _ rfl) f (f :: fs))
  have h8 : Verbose.lex (left ++ ('(' :: verbose b ++ ')' :: right)) = lex (left ++ ('(' :: spaced (writeParts ps) ++ ')' :: right)) := by
    unfold lex
    unfold lexRaw at h1
    rw [Verbose.lex_eq, h4, h1]
    exact Verbose.resolve_congr h7 rfl us {} []
  unfold Verbose.parse Regex.parse
  rw [h8]
  rfl

/-- The pattern of an expression with a given parameter. -/
theorem pattern_split {e l r : Expression} {p : Parameter} (he : e = l ++ .parameter p :: r)
    {cr : Parameter → Except ParameterError (List Char)} {pp : Parameter → List Char} {v : List Char}
    (h4 : ∀ q ∈ params l ++ params r, cr q = .ok (pp q)) (h5 : cr p = .ok ('(' :: v ++ [')'])) :
    ∃ cs, seqPat cr e = .ok cs ∧ ['^'] ++ cs ++ ['$'] = ('^' :: exprPat pp l) ++ ('(' :: v ++ ')' :: (exprPat pp r ++ ['$'])) := by
  let pq : Parameter → List Char := fun p => match cr p with
    | .ok c => c
    | .error _ => []
  refine ⟨_, seqPat_ok (pp := pq) fun q hm => ?_, ?_⟩
  · rcases mem_params_split he hm with hm | rfl | hm
    · simp only [pq, h4 q (by simp [hm])]
    · simp only [pq, h5]
    · simp only [pq, h4 q (by simp [hm])]
  · have h6 : exprPat pq l = exprPat pp l := exprPat_congr fun q hm => by simp only [pq, h4 q (by simp [hm])]
    have h7 : exprPat pq r = exprPat pp r := exprPat_congr fun q hm => by simp only [pq, h4 q (by simp [hm])]
    have h8 : exprPat pq e = exprPat pq l ++ (pq p ++ exprPat pq r) := by simp [he, exprPat, elemPat]
    have h9 : pq p = '(' :: v ++ [')'] := by simp only [pq, h5]
    rw [h8, h6, h7, h9]
    simp

/-- C81: an expression with a parameter whose formatted regex has no capture groups outside of repetitions, and whose last comment has
ended, means the same as with the parts of the regex instead. -/
theorem C81_closed (src : List Char) (e : Expression) (h : Expression.parse src = .ok e) (l r : Expression) (p : Parameter)
    (he : e = l ++ .parameter p :: r) (ps : List Part) (v v' : List Char) (hv : pars p.input = some v) (pars' : Provider)
    (hv' : pars' p.input = some v') (hf : Reformatted ps true v v') (hir : Hir) (hir_eq : hirOf T v' = some hir)
    (hg : hir.outerGroup = false) (hpars : ∀ q ∈ params l ++ params r, pars' q.input = pars q.input)
    (hs : ∀ q ∈ params l ++ params r, Sound (hirOf T) T.classes pars q) (re : Re) :
    (∃ c, Verbose.regexWithParameters T pars src = .ok c ∧ c.re = re) ↔
      ∃ c, Expression.regexWithParameters (hirOf T) pars' src = .ok c ∧ c.re = re := by
  obtain ⟨b, hb, hh, rfl, rfl⟩ := hf
  let pp : Parameter → List Char := fun p => match customRes (hirOf T) pars p with
    | .ok c => c
    | .error _ => []
  have hq : ∀ q ∈ params l ++ params r, customRes (hirOf T) pars q = .ok (pp q) := fun q hq => by
    obtain ⟨f, hf⟩ := sound_choice (hirOf T) T.classes pars hs
    simp only [pp, (hf q hq).1]
  have hq' : ∀ q ∈ params l ++ params r, customRes (hirOf T) pars' q = .ok (pp q) := fun q hm => by
    rw [← hq q hm, customRes, customRes, hpars q hm]
  have hal : NonemptyAlts l := fun hm => parse_nonemptyAlts h (by rw [he]; simp [hm])
  have har : NonemptyAlts r := fun hm => parse_nonemptyAlts h (by rw [he]; simp [hm])
  obtain ⟨us, h1, -⟩ := left_raw T pars hal (fun q hm => hs q (by simp [hm])) fun q hm => hq q (by simp [hm])
  obtain ⟨ts, h2, -⟩ := part_raw T pars har (fun q hm => hs q (by simp [hm])) fun q hm => hq q (by simp [hm])
  obtain ⟨ws, h3, -⟩ := lexRaw_of_lex (h2.append lexes_eol).lex
  obtain ⟨a, ha⟩ := (customRes_formatted T pars hb hh hir_eq hg (p := p)).2.2
  obtain ⟨cs, h4, h5⟩ := pattern_split he (v := verbose b) (fun q hm => Verbose.customRes_off (hq q hm))
    ((customRes_formatted T pars hb hh hir_eq hg).1 hv)
  obtain ⟨cs', h6, h7⟩ := pattern_split he (v := spaced (writeParts ps)) hq'
    ((customRes_formatted T pars' hb hh hir_eq hg).2.1 hv')
  rw [regexWith_eq (hirOf T) pars' h, h6, Verbose.regexWith_eq h, h4]
  simp only [compileRes, h7, Verbose.compileRes, h5]
  rw [parse_formatted h1 h3 hb hh ha]
  cases Regex.parse ('^' :: exprPat pp l ++ ('(' :: spaced (writeParts ps) ++ ')' :: (exprPat pp r ++ ['$']))) with
  | error x => exact ⟨fun ⟨_, h, _⟩ => (by cases h), fun ⟨_, h, _⟩ => by cases h⟩
  | ok q => exact ⟨fun ⟨_, h, e⟩ => ⟨_, rfl, by cases h; exact e⟩, fun ⟨_, h, e⟩ => ⟨_, rfl, by cases h; exact e⟩⟩

/-- C81: if its last comment has not ended, the expression is refused: the comment swallows the parenthesis after it. -/
theorem C81_refused (src : List Char) (e : Expression) (h : Expression.parse src = .ok e) (l r : Expression) (p : Parameter)
    (he : e = l ++ .parameter p :: r) (ps : List Part) (v v' : List Char) (hv : pars p.input = some v) (hf : Reformatted ps false v v')
    (hir : Hir) (hir_eq : hirOf T v' = some hir) (hg : hir.outerGroup = false)
    (hs : ∀ q ∈ params l, Sound (hirOf T) T.classes pars q)
    (hr : ∀ q ∈ params r, match pars q.input with
      | none => ∃ b : Builtin, q.input.frag = b.name
      | some w => '(' ∉ w ∧ '\n' ∉ w)
    (hn : '\n' ∉ print r) : ∃ x, Verbose.regexWithParameters T pars src = .err (.regex x) := by
  obtain ⟨b, hb, hh, rfl, rfl⟩ := hf
  have hcp := (customRes_formatted T pars hb hh hir_eq hg).1 hv
  obtain ⟨a, ha⟩ := (customRes_formatted T pars hb hh hir_eq hg (p := p)).2.2
  let pp : Parameter → List Char := fun p => match customRes (Verbose.hirOf T) pars p with
    | .ok c => c
    | .error _ => []
  have hl : ∀ q ∈ params l, customRes (hirOf T) pars q = .ok (pp q) := fun q hq => by
    obtain ⟨f, hf⟩ := sound_choice (hirOf T) T.classes pars hs
    have h1 := (hf q hq).1
    simp only [pp, Verbose.customRes_off h1, h1]
  have hp : customRes (Verbose.hirOf T) pars p = .ok (pp p) := by simp only [pp, hcp]
  have hr' : ∀ q ∈ params r, customRes (Verbose.hirOf T) pars q = .ok (pp q) ∧ '\n' ∉ pp q := fun q hq => by
    have h1 := hr q hq
    cases hw : pars q.input with
    | none =>
      rw [hw] at h1
      obtain ⟨c, hc⟩ := h1
      have : customRes (Verbose.hirOf T) pars q = .ok (builtinPat c q.id) := by
        simp [customRes, hw, builtinRes, builtinNamed_some.2 hc]
      simp only [pp, this]
      exact ⟨trivial, newline_builtin c _⟩
    | some w =>
      rw [hw] at h1
      have : customRes (Verbose.hirOf T) pars q = .ok ('(' :: w ++ [')']) := by simp [customRes, hw, valueRes, h1.1]
      simp only [pp, this]
      exact ⟨trivial, by simp [h1.2]⟩
  have hne : NonemptyAlts l := fun hm => parse_nonemptyAlts h (by rw [he]; simp [hm])
  obtain ⟨us, h1, h2⟩ := left_raw T pars hne hs hl
  have h3 : seqPat (customRes (Verbose.hirOf T) pars) e = .ok (exprPat pp e) := seqPat_ok fun q hq => by
    rcases mem_params_split he hq with hq | rfl | hq
    · exact Verbose.customRes_off (hl q hq)
    · exact hp
    · exact (hr' q hq).1
  have h4 : ['^'] ++ exprPat pp e ++ ['$'] = ('^' :: exprPat pp l) ++ ('(' :: verbose b ++ (')' :: (exprPat pp r ++ ['$']))) := by
    have : pp p = '(' :: verbose b ++ [')'] := by simp only [pp, hcp]
    simp [he, exprPat, elemPat, this]
  have h5 : '\n' ∉ ')' :: (exprPat pp r ++ ['$']) := by
    have := newline_expr (pp := pp) hn fun q hq => (hr' q hq).2
    simp [this]
  obtain ⟨st, -, h6⟩ := run_verbose h1 b (')' :: (exprPat pp r ++ ['$']))
  have hd := says_deep hb ha
  have hrun := Verbose.run_formats hb (false :: st) (s := ')' :: (exprPat pp r ++ ['$'])) (fun h => absurd h (by decide))
      (fun _ => h5) 0 0 hd
  simp only [List.replicate_zero, List.nil_append, Bool.false_eq_true, if_false] at hrun
  rw [hrun] at h6
  have h7 : ∃ x, Verbose.parse (['^'] ++ exprPat pp e ++ ['$']) = .error x := by
    rw [h4]
    unfold Verbose.parse
    rw [Verbose.lex_eq, h6]
    simp only [putRaw, List.append_nil]
    cases h8 : resolve {} [] (us ++ [.tok '(' (.capture none), .flags [(.x, true)]] ++ Verbose.partsRaw ps) with
    | error x => exact ⟨x, rfl⟩
    | ok vs =>
      simp only []
      cases h9 : build [] .start vs with
      | error x => exact ⟨x, rfl⟩
      | ok re =>
        exfalso
        have h10 := Verbose.net_resolve _ _ _ _ h8
        have h11 := Verbose.weights_parts ps 0 0 hd
        rw [Verbose.net_build h9, Verbose.weights_append, Verbose.weights_append, h2] at h10
        have h12 : Verbose.weights [RTok.tok '(' (.capture none), .flags [(.x, true)]] = 1 := rfl
        omega
  obtain ⟨x, hx⟩ := h7
  exact ⟨x, by rw [Verbose.regexWith_eq h, h3]; simp only [Verbose.compileRes, hx]⟩

/-! ## Without the empty group -/

theorem parse_same {v w : List Char} {ts us : List Tok} (h1 : lex v = .ok ts) (h2 : lex w = .ok us) {r : Re} (h : Regex.parse v = .ok r)
    (hb : ∀ r, build [] .start ts = .ok r → ∃ r', build [] .start us = .ok r' ∧ r.Same r') :
    ∃ r', Regex.parse w = .ok r' ∧ r.Same r' := by
  obtain ⟨ts', h3, h4⟩ := parse_tokens h
  rw [h1] at h3
  cases h3
  obtain ⟨r', h5, h6⟩ := hb r h4
  refine ⟨r', ?_, h6⟩
  unfold Regex.parse at h ⊢
  rw [h1] at h
  rw [h2]
  simp only [h4, h5] at h ⊢
  have : r'.names = r.names := by rw [Re.names, Re.names, h6.groups]
  rw [this]
  split at h
  · rename_i hn; rw [if_pos hn]
  · cases h

/-- An empty group in front of a regex changes nothing. -/
theorem parse_spaced {t : List Char} {r : Re} (h : Regex.parse t = .ok r) : ∃ r', Regex.parse (spaced t) = .ok r' ∧ r.Same r' := by
  obtain ⟨ts, h1, -⟩ := parse_tokens h
  obtain ⟨us, h2, h3⟩ := lexRaw_of_lex h1
  refine parse_same h1 (us := .group :: .close :: ts) ?_ h fun r hr => build_front hr
  have h4 : lexRaw (spaced t) = .ok (.tok '(' .group :: .tok ')' .close :: us) := by
    rw [show spaced t = '(' :: '?' :: ':' :: ')' :: t from rfl, lexRaw_cons (r' := ')' :: t) (t := .tok '(' .group) rfl,
      lexRaw_cons (r' := t) (t := .tok ')' .close) rfl, h2]
    rfl
  unfold lex
  unfold lexRaw at h4
  rw [h4]
  show resolve {} [] _ = _
  rw [resolve_tok, resolve_tok, prep_prep]
  show prep [.group, .close] (resolve {} [] us) = _
  rw [h3]
  rfl

/-- A regex does not begin with a repetition operator. -/
theorem parse_headed {ps : List Part} {b : List Char} {k : Bool} (h : Formats ps b k) {r : Re} (hr : Regex.parse (writeParts ps) = .ok r) :
    Headed ps := by
  obtain ⟨ts, h1, h2⟩ := parse_tokens hr
  obtain ⟨us, h3, h4⟩ := lexRaw_of_lex h1
  have h5 := Verbose.lexRaw_parts h (s := []) (by simp)
  rw [List.append_nil, show lexRaw [] = .ok [] from rfl, h3] at h5
  cases h5
  intro p hp
  cases ps with
  | nil => cases hp
  | cons q ps =>
    cases hp
    cases p with
    | quant q l =>
      exfalso
      have e : ∃ c t us, Verbose.partsRaw (.quant q l :: ps) ++ [] = .tok c t :: us ∧ (t = .quest ∨ t = .star ∨ t = .plus ∨ ∃ m n, t = .count m n) := by
        cases q <;> exact ⟨_, _, _, rfl, by simp [quantTok]⟩
      obtain ⟨c, t, us, e, ht⟩ := e
      rw [e, resolve_tok] at h4
      obtain ⟨vs, -, rfl⟩ := prep_eq_ok h4
      rcases ht with rfl | rfl | rfl | ⟨m, n, rfl⟩ <;> cases h2
    | _ => rfl

/-- C81: a formatted regex means what its parts mean: it has the same groups, the same matches with the same captures, in the same order
of preference, so that the same match is found in every text. -/
theorem C81_means (ps : List Part) (b : List Char) (k : Bool) (h : Formats ps b k) (r : Re) (hr : Regex.parse (writeParts ps) = .ok r) :
    ∃ r', Verbose.parse (verbose b) = .ok r' ∧ r'.groups = r.groups ∧
      (∀ (U : Classes) (g : Nat) (pre x post : List Char) (l : List Cap), r'.Match U g pre x post l ↔ r.Match U g pre x post l) ∧
      ∀ (S : Tests) (w : List Char), r'.find S w = r.find S w := by
  obtain ⟨r', h1, h2⟩ := parse_spaced hr
  have ha : ∃ a, Ast.parse (spaced (writeParts ps)) = .ok a ∧ a.toRe = r' := by
    rw [parse_toRe] at h1
    cases ha : Ast.parse (spaced (writeParts ps)) with
    | error x => rw [ha] at h1; cases h1
    | ok a => rw [ha] at h1; cases h1; exact ⟨a, rfl, rfl⟩
  obtain ⟨a, ha, rfl⟩ := ha
  have h3 : Verbose.parse (verbose b) = .ok a.toRe := by
    have h2 := parse_re ha
    unfold Regex.parse at h2
    unfold Verbose.parse
    rw [lex_formatted h (parse_headed h hr) ha]
    exact h2
  refine ⟨_, h3, h2.groups.symm, fun U g pre x post l => ?_, fun S w => ?_⟩
  · rw [h2.isMatch]
  · unfold Re.find; rw [h2.tries]

theorem resolve_inserted (X : List RTok) : ∀ (us : List RTok) (f : Flags) (fs : List Flags) (vs : List Tok),
    resolve f fs (us ++ .tok '(' (.capture none) :: X) = .ok vs →
    ∃ vs', resolve f fs (us ++ .tok '(' (.capture none) :: .tok '(' .group :: .tok ')' .close :: X) = .ok vs' ∧ Inserted vs vs'
  | [], f, fs, vs, h => by
    have h : prep [.capture none] (resolve f (f :: fs) X) = .ok vs := h
    obtain ⟨ws, h1, rfl⟩ := prep_eq_ok h
    refine ⟨.capture none :: .group :: .close :: ws, ?_, .here none ws⟩
    show prep [.capture none] (prep [.group] (prep [.close] (resolve f (f :: fs) X))) = _
    rw [h1]
    rfl
  | .flags l :: us, f, fs, vs, h => by
    have : ∀ Y Z, repeats (us ++ .tok '(' (.capture none) :: Y) = repeats (us ++ .tok '(' (.capture none) :: Z) := fun Y Z => by
      cases us with
      | nil => rfl
      | cons t ts => cases t <;> first | rfl | (rename_i u; cases u <;> rfl)
    simp only [List.cons_append, resolve, this X []] at h
    simp only [List.cons_append, resolve, this (.tok '(' .group :: .tok ')' .close :: X) []]
    split at h
    · cases h
    · rename_i hr
      rw [if_neg hr]
      obtain ⟨ws, h1, rfl⟩ := prep_eq_ok h
      obtain ⟨vs', h2, h3⟩ := resolve_inserted X us _ _ _ h1
      rw [h2]
      exact ⟨_, rfl, h3.append [.group, .close]⟩
  | .scope l :: us, f, fs, vs, h => by
    rw [List.cons_append, resolve] at h ⊢
    · obtain ⟨ws, h1, rfl⟩ := prep_eq_ok h
      obtain ⟨vs', h2, h3⟩ := resolve_inserted X us _ _ _ h1
      rw [h2]
      exact ⟨_, rfl, h3.append _⟩
    all_goals simp
  | .tok c t :: us, f, fs, vs, h => by
    rw [List.cons_append, resolve_tok] at h ⊢
    obtain ⟨ws, h1, rfl⟩ := prep_eq_ok h
    obtain ⟨vs', h2, h3⟩ := resolve_inserted X us _ _ _ h1
    rw [h2]
    exact ⟨_, rfl, h3.append _⟩

/-- Nor does it inside of an expression. -/
theorem parse_unspaced {left right : List Char} {us ws : List RTok} (hl : lexRaw left = .ok us) (hr : lexRaw right = .ok ws)
    {ps : List Part} {b : List Char} {k : Bool} (hb : Formats ps b k) (hh : Headed ps) {r : Re}
    (h : Regex.parse (left ++ ('(' :: writeParts ps ++ ')' :: right)) = .ok r) :
    ∃ r', Regex.parse (left ++ ('(' :: spaced (writeParts ps) ++ ')' :: right)) = .ok r' ∧ r.Same r' := by
  have h1 : lexRaw (left ++ ('(' :: spaced (writeParts ps) ++ ')' :: right)) = .ok (us ++ (.tok '(' (.capture none) :: .tok '(' .group ::
      .tok ')' .close :: (Verbose.partsRaw ps ++ .tok ')' .close :: ws))) := by
    have h2 := lexF_append ('(' :: spaced (writeParts ps) ++ ')' :: right) (by simp) left.length left us (Nat.le_refl _) hl
    have h3 : lexRaw ('(' :: spaced (writeParts ps) ++ ')' :: right) = .ok (.tok '(' (.capture none) :: .tok '(' .group ::
        .tok ')' .close :: (Verbose.partsRaw ps ++ .tok ')' .close :: ws)) := by
      rw [List.cons_append, lexRaw_cons (r' := spaced (writeParts ps) ++ ')' :: right) (t := .tok '(' (.capture none)) rfl,
        lexRaw_says hb (by simp), lexRaw_cons (r' := right) (t := .tok ')' .close) rfl, hr]
      simp [putRaw]
    unfold lexRaw at h3 ⊢
    rw [h2, h3]
  have h4 : lexRaw (left ++ ('(' :: writeParts ps ++ ')' :: right)) = .ok (us ++ (.tok '(' (.capture none) ::
      (Verbose.partsRaw ps ++ .tok ')' .close :: ws))) := by
    have h2 := lexF_append ('(' :: writeParts ps ++ ')' :: right) (by simp) left.length left us (Nat.le_refl _) hl
    have h5 : Formats (.opening .number :: ps) ('(' :: b) k := .part (p := .opening .number) (fun _ hn => by cases hn) (fun _ q hq => by
      have := hh q hq
      cases q <;> first | rfl | cases this) hb
    have h3 : lexRaw ('(' :: writeParts ps ++ ')' :: right) = .ok (.tok '(' (.capture none) ::
        (Verbose.partsRaw ps ++ .tok ')' .close :: ws)) := by
      have := Verbose.lexRaw_parts h5 (s := ')' :: right) (by simp)
      rw [lexRaw_cons (r' := right) (t := .tok ')' .close) rfl, hr] at this
      refine Eq.trans (congrArg lexRaw ?_) (this.trans ?_)
      · simp [writeParts, Part.write, Pat.Opening.write]
      · simp [putRaw, Verbose.partsRaw, Verbose.partRaw, openTok]
    unfold lexRaw at h3 ⊢
    rw [h2, h3]
  obtain ⟨ts, h5, -⟩ := parse_tokens h
  have h6 : resolve {} [] (us ++ .tok '(' (.capture none) :: (Verbose.partsRaw ps ++ .tok ')' .close :: ws)) = .ok ts := by
    unfold lex at h5
    unfold lexRaw at h4
    rw [h4] at h5
    exact h5
  obtain ⟨ts', h7, h8⟩ := resolve_inserted _ _ _ _ _ h6
  refine parse_same h5 (us := ts') ?_ h fun r hr => build_inserted h8 hr
  unfold lex
  unfold lexRaw at h1
  rw [h1]
  exact h7

/-- C81: an expression means the same with a formatted regex, whose last comment has ended and which has no capture groups, as with the
parts of the regex alone: the same match with the same captures is found in every text. -/
theorem C81_plain (src : List Char) (e : Expression) (h : Expression.parse src = .ok e) (l r : Expression) (p : Parameter)
    (he : e = l ++ .parameter p :: r) (ps : List Part) (b : List Char) (hb : Formats ps b true) (hv : pars p.input = some (verbose b))
    (pars' : Provider) (hv' : pars' p.input = some (writeParts ps)) (q : Re) (hq : Regex.parse (writeParts ps) = .ok q)
    (hg : q.groups = []) (hpars : ∀ q ∈ params l ++ params r, pars' q.input = pars q.input)
    (hs : ∀ q ∈ params l ++ params r, Sound (hirOf T) T.classes pars q) (c : Compiled)
    (hc : Expression.regexWithParameters (hirOf T) pars' src = .ok c) :
    ∃ c', Verbose.regexWithParameters T pars src = .ok c' ∧ c'.re.groups = c.re.groups ∧
      (∀ (U : Classes) (g : Nat) (pre x post : List Char) (l : List Cap), c'.re.Match U g pre x post l ↔ c.re.Match U g pre x post l) ∧
      ∀ (S : Tests) (w : List Char), c'.re.find S w = c.re.find S w := by
  have hh := parse_headed hb hq
  obtain ⟨q', h1, h2⟩ := parse_spaced hq
  have astOf : ∀ {v : List Char} {q : Re}, Regex.parse v = .ok q → ∃ a, Ast.parse v = .ok a ∧ a.toRe = q := fun {v q} hv => by
    rw [parse_toRe] at hv
    cases ha : Ast.parse v with
    | error x => rw [ha] at hv; cases hv
    | ok a => rw [ha] at hv; cases hv; exact ⟨a, rfl, rfl⟩
  obtain ⟨a, ha, rfl⟩ := astOf h1
  obtain ⟨a0, ha0, rfl⟩ := astOf hq
  have ho : hirOf T (spaced (writeParts ps)) = some (translate T a 1).1 := hirOf_ok T ha
  have hog : (translate T a 1).1.outerGroup = false := translate_groupless T (h2.groups ▸ hg)
  have hplain : customRes (hirOf T) pars' p = .ok ('(' :: writeParts ps ++ [')']) := by
    have e1 : hirOf T (writeParts ps) = some (translate T a0 1).1 := hirOf_ok T ha0
    by_cases hp : '(' ∈ writeParts ps
    · simp only [customRes, hv', valueRes, if_pos hp, e1, translate_groupless T hg]
      rfl
    · simp only [customRes, hv', valueRes, if_neg hp]
  let pp : Parameter → List Char := fun p => match customRes (hirOf T) pars p with
    | .ok c => c
    | .error _ => []
  have hq : ∀ q ∈ params l ++ params r, customRes (hirOf T) pars q = .ok (pp q) := fun q hq => by
    obtain ⟨f, hf⟩ := sound_choice (hirOf T) T.classes pars hs
    simp only [pp, (hf q hq).1]
  have hq' : ∀ q ∈ params l ++ params r, customRes (hirOf T) pars' q = .ok (pp q) := fun q hm => by
    rw [← hq q hm, customRes, customRes, hpars q hm]
  have hal : NonemptyAlts l := fun hm => parse_nonemptyAlts h (by rw [he]; simp [hm])
  have har : NonemptyAlts r := fun hm => parse_nonemptyAlts h (by rw [he]; simp [hm])
  obtain ⟨us, h3, -⟩ := left_raw T pars hal (fun q hm => hs q (by simp [hm])) fun q hm => hq q (by simp [hm])
  obtain ⟨ts, h4, -⟩ := part_raw T pars har (fun q hm => hs q (by simp [hm])) fun q hm => hq q (by simp [hm])
  obtain ⟨ws, h5, -⟩ := lexRaw_of_lex (h4.append lexes_eol).lex
  obtain ⟨cs, h6, h7⟩ := pattern_split he (v := verbose b) (fun q hm => Verbose.customRes_off (hq q hm))
    ((customRes_formatted T pars hb hh ho hog).1 hv)
  obtain ⟨cs', h8, h9⟩ := pattern_split he (v := writeParts ps) hq' hplain
  rw [regexWith_eq (hirOf T) pars' h, h8] at hc
  rw [Verbose.regexWith_eq h, h6]
  simp only [compileRes, h9] at hc
  simp only [Verbose.compileRes, h7]
  rw [parse_formatted h3 h5 hb hh ha]
  cases hr : Regex.parse ('^' :: exprPat pp l ++ ('(' :: writeParts ps ++ ')' :: (exprPat pp r ++ ['$']))) with
  | error x => rw [hr] at hc; cases hc
  | ok re =>
    rw [hr] at hc
    cases hc
    obtain ⟨re', h10, h11⟩ := parse_unspaced h3 h5 hb hh hr
    rw [h10]
    refine ⟨_, rfl, h11.groups.symm, fun U g pre x post l => ?_, fun S w => ?_⟩
    · show re'.Match U g pre x post l ↔ re.Match U g pre x post l
      rw [h11.isMatch]
    · show re'.find S w = re.find S w
      unfold Re.find; rw [h11.tries]

/-! ## A case -/

/-- `x+ - (?: a b )+ # c`, first as parts. -/
def sampleParts : List Part :=
  [.piece (.one (.plain 'x')), .quant .some false, .piece (.one (.plain '-')), .opening .noCapture, .piece (.one (.plain 'a')),
    .piece (.one (.plain 'b')), .closing, .quant .some false]

theorem sample_write : writeParts sampleParts = chars! "x+-(?:ab)+" := rfl

theorem sample_formats (w : List Char) (k : Bool) (h : Formats [] w k) : Formats sampleParts (chars! " x+ - (?: a b )+" ++ w) k := by
  refine .white (by decide) (.part (p := .piece (.one (.plain 'x'))) ?_ (by decide) (.part (p := .quant .some false) ?_ (by decide)
    (.white (by decide) (.part (p := .piece (.one (.plain '-'))) ?_ (by decide) (.white (by decide) (.part (p := .opening .noCapture) ?_ (by decide)
    (.white (by decide) (.part (p := .piece (.one (.plain 'a'))) ?_ (by decide)
    (.white (by decide) (.part (p := .piece (.one (.plain 'b'))) ?_ (by decide) (.white (by decide) (.part (p := .closing) ?_ (by decide)
    (.part (p := .quant .some false) ?_ (by decide) h)))))))))))))
  · exact ⟨by simp [Pat.Piece.Valid, Pat.Single.Valid, Pat.specialOutside], by simp only [Compact, Pat.Piece.write, Pat.Single.write]; decide⟩
  · trivial
  · exact ⟨by simp [Pat.Piece.Valid, Pat.Single.Valid, Pat.specialOutside], by simp only [Compact, Pat.Piece.write, Pat.Single.write]; decide⟩
  · intro n hn; cases hn
  · exact ⟨by simp [Pat.Piece.Valid, Pat.Single.Valid, Pat.specialOutside], by simp only [Compact, Pat.Piece.write, Pat.Single.write]; decide⟩
  · exact ⟨by simp [Pat.Piece.Valid, Pat.Single.Valid, Pat.specialOutside], by simp only [Compact, Pat.Piece.write, Pat.Single.write]; decide⟩
  · trivial
  · trivial

theorem sample_headed : Headed sampleParts := by intro p hp; cases hp; rfl

/-- It is valid and has no capture groups. -/
theorem sample_hir : ∃ a hir, Ast.parse (spaced (writeParts sampleParts)) = .ok a ∧ hirOf T (spaced (writeParts sampleParts)) = some hir ∧
    hir.outerGroup = false := by
  have h : ∃ a, Ast.parse (spaced (chars! "x+-(?:ab)+")) = .ok a ∧ a.toRe.groups = [] := ⟨_, rfl, rfl⟩
  obtain ⟨a, h1, h2⟩ := h
  rw [sample_write]
  exact ⟨a, _, h1, hirOf_ok T h1, translate_groupless T h2⟩

/-- With a comment at the end, the expression is refused … -/
example : ∃ x, Verbose.regexWithParameters T (hashMapProvider [(chars! "p", verbose (chars! " x+ - (?: a b )+ # c"))])
    (chars! "{int} {p} c") = .err (.regex x) := by
  obtain ⟨a, hir, h1, h2, h3⟩ := sample_hir T
  refine C81_refused T _ _ _ rfl [_, _] [_, _] _ rfl sampleParts _ _ rfl ⟨_, sample_formats _ _ (.white (by decide) (.last (w := chars! " c")
    (by decide))), sample_headed, rfl, rfl⟩ hir h2 h3 (fun q hq => ?_) (fun q hq => by cases hq) (by decide)
  cases List.mem_singleton.1 hq
  exact ⟨.int, rfl⟩

/-- … unless the comment is ended; then it is the same as without white space and comments. -/
example (re : Re) : (∃ c, Verbose.regexWithParameters T (hashMapProvider [(chars! "p", verbose (chars! " x+ - (?: a b )+ # c\n"))])
      (chars! "{int} {p} c") = .ok c ∧ c.re = re) ↔
    ∃ c, Expression.regexWithParameters (hirOf T) (hashMapProvider [(chars! "p", spaced (writeParts sampleParts))])
      (chars! "{int} {p} c") = .ok c ∧ c.re = re := by
  obtain ⟨a, hir, h1, h2, h3⟩ := sample_hir T
  refine C81_closed T _ _ _ rfl [_, _] [_, _] _ rfl sampleParts _ _ rfl _ rfl ⟨_, sample_formats _ _ (.white (by decide)
    (.comment (w := chars! " c") (by decide) .nil)), sample_headed, rfl, rfl⟩ hir h2 h3 (fun q hq => ?_) (fun q hq => ?_) re
  · cases List.mem_singleton.1 hq
    rfl
  · cases List.mem_singleton.1 hq
    exact ⟨.int, rfl⟩

/-- It matches what it does without the flag. -/
example : ∃ r r', Regex.parse (writeParts sampleParts) = .ok r ∧ Verbose.parse (verbose (chars! " x+ - (?: a b )+ # c\n")) = .ok r' ∧
    r'.groups = r.groups ∧ r.groups = [] ∧ ∀ (S : Tests) (w : List Char), r'.find S w = r.find S w := by
  have h : ∃ r, Regex.parse (chars! "x+-(?:ab)+") = .ok r ∧ r.groups = [] := ⟨_, rfl, rfl⟩
  obtain ⟨r, h1, h2⟩ := h
  obtain ⟨r', h3, h4, -, h5⟩ := C81_means sampleParts _ _ (sample_formats (chars! " # c\n") true (.white (by decide)
    (.comment (w := chars! " c") (by decide) .nil))) r (by rw [sample_write]; exact h1)
  exact ⟨r, r', by rw [sample_write]; exact h1, h3, h4, h2, h5⟩

/-- So does an expression with it. -/
example : ∃ c c', Expression.regexWithParameters (hirOf T) (hashMapProvider [(chars! "p", chars! "x+-(?:ab)+")]) (chars! "{int} {p} c") = .ok c ∧
    Verbose.regexWithParameters T (hashMapProvider [(chars! "p", verbose (chars! " x+ - (?: a b )+ # c\n"))]) (chars! "{int} {p} c") = .ok c' ∧
    ∀ (S : Tests) (w : List Char), c'.re.find S w = c.re.find S w := by
  have h : ∃ r, Regex.parse (chars! "x+-(?:ab)+") = .ok r ∧ r.groups = [] := ⟨_, rfl, rfl⟩
  obtain ⟨r, h1, h2⟩ := h
  have hc : ∃ c, Expression.regexWithParameters (hirOf T) (hashMapProvider [(chars! "p", chars! "x+-(?:ab)+")]) (chars! "{int} {p} c") = .ok c :=
    ⟨_, rfl⟩
  obtain ⟨c, hc⟩ := hc
  obtain ⟨c', h3, -, -, h4⟩ := C81_plain T (hashMapProvider [(chars! "p", verbose (chars! " x+ - (?: a b )+ # c\n"))]) (chars! "{int} {p} c") _ rfl
    [_, _] [_, _] _ rfl sampleParts _ (sample_formats (chars! " # c\n") true (.white (by decide)
    (.comment (w := chars! " c") (by decide) .nil))) rfl
    (hashMapProvider [(chars! "p", chars! "x+-(?:ab)+")]) (by rw [sample_write]; rfl) r (by rw [sample_write]; exact h1) h2
    (fun q hq => by cases List.mem_singleton.1 hq; rfl) (fun q hq => by cases List.mem_singleton.1 hq; exact ⟨.int, rfl⟩) c hc
  exact ⟨c, c', hc, h3, h4⟩

/-- With a capture group it is printed anew, and the comment does no harm. -/
example : Expression.regexWithParameters (hirOf T) (hashMapProvider [(chars! "p", spaced (chars! "(a)b"))]) (chars! "{p} c") =
    Verbose.regexWithParameters T (hashMapProvider [(chars! "p", verbose (chars! "( a ) b # c"))]) (chars! "{p} c") ∧
    ∃ c, Verbose.regexWithParameters T (hashMapProvider [(chars! "p", verbose (chars! "( a ) b # c"))]) (chars! "{p} c") = .ok c :=
  ⟨rfl, ⟨_, rfl⟩⟩

end CE
