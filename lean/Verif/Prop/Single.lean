import Verif.Prop.CustomLang
import Verif.Proof.Unclosed
import Verif.Spec.Single
import Verif.Model.Display

/-! # A single invalid custom regex: C36 -/

namespace CE
open Spec Regex

/-! ## The patterns of elements do not close classes -/

/-- What follows the bracket that closes a class without brackets inside. -/
def afterSet : List Char → Option (List Char)
  | [] => none
  | '[' :: _ => none
  | ']' :: z => some z
  | ['\\'] => none
  | '\\' :: c :: b => if c ∈ ['x', 'u', 'U', 'p', 'P'] then none else afterSet b
  | _ :: b => afterSet b

theorem afterSet_inner : ∀ (n : Nat) {cs z : List Char}, cs.length ≤ n → afterSet cs = some z → ∃ b, Inner b ∧ cs = b ++ ']' :: z
  | _, [], z, _, h => by cases h
  | 0, _ :: _, _, hn, _ => by simp at hn
  | n + 1, c :: cs, z, hn, h => by
    unfold afterSet at h
    split at h
    · cases h
    · cases h
    · next h0 => cases h0; cases h; exact ⟨[], .nil, rfl⟩
    · cases h
    · next c' b h0 =>
      cases h0
      split at h
      · cases h
      · next hc =>
        obtain ⟨b', h1, rfl⟩ := afterSet_inner n (by simp at hn; omega) h
        exact ⟨'\\' :: c' :: b', .esc hc h1, rfl⟩
    · next c' b h1 h2 h3 h4 h0 =>
      cases h0
      obtain ⟨b', h5, rfl⟩ := afterSet_inner n (by simp at hn; omega) h
      refine ⟨c :: b', .plain h1 h2 (fun e => ?_) h5, rfl⟩
      rw [e] at h4
      cases hb : b' ++ ']' :: z with
      | nil => simp at hb
      | cons x y => exact h4 _ _ rfl hb

theorem safe_set {c : Char} {cs z : List Char} (hc : c ∉ [':', '-', ']', '^']) (h : afterSet (c :: cs) = some z) (hz : Safe false z) :
    Safe false ('[' :: c :: cs) := by
  obtain ⟨b, h1, h2⟩ := afterSet_inner _ (Nat.le_refl _) h
  cases b with
  | nil => exact absurd (List.cons.inj h2).1 (fun e => hc (by simp [e]))
  | cons d b =>
    have e1 := (List.cons.inj h2).1
    have e2 := (List.cons.inj h2).2
    subst e1
    rw [e2]
    exact .set hc h1 hz

theorem safe_neg {c : Char} {cs z : List Char} (hc : c ∉ ['-', ']']) (h : afterSet (c :: cs) = some z) (hz : Safe false z) :
    Safe false ('[' :: '^' :: c :: cs) := by
  obtain ⟨b, h1, h2⟩ := afterSet_inner _ (Nat.le_refl _) h
  cases b with
  | nil => exact absurd (List.cons.inj h2).1 (fun e => hc (by simp [e]))
  | cons d b =>
    have e1 := (List.cons.inj h2).1
    have e2 := (List.cons.inj h2).2
    subst e1
    rw [e2]
    exact .neg hc h1 hz

theorem safe_builtin (b : Builtin) (id : Nat) : Safe true (builtinPat b id) := by
  have go : ∀ {c : Char} {z : List Char} {d : Bool}, (c ≠ '[' ∧ c ≠ ']' ∧ c ≠ '\\' ∧ c ≠ '-') → Safe false z → Safe d (c :: z) := by
    intro c z d h hz
    refine .plain h.1 h.2.1 h.2.2.1 ?_
    rw [show (c == '-') = false by simp [h.2.2.2]]
    exact hz
  have digits : ∀ w : List Char, (∀ c ∈ w, c.isDigit = true) → Safe true w := by
    intro w
    induction w with
    | nil => intro _; exact .nil _
    | cons c w ih =>
      intro h
      have hc := h c (by simp)
      refine go ⟨?_, ?_, ?_, ?_⟩ (ih fun c hc => h c (by simp [hc])).weaken <;> (rintro rfl; revert hc; decide)
  cases b with
  | int =>
    show Safe true (chars! "((?:-?\\d+)|(?:\\d+))")
    repeat first | exact .nil _ | refine go (by decide) ?_ | refine .plain (by decide) (by decide) (by decide) ?_ | refine .esc (by decide) ?_
  | float =>
    show Safe true (chars! "([+-]?(?:inf|NaN|(?:\\d+|\\d+\\.\\d*|\\d*\\.\\d+)(?:[eE][+-]?\\d+)?))")
    repeat first | exact .nil _ | refine go (by decide) ?_ | refine .plain (by decide) (by decide) (by decide) ?_ | refine .esc (by decide) ?_ | refine safe_set (by decide) rfl ?_
  | word =>
    show Safe true (chars! "([^\\s]+)")
    repeat first | exact .nil _ | refine go (by decide) ?_ | refine .esc (by decide) ?_ | refine safe_neg (by decide) rfl ?_
  | string =>
    show Safe true (chars! "(?:\"(?P<__" ++ decimal id ++ chars! "_0>[^\"\\\\]*(?:\\\\.[^\"\\\\]*)*)\"|'(?P<__" ++ decimal id ++
      chars! "_1>[^'\\\\]*(?:\\\\.[^'\\\\]*)*)')")
    have hd : Safe true (decimal id) := digits _ fun c hc => Nat.isDigit_of_mem_toDigits (by decide) (by decide) hc
    refine .append (.append (.append (.append ?_ hd) ?_) hd) ?_
    all_goals repeat first | exact .nil _ | refine go (by decide) ?_ | refine .esc (by decide) ?_ | refine safe_neg (by decide) rfl ?_
  | anonymous =>
    show Safe true (chars! "(.*)")
    repeat first | exact .nil _ | refine go (by decide) ?_

theorem safe_quote (u : List Char) : ∀ d, Safe d (quoteAll u) := by
  induction u with
  | nil => exact fun d => .nil d
  | cons c u ih =>
    intro d
    rw [quoteAll_cons]
    unfold quote
    split
    · next h =>
      refine .esc ?_ (ih _)
      intro hc
      simp only [List.mem_cons, List.not_mem_nil, or_false] at hc
      rcases hc with rfl | rfl | rfl | rfl | rfl <;> revert h <;> decide
    · next h => exact .plain (fun e => h (by rw [e]; decide)) (fun e => h (by rw [e]; decide)) (fun e => h (by rw [e]; decide)) (ih _)

theorem safe_opening : Safe true ['(', '?', ':'] :=
  .plain (by decide) (by decide) (by decide) (.plain (by decide) (by decide) (by decide) (.plain (by decide) (by decide) (by decide) (.nil _)))

theorem safe_alternative (a : Alternative) : Safe true (altPat a) := by
  cases a with
  | text t => exact safe_quote _ _
  | optional o =>
    exact .append (.append safe_opening (safe_quote _ _))
      (.plain (by decide) (by decide) (by decide) (.plain (by decide) (by decide) (by decide) (.nil _)))

theorem safe_flatten {ws : List (List Char)} (h : ∀ w ∈ ws, Safe true w) : Safe true ws.flatten := by
  induction ws with
  | nil => exact .nil _
  | cons w ws ih => exact .append (h w (by simp)) (ih fun w hw => h w (by simp [hw]))

theorem safe_bars : ∀ {ws : List (List Char)}, (∀ w ∈ ws, Safe true w) → Safe true (joinBars ws)
  | [], _ => .nil _
  | [w], h => h w (by simp)
  | w :: w' :: ws, h => .append (h w (by simp)) (.plain (by decide) (by decide) (by decide)
      (safe_bars (ws := w' :: ws) fun w hw => h w (by simp [hw])).weaken)

theorem safe_element (pp : Parameter → List Char) (s : SingleExpression) (h : ∀ p, s = .parameter p → Safe true (pp p)) :
    Safe true (elemPat pp s) := by
  cases s with
  | text t => exact safe_quote _ _
  | whitespaces t => exact safe_quote _ _
  | optional o => exact safe_alternative (.optional o)
  | alternation a =>
    refine .append (.append safe_opening (safe_bars ?_)) (.plain (by decide) (by decide) (by decide) (.nil _))
    intro w hw
    obtain ⟨b, -, rfl⟩ := List.mem_map.1 hw
    exact safe_flatten fun w hw => by
      obtain ⟨a, -, rfl⟩ := List.mem_map.1 hw
      exact safe_alternative a
  | parameter p => exact h p rfl

theorem safe_calm {w : List Char} (h : Calm w) : ∀ d, Safe d w := by
  induction h with
  | nil => exact fun d => .nil d
  | plain hc _ ih =>
    intro d
    simp only [List.mem_cons, List.not_mem_nil, or_false, not_or] at hc
    exact .plain hc.2.1 hc.2.2.1 hc.2.2.2 (ih _)
  | esc hc _ ih =>
    intro d
    exact .esc (fun hm => hc (by simp only [List.mem_cons, List.not_mem_nil, or_false] at hm ⊢; exact .inr hm)) (ih _)

theorem calm_unopened {w : List Char} (h : Calm w) : '(' ∉ w := by
  induction h with
  | nil => simp
  | plain hc _ ih =>
    rw [List.mem_cons]
    rintro (rfl | hm)
    · simp at hc
    · exact ih hm
  | esc hc _ ih =>
    simp only [List.mem_cons, not_or]
    exact ⟨by decide, fun e => hc (by simp [← e]), ih⟩

/-! ## C36 -/

variable (parseHir : List Char → Option Hir) (U : Classes) (pars : Provider)

/-- C36, a single invalid regex: if all parameters but one are sound, and the custom regexes to the right of that one neither open
parentheses nor leave brackets unescaped, an invalid regex (without parenthesis that opens) of that one is refused, unfinished or
not. Missing: regexes that begin with `?` or have a closing parenthesis and end with a backslash (for which it is false, see
`C36_false` and `C36_completed_false`), several invalid regexes (for which it is false), and other custom regexes to the right. -/
theorem C36_single_partial (src : List Char) (e : Expression) (h : Expression.parse src = .ok e) (l r : Expression)
    (p : Parameter) (he : e = l ++ .parameter p :: r) (hs : ∀ q ∈ params l, Sound parseHir U pars q)
    (hr : ∀ q ∈ params r, Sound parseHir U pars q ∧ ∀ w, pars q.input = some w → Calm w) (v : List Char)
    (hv : pars p.input = some v) (hpar : '(' ∉ v) (hq : v.head? ≠ some '?') (hb : ¬ (')' ∈ v ∧ v.getLast? = some '\\'))
    (hbad : ∀ re, Regex.parse v ≠ .ok re) : ∃ x, Expression.regexWithParameters parseHir pars src = .err x := by
  cases hlex : lex v with
  | ok ts => exact C36_arrangement_partial parseHir U pars src e h l r p he hs v hv hpar hq hbad ts hlex
  | error x0 =>
    rw [regexWith_eq parseHir pars h]
    cases hsq : seqPat (customRes parseHir pars) e with
    | error x => exact ⟨_, rfl⟩
    | ok cs =>
      obtain ⟨f, hf⟩ := sound_choice parseHir U pars (ps := params l ++ params r)
        (fun q hq => (List.mem_append.1 hq).elim (hs q) fun hq => (hr q hq).1)
      let pp : Parameter → List Char := fun p => match customRes parseHir pars p with
        | .ok c => c
        | .error _ => []
      have hf : ∀ p ∈ params l ++ params r, Lexes (pp p) (f p).2.1 ∧ ReadsAs (f p).2.1 [(f p).2.2] := fun p hp =>
        ⟨by simp only [pp, (hf p hp).1, (hf p hp).2.1], (hf p hp).2.2.1⟩
      have hcs : cs = exprPat pp l ++ ('(' :: v ++ ')' :: exprPat pp r) := by
        have hp : pp p = '(' :: v ++ [')'] := by simp [pp, customRes, hv, valueRes, hpar]
        have hl := seqPat_ok (pr := customRes parseHir pars) (pp := pp) (e := e) (fun p hp => by
          obtain ⟨q, hq⟩ := seqPat_isOk hsq p hp
          simp only [pp, hq])
        rw [hl] at hsq
        cases hsq
        simp [he, exprPat, elemPat, hp]
      have parts : ∀ l' : Expression, (∀ p ∈ params l', p ∈ params l ++ params r) → NonemptyAlts l' →
          Lexes (exprPat pp l') (l'.map (elemToks fun p => (f p).2.1)).flatten ∧
          ReadsAs (l'.map (elemToks fun p => (f p).2.1)).flatten (l'.map (elemItems fun p => (f p).2.2)).flatten := by
        intro l' hm hne
        exact ⟨Lexes.flatten l' fun x hx => lexes_elem x fun p hp => (hf p (hm p (mem_params.2 (hp ▸ hx)))).1,
          ReadsAs.flatten l' fun x hx => reads_elem x (fun hx' => hne (hx' ▸ hx)) fun p hp => (hf p (hm p (mem_params.2 (hp ▸ hx)))).2⟩
      obtain ⟨h1, h2⟩ := parts l (fun p hp => by simp [hp]) fun hm => parse_nonemptyAlts h (by rw [he]; simp [hm])
      obtain ⟨h1r, h2r⟩ := parts r (fun p hp => by simp [hp]) fun hm => parse_nonemptyAlts h (by rw [he]; simp [hm])
      have hsafe : Safe false (')' :: (exprPat pp r ++ ['$'])) := by
        refine .plain (by decide) (by decide) (by decide) (Safe.weaken (.append (safe_flatten ?_)
          (.plain (by decide) (by decide) (by decide) (.nil _))))
        intro w hw
        obtain ⟨s, hs, rfl⟩ := List.mem_map.1 hw
        refine safe_element _ s ?_
        rintro q rfl
        obtain ⟨h3, h4⟩ := hr q (mem_params.2 hs)
        cases hqv : pars q.input with
        | none =>
          simp only [pp, customRes, hqv, builtinRes]
          cases builtinNamed q.input.frag with
          | none => exact .nil _
          | some b => exact safe_builtin b _
        | some w =>
          have hc := h4 w hqv
          simp only [pp, customRes, hqv, valueRes, if_neg (calm_unopened hc)]
          exact .plain (by decide) (by decide) (by decide) ((safe_calm hc _).append (.plain (by decide) (by decide) (by decide) (.nil _)))
      have h3 : lexOne '(' (v ++ ')' :: (exprPat pp r ++ ['$'])) = .ok (.capture none, v ++ ')' :: (exprPat pp r ++ ['$'])) := by
        cases v with
        | nil => rfl
        | cons c v => exact groupOpen_other _ (by simpa using hq)
      have h4 : ∃ x, Regex.parse (['^'] ++ cs ++ ['$']) = .error x := by
        rw [hcs]
        have h5 := (lexes_bol.append h1) ('(' :: (v ++ ')' :: (exprPat pp r ++ ['$'])))
        rw [lex_cons h3] at h5
        simp only [List.cons_append, List.append_assoc, List.nil_append] at h5 ⊢
        unfold Regex.parse
        rw [h5]
        rcases lex_cut hsafe _ (Nat.le_refl _) hpar hlex with ⟨y, hy⟩ | ⟨hlast, ts, hts, hy⟩
        · rw [hy]
          exact ⟨y, rfl⟩
        · have hdol : lex ['$'] = .ok [.eol] := rfl
          rw [hy, h1r, hdol]
          obtain ⟨f', h6⟩ := h2 false
          have hflat : ∀ t ∈ ts, t.opens = false ∧ t ≠ .close := fun t ht =>
            ⟨(hts t ht).1, fun e => hb ⟨(hts t ht).2 e, hlast⟩⟩
          have : ∃ x, build [] .start (.bol :: ((l.map (elemToks fun p => (f p).2.1)).flatten ++ (.capture none :: (ts ++ (.lit ')' ::
              ((r.map (elemToks fun p => (f p).2.1)).flatten ++ [.eol])))))) = .error x := by
            rw [build]
            simp only [Frame.start, Frame.push]
            rw [h6, build]
            rcases build_flat ts .start [(.capture none, ⟨[], (l.map (elemItems fun p => (f p).2.2)).flatten.reverse ++ [.bol], f'⟩)] hflat
              with ⟨x, hx⟩ | ⟨g, hg⟩
            · exact ⟨x, hx _⟩
            · rw [hg, build]
              obtain ⟨br, it, fr⟩ := g
              simp only [Frame.push]
              obtain ⟨f2, h7⟩ := h2r false
              rw [h7]
              exact ⟨_, rfl⟩
          obtain ⟨x, hx⟩ := this
          exact ⟨x, by simp [prep, hx]⟩
      obtain ⟨x, hx⟩ := h4
      exact ⟨.regex x, by simp only [compileRes, hx]⟩

/-- A single regex that has a closing parenthesis and ends with a backslash is completed by the parenthesis after it. -/
theorem C36_completed_false : Regex.parse ")\\".toList = .error .invalid ∧
    ∃ c, Expression.regexWithParameters (fun _ => none) (hashMapProvider [("a".toList, ")\\".toList)]) "{a}".toList = .ok c :=
  ⟨rfl, _, rfl⟩

/-- Non-vacuity: unfinished classes, counts and escapes after and before sound parameters. -/
example : Calm "red|\\d+".toList := by
  show Calm (chars! "red|\\d+")
  repeat first | exact .nil | refine .plain (by decide) ?_ | refine .esc (by decide) ?_
set_option maxRecDepth 8000 in
example : (∀ v ∈ ["[".toList, "a[^]".toList, "x{2".toList, "\\".toList, "a\\x4".toList], (∃ x, lex v = .error x)) ∧
    (∀ v ∈ ["[".toList, "a[^]".toList, "x{2".toList, "\\".toList, "a\\x4".toList],
      ∃ x, Expression.regexWithParameters (fun _ => none) (hashMapProvider [("a".toList, v), ("b".toList, "red|\\d+".toList)])
        "{int} {a} {float} {b} {string} c/d(e)".toList = .err x) := by
  constructor
  · simp only [List.forall_mem_cons, List.not_mem_nil, false_implies, implies_true, and_true]
    exact ⟨⟨_, rfl⟩, ⟨_, rfl⟩, ⟨_, rfl⟩, ⟨_, rfl⟩, ⟨_, rfl⟩⟩
  · simp only [List.forall_mem_cons, List.not_mem_nil, false_implies, implies_true, and_true]
    exact ⟨⟨_, rfl⟩, ⟨_, rfl⟩, ⟨_, rfl⟩, ⟨_, rfl⟩, ⟨_, rfl⟩⟩

end CE
