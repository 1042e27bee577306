import Verif.Prop.Expand
import Verif.Model.Display

/-!
# Syntax trees built by hand: C55

The AST types are public with public fields, and so is their expansion: nothing the parser guarantees needs to hold.
-/

namespace CE
open Spec Regex

/-- An element as it is understood: an alternation without branches has one empty branch, whitespace is a text. -/
def understoodSingle : SingleExpression → SingleExpression
  | .alternation [] => .alternation [[]]
  | .whitespaces t => .text t
  | x => x

def understood (e : Expression) : Expression := e.map understoodSingle

/-- The ids of the parameters `{string}`. -/
def stringIds (e : Expression) : List Nat := ((params e).filter (·.input.frag = Builtin.string.name)).map Parameter.id

theorem params_understood (e : Expression) : params (understood e) = params e := by
  unfold params understood
  rw [List.filterMap_map]
  congr 1
  funext x
  cases x with
  | alternation a => cases a <;> rfl
  | _ => rfl

theorem pat_understood (pp : Parameter → List Char) (e : Expression) : exprPat pp (understood e) = exprPat pp e := by
  unfold exprPat understood
  rw [List.map_map]
  congr 1
  refine List.map_congr_left fun x _ => ?_
  cases x with
  | alternation a => cases a <;> rfl
  | _ => rfl

theorem nonempty_understood (e : Expression) : NonemptyAlts (understood e) := by
  intro h
  obtain ⟨x, -, h⟩ := List.mem_map.1 h
  cases x with
  | alternation a => cases a <;> simp [understoodSingle] at h
  | _ => simp [understoodSingle] at h

theorem plain_understood (e : Expression) : PlainWs (understood e) := by
  intro t h
  obtain ⟨x, -, h⟩ := List.mem_map.1 h
  cases x with
  | alternation a => cases a <;> simp [understoodSingle] at h
  | _ => simp [understoodSingle] at h

theorem builtin_understood {e : Expression} : AllBuiltin (understood e) ↔ AllBuiltin e := by
  rw [allBuiltin_iff, allBuiltin_iff, params_understood]

theorem nodup_pairs {is : List Nat} : (is.flatMap fun i => [groupName i 0, groupName i 1]).Nodup ↔ is.Nodup := by
  induction is with
  | nil => simp
  | cons i is ih =>
    have h1 : ∀ k, groupName i k ∈ (is.flatMap fun i => [groupName i 0, groupName i 1]) → i ∈ is := by
      intro k h
      obtain ⟨j, hj, h⟩ := List.mem_flatMap.1 h
      rcases List.mem_cons.1 h with h | h
      · exact (groupName_inj h).1 ▸ hj
      · exact (groupName_inj (List.mem_singleton.1 h)).1 ▸ hj
    have h2 : groupName i 0 ≠ groupName i 1 := fun h => absurd (groupName_inj h).2 (by simp)
    rw [List.flatMap_cons, List.nodup_cons, ← ih]
    simp only [List.cons_append, List.nil_append, List.nodup_cons, List.mem_cons, not_or]
    constructor
    · rintro ⟨⟨-, h3⟩, h4, h5⟩
      exact ⟨fun hi => h3 (List.mem_flatMap.2 ⟨i, hi, by simp⟩), h5⟩
    · rintro ⟨h3, h4⟩
      exact ⟨⟨h2, fun h => h3 (h1 0 h)⟩, fun h => h3 (h1 1 h), h4⟩

theorem names_stringIds {e : Expression} (hb : ∀ p ∈ params e, IsBuiltin p) :
    (exprRe bRe e).names = (stringIds e).flatMap fun i => [groupName i 0, groupName i 1] := by
  rw [Re.names, groups_expr, stringIds]
  revert hb
  induction params e with
  | nil => intro _; rfl
  | cons p ps ih =>
    intro hb
    obtain ⟨b, h⟩ := hb p (by simp)
    have ih := ih fun q hq => hb q (by simp [hq])
    simp only [List.map_cons, List.flatten_cons, List.filterMap_append, ih, List.filter_cons]
    rw [bRe_named h, groups_builtin]
    by_cases hs : b = .string
    · subst hs
      simp [h]
    · rw [if_neg hs, if_neg (by simpa [h] using fun hn => hs (name_inj hn))]
      rfl

/-- The result for an AST whose parameters are all built in. -/
theorem compile_builtin {e : Expression} (hb : AllBuiltin e) : compile (Expression.chars e) =
    if (stringIds e).Nodup then .ok ⟨['^'] ++ exprPat bPat e ++ ['$'], exprRe bRe (understood e)⟩ else .err (.regex .invalid) := by
  have hb' := (allBuiltin_iff e).1 hb
  have h0 : compile (Expression.chars e) = compileRes (seqPat builtinRes e) := by
    rw [← compile_chars chars_res e]
    simp only [Expression.chars]
    rw [show SingleExpression.chars = charsWith Parameter.chars from funext chars_eq_charsWith]
  rw [h0, seqPat_ok (pp := bPat) (fun p hp => by
    obtain ⟨b, hb⟩ := hb' p hp
    simp [builtinRes, bPat, builtinNamed_some.2 hb])]
  have h1 := parse_pattern (pp := bPat) (tp := bToks) (rp := bRe) (nonempty_understood e) (by
    intro p hp
    rw [params_understood] at hp
    obtain ⟨b, h⟩ := hb' p hp
    simp only [bPat, bToks, bRe, builtinNamed_some.2 h]
    exact ⟨lexes_builtin b p.id, reads_builtin b p.id⟩)
  rw [pat_understood] at h1
  simp only [compileRes, h1, names_stringIds (params_understood e ▸ hb'), nodup_pairs]
  have : stringIds (understood e) = stringIds e := by rw [stringIds, params_understood]; rfl
  rw [this]
  by_cases hn : (stringIds e).Nodup
  · rw [if_pos hn, if_pos hn]
  · rw [if_neg hn, if_neg hn]

/-! ## C55 -/

/-- C55: the expansion of any AST comes to an end without panicking. -/
theorem C55_total (e : Expression) : ∃ items, Expression.chars e = some items := by
  obtain ⟨l, h1, -⟩ := collect_chars (pc := Parameter.chars) (pr := builtinRes) chars_res e
  simp only [Expression.chars]
  rw [show SingleExpression.chars = charsWith Parameter.chars from funext chars_eq_charsWith, h1]
  exact ⟨_, rfl⟩

/-- C55: the pattern of any AST with built-in parameters is a valid regex if and only if no two `{string}` have the same id. -/
theorem C55_valid (e : Expression) (hb : AllBuiltin e) :
    (∃ c, compile (Expression.chars e) = .ok c) ↔ (stringIds e).Nodup := by
  rw [compile_builtin hb]
  by_cases hn : (stringIds e).Nodup
  · rw [if_pos hn]; exact ⟨fun _ => hn, fun _ => ⟨_, rfl⟩⟩
  · rw [if_neg hn]; exact ⟨fun ⟨_, h⟩ => (by cases h), fun h => absurd h hn⟩

/-- C55: it matches element by element. -/
theorem C55_language (e : Expression) (hb : AllBuiltin e) (c : Compiled) (hc : compile (Expression.chars e) = .ok c) (U : Classes)
    (w pre x post : List Char) (l : List Cap) :
    c.re.Finds U w pre x post l ↔ pre = [] ∧ post = [] ∧ x = w ∧ Splits U (understood e) 1 0 w l := by
  rw [compile_builtin hb] at hc
  by_cases hn : (stringIds e).Nodup
  · rw [if_pos hn] at hc
    cases hc
    exact finds_builtin U (nonempty_understood e) (plain_understood e) (builtin_understood.2 hb) w pre x post l
  · rw [if_neg hn] at hc; cases hc

/-- C55: otherwise the leftmost parameter that is not built in is reported. -/
theorem C55_unknown (e : Expression) (ps qs : List Parameter) (p : Parameter) (he : params e = ps ++ p :: qs)
    (hps : ∀ q ∈ ps, ∃ b : Builtin, q.input.frag = b.name) (hp : ∀ b : Builtin, p.input.frag ≠ b.name) :
    compile (Expression.chars e) = .err (.expansion (.notFound p.input)) := by
  have h0 : compile (Expression.chars e) = compileRes (seqPat builtinRes e) := by
    rw [← compile_chars chars_res e]
    simp only [Expression.chars]
    rw [show SingleExpression.chars = charsWith Parameter.chars from funext chars_eq_charsWith]
  have h1 : seqPat builtinRes e = .error (.notFound p.input) := seqPat_error.2 ⟨ps, p, qs, he, fun q hq => by
    obtain ⟨b, hb⟩ := hps q hq
    exact ⟨builtinPat b q.id, by simp [builtinRes, builtinNamed_some.2 hb]⟩, by simp [builtinRes, builtinNamed_none.2 hp]⟩
  rw [h0, h1]
  rfl

set_option maxRecDepth 8000 in
/-- Non-vacuity: a tree no source has: unescaped and dangling texts, an empty alternation, whitespace that is none, ids out of
order. -/
example : ∃ e : Expression, AllBuiltin e ∧ (stringIds e).Nodup ∧
    (∃ c, compile (Expression.chars e) = .ok c ∧ c.pattern =
      (chars! "^a\\(b(?:)x\\|y(?:\"(?P<__7_0>[^\"\\\\]*(?:\\\\.[^\"\\\\]*)*)\"|'(?P<__7_1>[^'\\\\]*(?:\\\\.[^'\\\\]*)*)')([^\\s]+)(?:)?$")) ∧
    ∀ src, Expression.parse src ≠ .ok e := by
  refine ⟨[.text ⟨9, 9, chars! "a(b\\"⟩, .alternation [], .whitespaces ⟨0, 0, chars! "x|y"⟩, .parameter ⟨⟨0, 0, chars! "string"⟩, 7⟩,
    .parameter ⟨⟨0, 0, chars! "word"⟩, 7⟩, .optional ⟨⟨0, 0, []⟩⟩], ?_, by decide, ⟨_, rfl, by decide +kernel⟩, ?_⟩
  · intro p hp
    simp at hp
    rcases hp with rfl | rfl
    · exact ⟨.string, rfl⟩
    · exact ⟨.word, rfl⟩
  · intro src h
    exact parse_nonemptyAlts h (by simp)

set_option maxRecDepth 8000 in
/-- Two `{string}` with the same id are refused, two `{int}` are not. -/
example : compile (Expression.chars [.parameter ⟨⟨0, 0, chars! "string"⟩, 7⟩, .parameter ⟨⟨0, 0, chars! "string"⟩, 7⟩]) = .err (.regex .invalid) ∧
    ∃ c, compile (Expression.chars [.parameter ⟨⟨0, 0, chars! "int"⟩, 7⟩, .parameter ⟨⟨0, 0, chars! "int"⟩, 7⟩]) = .ok c := ⟨rfl, _, rfl⟩

end CE
