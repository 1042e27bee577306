import Verif.Proof.Adequate

/-!
# The search agrees with the meaning of the regex: C73

The properties about what a regex matches (such as C28 and C45) speak of `Re.Finds`: some way to match exists. What the `regex` crate
does is modelled by `Hir.find`: the text of the regex is parsed and translated to a HIR, with all simplifications, and the HIR is
searched by backtracking. Here: for every regex, and so for every expression with every provider of parameters, the two agree.
`T` are any tables for `\d`, `\s`, `\w`.
-/

namespace CE
open Spec Regex Hir

variable (T : Tables)

/-- The search finds something exactly if there is a match. What it finds is a match, with its captures, and none begins earlier. -/
def Adequate (r : Re) (hir : Hir) : Prop :=
  ∀ w : List Char, (hir.find w = none ↔ ¬ r.IsMatch T.classes w) ∧
    ∀ i x l, hir.find w = some (i, x, l) →
      (∃ pre post k, pre.length = i ∧ r.Finds T.classes w pre x post k ∧ Agree l k) ∧
      ∀ pre y post k, r.Finds T.classes w pre y post k → i ≤ pre.length

/-- C73, for all regexes. -/
theorem C73_search (v : List Char) (r : Re) (h : Regex.parse v = .ok r) : ∃ hir, hirOf T v = some hir ∧ Adequate T r hir := by
  obtain ⟨a, ha, rfl⟩ := ast_of_parse h
  refine ⟨_, hirOf_ok T ha, fun w => ⟨?_, fun i x l hf => ⟨?_, ?_⟩⟩⟩
  · rw [Hir.find_none]
    constructor
    · rintro hn ⟨pre, x, post, l, hw, hm⟩
      exact hn pre x post hw ((translate_takes T a 1 1 (parse_valid ha) pre x post).2 ⟨l, hm⟩)
    · intro hn pre x post hw ht
      obtain ⟨l, hl⟩ := (translate_takes T a 1 1 (parse_valid ha) pre x post).1 ht
      exact hn ⟨pre, x, post, l, hw, hl⟩
  · obtain ⟨⟨pre, post, hw, hi, hm⟩, -⟩ := find_some hf
    obtain ⟨k, hk, hag⟩ := translate_sound T a 1 (parse_valid ha) _ _ _ _ hm
    exact ⟨pre, post, k, hi, ⟨hw, hk⟩, hag⟩
  · rintro pre y post k ⟨hw, hm⟩
    exact (find_some hf).2 pre y post hw ((translate_takes T a 1 1 (parse_valid ha) pre y post).2 ⟨k, hm⟩)

theorem compile_parse {items : Option (List Item)} {c : Compiled} (h : compile items = .ok c) : Regex.parse c.pattern = .ok c.re := by
  unfold compile at h
  split at h
  · cases h
  · split at h
    · cases h
    · split at h
      · cases h
      · rename_i hp; cases h; exact hp

/-- C73: `is_match` and `find` on a compiled expression are what its meaning says, whatever the provider of custom parameters
returns and however `regex_syntax` parses it, as long as the regex is accepted. -/
theorem C73_compiled (parseHir : List Char → Option Hir) (pars : Provider) (src : List Char) (c : Compiled)
    (h : Expression.regexWithParameters parseHir pars src = .ok c) : ∃ hir, hirOf T c.pattern = some hir ∧ Adequate T c.re hir := by
  refine C73_search T c.pattern c.re ?_
  unfold Expression.regexWithParameters at h
  split at h
  · cases h
  · cases h
  · cases h
  · exact compile_parse h

/-- C73, without custom parameters. -/
theorem C73_regex (src : List Char) (c : Compiled) (h : Expression.regex src = .ok c) :
    ∃ hir, hirOf T c.pattern = some hir ∧ Adequate T c.re hir := by
  refine C73_search T c.pattern c.re ?_
  unfold Expression.regex at h
  split at h
  · cases h
  · cases h
  · cases h
  · exact compile_parse h

/-- C73: with regular custom regexes, the search finds something exactly if the text splits into one piece per element, and then it
finds the whole text, with the captures of such a split. -/
theorem C73_split (pars : Provider) (src : List Char) (e : Expression) (h : Expression.parse src = .ok e)
    (hs : ∀ p ∈ params e, RegularParam pars p) (hn : ((params e).map (customNames pars)).flatten.Nodup) :
    ∃ c, Expression.regexWithParameters (hirOf T) pars src = .ok c ∧ ∃ hir, hirOf T c.pattern = some hir ∧ ∀ w : List Char,
      (hir.find w = none ↔ ¬ ∃ l, SplitsWith (customMatch T pars) (customGroups pars) e 1 [] w [] l) ∧
      ∀ i x l, hir.find w = some (i, x, l) → i = 0 ∧ x = w ∧
        ∃ k, SplitsWith (customMatch T pars) (customGroups pars) e 1 [] w [] k ∧ Agree l k := by
  obtain ⟨c, hc, -, -, hf⟩ := (C45_regular_partial T pars src e h hs).1 hn
  obtain ⟨hir, hh, ha⟩ := C73_compiled T (hirOf T) pars src c hc
  refine ⟨c, hc, hir, hh, fun w => ⟨(ha w).1.trans (not_congr ?_), fun i x l hfi => ?_⟩⟩
  · constructor
    · rintro ⟨pre, x, post, l, hm⟩
      exact ⟨l, ((hf w pre x post l).1 hm).2.2.2⟩
    · rintro ⟨l, hl⟩
      exact ⟨[], w, [], l, (hf w [] w [] l).2 ⟨rfl, rfl, rfl, hl⟩⟩
  · obtain ⟨⟨pre, post, k, hi, hm, hag⟩, -⟩ := (ha w).2 i x l hfi
    obtain ⟨rfl, rfl, rfl, hsp⟩ := (hf w pre x post k).1 hm
    exact ⟨hi.symm, rfl, k, hsp, hag⟩

/-! ## Examples -/

/-- Non-vacuity of C73: the regex is accepted and none of the simplifications are trivial: a prefix is lifted, characters
become a class, and `(^){3}` is searched once. Two captures of group 2 are made, the last of which is reported. -/
example : ∃ r hir, Regex.parse (chars! "(^){3}(?:x(a|b)+|xc?d)") = .ok r ∧ hirOf asciiTables (chars! "(^){3}(?:x(a|b)+|xc?d)") = some hir ∧
    hir.find (chars! "xab") = some (0, chars! "xab", [⟨1, 0, []⟩, ⟨2, 1, ['a']⟩, ⟨2, 2, ['b']⟩]) ∧
    lastOf 2 [⟨1, 0, []⟩, ⟨2, 1, ['a']⟩, ⟨2, 2, ['b']⟩] = some ⟨2, 2, ['b']⟩ ∧
    r.Finds asciiTables.classes (chars! "xab") [] (chars! "xab") []
      [⟨1, 0, []⟩, ⟨1, 0, []⟩, ⟨1, 0, []⟩, ⟨2, 1, ['a']⟩, ⟨2, 2, ['b']⟩] ∧
    hir.find (chars! "xx") = none := by
  refine ⟨_, _, rfl, rfl, by decide +kernel, by decide, ⟨rfl, ?_⟩, by decide +kernel⟩
  refine ⟨[], chars! "xab", [⟨1, 0, []⟩, ⟨1, 0, []⟩, ⟨1, 0, []⟩], _, rfl, rfl, ?_, ?_⟩
  · exact .more 3 _ _ [] [] _ [⟨1, 0, []⟩] [⟨1, 0, []⟩, ⟨1, 0, []⟩] (by decide) ⟨[], ⟨rfl, rfl, rfl⟩, rfl⟩
      (.more _ _ _ [] [] _ [⟨1, 0, []⟩] [⟨1, 0, []⟩] (by decide) ⟨[], ⟨rfl, rfl, rfl⟩, rfl⟩
        (.more _ _ _ [] [] _ [⟨1, 0, []⟩] [] (by decide) ⟨[], ⟨rfl, rfl, rfl⟩, rfl⟩ (.done _ _ _)))
  · refine .inl ⟨['x'], ['a', 'b'], [], _, rfl, rfl, ⟨rfl, rfl⟩, ?_⟩
    exact .more _ _ _ ['a'] ['b'] _ [⟨2, 1, ['a']⟩] [⟨2, 2, ['b']⟩] (by simp) ⟨[], .inl ⟨rfl, rfl⟩, rfl⟩
      (.more _ _ _ ['b'] [] _ [⟨2, 2, ['b']⟩] [] (by simp) ⟨[], .inr ⟨rfl, rfl⟩, rfl⟩ (.done _ _ _))

/-- Non-vacuity of `C73_compiled`: an irregular custom regex, which is printed as `(?:(?P<__0_0>a)b+?)` (with the name of a group
for the parameter) and so must match a `b`. -/
example : ∃ c hir, Expression.regexWithParameters (hirOf asciiTables) (hashMapProvider [(['p'], chars! "(a)(?:b+)?")]) (chars! "x {p}c") = .ok c ∧
    hirOf asciiTables c.pattern = some hir ∧ hir.find (chars! "x abbc") = some (0, chars! "x abbc", [⟨1, 2, ['a']⟩]) ∧
    hir.find (chars! "x ac") = none := ⟨_, _, rfl, rfl, by decide +kernel, by decide +kernel⟩

end CE
