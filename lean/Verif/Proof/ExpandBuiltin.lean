import Verif.Proof.Expand
import Verif.Prop.Accept

/-! # Expansion: built-in parameters, uniqueness of group names -/

namespace CE
open Spec Regex

/-! ## Built-in parameters -/

def builtinPat : Builtin → Nat → List Char
  | .int, _ => intPattern
  | .float, _ => floatPattern
  | .word, _ => wordPattern
  | .string, id => stringPattern id
  | .anonymous, _ => anonPattern

def builtinToks : Builtin → Nat → List Tok
  | .int, _ => intToks
  | .float, _ => floatToks
  | .word, _ => wordToks
  | .string, id => stringToks id
  | .anonymous, _ => anonToks

def builtinRe : Builtin → Nat → Re
  | .int, _ => intRe
  | .float, _ => floatRe
  | .word, _ => wordRe
  | .string, id => stringRe id
  | .anonymous, _ => anonRe

theorem lexes_builtin (b : Builtin) (id : Nat) : Lexes (builtinPat b id) (builtinToks b id) := by
  cases b
  · exact lexes_int
  · exact lexes_float
  · exact lexes_word
  · exact lexes_string id
  · exact lexes_anon

theorem reads_builtin (b : Builtin) (id : Nat) : ReadsAs (builtinToks b id) [builtinRe b id] := by
  cases b
  · exact reads_int
  · exact reads_float
  · exact reads_word
  · exact reads_string id
  · exact reads_anon

theorem match_builtin {U : Classes} (b : Builtin) (id g : Nat) (pre x post : List Char) (l : List Cap) :
    (builtinRe b id).Match U g pre x post l ↔ b.Lang U x ∧ b.Captures g pre.length x l := by
  cases b
  · exact match_int ..
  · exact match_float ..
  · exact match_word ..
  · exact match_string ..
  · exact match_anon ..

theorem groups_builtin (b : Builtin) (id : Nat) : (builtinRe b id).groups =
    if b = .string then [some (groupName id 0), some (groupName id 1)] else [none] := by
  cases b <;> rfl

theorem name_inj {a b : Builtin} (h : a.name = b.name) : a = b := by
  cases a <;> cases b <;> first | rfl | (exact absurd h (by decide))

theorem chars_builtin (b : Builtin) (p : Parameter) (h : p.input.frag = b.name) :
    p.chars = some (okChars (builtinPat b p.id)) := by
  have e1 : "int".toList = Builtin.int.name := by decide
  have e2 : "float".toList = Builtin.float.name := by decide
  have e3 : "word".toList = Builtin.word.name := by decide
  have e4 : "string".toList = Builtin.string.name := by decide
  have e5 : "".toList = Builtin.anonymous.name := by decide
  unfold Parameter.chars
  rw [e1, e2, e3, e4, e5, h]
  cases b
  · exact if_pos rfl
  · rw [if_neg (by decide)]; exact if_pos rfl
  · rw [if_neg (by decide), if_neg (by decide)]; exact if_pos rfl
  · rw [if_neg (by decide), if_neg (by decide), if_neg (by decide), if_pos rfl, ownedChars_eq]; rfl
  · rw [if_neg (by decide), if_neg (by decide), if_neg (by decide), if_neg (by decide)]; exact if_pos rfl

/-- The built-in type named `n`. -/
def builtinNamed (n : List Char) : Option Builtin :=
  [Builtin.int, .float, .word, .string, .anonymous].find? (·.name == n)

theorem builtinNamed_some {n : List Char} {b : Builtin} : builtinNamed n = some b ↔ n = b.name := by
  constructor
  · intro h
    have := List.find?_some h
    exact (by simpa using this : b.name = n).symm
  · rintro rfl; cases b <;> rfl

theorem builtinNamed_none {n : List Char} : builtinNamed n = none ↔ ∀ b : Builtin, n ≠ b.name := by
  constructor
  · intro h b hb; rw [builtinNamed_some.2 hb] at h; cases h
  · intro h
    cases hb : builtinNamed n with
    | none => rfl
    | some b => exact absurd (builtinNamed_some.1 hb) (h b)

theorem chars_unknown (p : Parameter) (h : ∀ b : Builtin, p.input.frag ≠ b.name) :
    p.chars = some [.error (.notFound p.input)] := by
  have h1 := h .int; have h2 := h .float; have h3 := h .word; have h4 := h .string; have h5 := h .anonymous
  simp only [Builtin.name] at h1 h2 h3 h4 h5
  simp [Parameter.chars, h1, h2, h3, h4, h5]

/-- The result of expanding a parameter that is not custom. -/
def builtinRes (p : Parameter) : Except ParameterError (List Char) :=
  match builtinNamed p.input.frag with
  | some b => .ok (builtinPat b p.id)
  | none => .error (.notFound p.input)

theorem chars_res (p : Parameter) : ∃ l, p.chars = some l ∧ collectResult l = builtinRes p := by
  cases h : builtinNamed p.input.frag with
  | some b =>
    exact ⟨_, chars_builtin b p (builtinNamed_some.1 h), by simp [collectResult_ok, builtinRes, h]⟩
  | none => exact ⟨_, chars_unknown p (builtinNamed_none.1 h), by simp [builtinRes, h, collectResult]⟩

/-! ## Group names -/

theorem decimal_inj {i j : Nat} (h : decimal i = decimal j) : i = j := by
  have := congrArg (Nat.ofDigitChars 10 · 0) h
  simpa [decimal] using this

theorem underscore_decimal (n : Nat) : '_' ∉ decimal n := fun h => by
  have := isDigit_decimal h
  revert this; decide

theorem split_at {α : Type} {s : α} {a b c d : List α} (ha : s ∉ a) (hc : s ∉ c) (h : a ++ s :: b = c ++ s :: d) :
    a = c ∧ b = d := by
  induction a generalizing c with
  | nil =>
    cases c with
    | nil => simpa using h
    | cons x c => simp at h; simp [h.1] at hc
  | cons x a ih =>
    cases c with
    | nil => simp at h; simp [h.1] at ha
    | cons y c =>
      simp only [List.cons_append, List.cons.injEq] at h
      obtain ⟨h1, h2⟩ := ih (fun hx => ha (by simp [hx])) (fun hx => hc (by simp [hx])) h.2
      exact ⟨by rw [h.1, h1], h2⟩

theorem groupName_inj {i j k m : Nat} (h : groupName i k = groupName j m) : i = j ∧ k = m := by
  simp only [groupName, List.cons_append, List.nil_append, List.append_assoc, List.cons.injEq, true_and] at h
  obtain ⟨h1, h2⟩ := split_at (underscore_decimal i) (underscore_decimal j) h
  exact ⟨decimal_inj h1, decimal_inj h2⟩

theorem ids_eq (e : Expression) : ids e = (params e).map Parameter.id := by
  unfold ids params
  induction e with
  | nil => rfl
  | cons x es ih => cases x <;> simp_all [singleIds]

theorem ids_nodup {src : List Char} {e : Expression} (h : Expression.parse src = .ok e) :
    ((params e).map Parameter.id).Nodup := by
  rw [← ids_eq, C03_ids src e h]; exact List.nodup_range

/-- Named groups of parameters with distinct ids, all named after the id of their parameter and distinct for each
parameter, are distinct. -/
theorem names_nodup {ps : List Parameter} {f : Parameter → List (Option (List Char))} (hid : (ps.map Parameter.id).Nodup)
    (h1 : ∀ p ∈ ps, ((f p).filterMap id).Nodup) (h2 : ∀ p ∈ ps, ∀ n ∈ (f p).filterMap id, ∃ k, n = groupName p.id k) :
    ((ps.map f).flatten.filterMap id).Nodup := by
  induction ps with
  | nil => exact List.nodup_nil
  | cons p ps ih =>
    simp only [List.map_cons, List.nodup_cons] at hid
    simp only [List.map_cons, List.flatten_cons, List.filterMap_append]
    refine List.nodup_append.2 ⟨h1 p (by simp), ih hid.2 (fun q hq => h1 q (by simp [hq]))
      (fun q hq => h2 q (by simp [hq])), ?_⟩
    rintro a ha b hb rfl
    obtain ⟨k, hk⟩ := h2 p (by simp) a ha
    obtain ⟨x, hx, hxa⟩ := List.mem_filterMap.1 hb
    obtain ⟨gs, hgs, hxg⟩ := List.mem_flatten.1 hx
    obtain ⟨q, hq, rfl⟩ := List.mem_map.1 hgs
    obtain ⟨m, hm⟩ := h2 q (by simp [hq]) a (List.mem_filterMap.2 ⟨x, hxg, hxa⟩)
    rw [hk] at hm
    exact hid.1 ((groupName_inj hm).1 ▸ List.mem_map.2 ⟨q, hq, rfl⟩)

theorem names_builtin (b : Builtin) (id : Nat) :
    (builtinRe b id).names.Nodup ∧ ∀ n ∈ (builtinRe b id).names, ∃ k, n = groupName id k := by
  unfold Re.names
  rw [groups_builtin]
  by_cases h : b = .string
  · simp only [h, if_true, List.filterMap_cons_some (f := _root_.id) (Eq.refl (some _)), List.filterMap_nil]
    refine ⟨?_, ?_⟩
    · refine List.nodup_cons.2 ⟨?_, by simp⟩
      intro hm
      exact absurd (groupName_inj (List.mem_singleton.1 hm)).2 (by simp)
    · intro n hn
      rcases List.mem_cons.1 hn with rfl | hn
      · exact ⟨0, rfl⟩
      · exact ⟨1, List.mem_singleton.1 hn⟩
  · simp [h]

/-! ## Facts on parsed expressions -/

theorem parse_nonemptyAlts {src : List Char} {e : Expression} (h : Expression.parse src = .ok e) : NonemptyAlts e :=
  fun ha => by simpa using (C11_alternations src e h [] ha).1

theorem unescape_plain {t : List Char} (h : '\\' ∉ t) : unescape t = t := by
  induction t with
  | nil => rfl
  | cons c t ih =>
    have hc : c ≠ '\\' := fun hc => h (by simp [hc])
    rw [unescape, ih (fun ht => h (by simp [ht]))]
    · intro hc' _; exact absurd hc' hc
    · intro d r hc' _; exact absurd hc' hc

theorem parse_plainWs {src : List Char} {e : Expression} (h : Expression.parse src = .ok e) : PlainWs e := by
  intro t ht
  have := (C06_parse_then_print src e h).1.1 _ (List.mem_map_of_mem (f := eraseSingle) ht)
  refine unescape_plain fun hm => ?_
  have := this.2 _ hm
  revert this; decide

end CE
