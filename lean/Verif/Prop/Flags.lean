import Verif.Prop.Attribute
import Verif.Prop.HirSearch
import Verif.Prop.Nested
import Verif.Spec.Flags

/-!
# Inline flags in custom regexes: C75
-/

namespace CE
open Spec Regex

variable {U : Classes}

/-! ## Tokens -/

theorem lexOne_plain {c : Char} (hc : c ∉ ['\\', '.', '+', '*', '?', '(', ')', '|', '[', ']', '{', '}', '^', '$']) (r : List Char) :
    lexOne c r = .ok (.lit c, r) := by
  simp only [List.mem_cons, List.not_mem_nil, or_false, not_or] at hc
  unfold lexOne
  split <;> simp_all

/-- The tokens before the flags are applied, appended to others. -/
def putRaw (ts : List RTok) : Except RErr (List RTok) → Except RErr (List RTok)
  | .error e => .error e
  | .ok us => .ok (ts ++ us)

theorem putRaw_putRaw (ts us : List RTok) (x : Except RErr (List RTok)) : putRaw ts (putRaw us x) = putRaw (ts ++ us) x := by
  cases x <;> simp [putRaw]

/-- The tokens before the flags are applied. -/
def lexRaw (cs : List Char) : Except RErr (List RTok) := lexF cs.length cs

theorem lexRaw_cons {c : Char} {r r' : List Char} {t : RTok} (h : rawOne c r = .ok (t, r')) : lexRaw (c :: r) = putRaw [t] (lexRaw r') := by
  have hl := rawOne_length h
  simp only [lexRaw, List.length_cons, lexF, h]
  rw [lexF_enough r.length r'.length r' hl (Nat.le_refl _)]
  cases lexF r'.length r' <;> rfl

/-- Plain text in front. -/
theorem lexRaw_plain (r : List Char) : ∀ {t : List Char}, Spec.Unmarked t →
    lexRaw (t ++ r) = putRaw (t.map fun c => .tok c (.lit c)) (lexRaw r)
  | [], _ => by simp only [List.nil_append, List.map_nil]; cases lexRaw r <;> rfl
  | c :: t, ht => by
    rw [List.cons_append, lexRaw_cons (rawOne_of (lexOne_plain (ht c (by simp)) _)),
      lexRaw_plain r (fun d hd => ht d (by simp [hd])), putRaw_putRaw]
    rfl

/-- A class of single characters. -/
theorem clsItems_plain : ∀ (t : List Char), (∀ c ∈ t, c ∉ ['\\', '[', ']', '^', '-', '&', '~']) → ∀ (n : Nat) (r : List Char),
    clsItems (t.length + 1 + n) (t ++ ']' :: r) = .ok (t.map fun c => .item (.single c), r)
  | [], _, n, r => by
    rw [show ([] : List Char).length + 1 + n = n + 1 by simp; omega]
    rfl
  | c :: t, ht, n, r => by
    have hc := ht c (by simp)
    simp only [List.mem_cons, List.not_mem_nil, or_false, not_or] at hc
    obtain ⟨h1, h2, h3, h4, h5, h6, h7⟩ := hc
    have hp : ∀ q, clsPrim (c :: q) = .ok (.single c, q) := fun q => by
      unfold clsPrim; split <;> simp_all
    have hr : clsRange (c :: (t ++ ']' :: r)) = .ok (.single c, t ++ ']' :: r) := by
      rw [clsRange, hp]
      simp only []
      cases t with
      | nil => rfl
      | cons d t =>
        have hd : d ≠ '-' := fun h => ht d (by simp) (by simp [h])
        simp only [List.cons_append]
        split <;> simp_all
    rw [show (c :: t).length + 1 + n = t.length + 1 + n + 1 by simp only [List.length_cons]; omega, List.cons_append, clsItems, hr]
    · simp only []
      rw [clsItems_plain t (fun d hd => ht d (by simp [hd])) n r]
      rfl
    all_goals simp_all

theorem assemble_plain : ∀ (t : List Char) (is : List CItem),
    assemble none is (t.map fun c => .item (.single c)) = is ++ t.map .single
  | [], is => by simp [assemble, popOp]
  | c :: t, is => by rw [List.map_cons, assemble, assemble_plain t]; simp

theorem rawOne_without {t : List Char} (h0 : t ≠ []) (ht : ∀ c ∈ t, c ∉ ['\\', '[', ']', '^', '-', '&', '~']) (r : List Char) :
    rawOne '[' ('^' :: t ++ ']' :: r) = .ok (.tok '[' (.cls ⟨true, t.map .single⟩), r) := by
  refine rawOne_of ?_
  have hl : clsLead (t ++ ']' :: r) = ([], t ++ ']' :: r) := by
    cases t with
    | nil => exact absurd rfl h0
    | cons c t =>
      have hc := ht c (by simp)
      simp only [List.mem_cons, List.not_mem_nil, or_false, not_or] at hc
      have : clsDashes (c :: t ++ ']' :: r) = ([], c :: t ++ ']' :: r) := by
        rw [List.cons_append, clsDashes]
        intro r h; exact hc.2.2.2.2.1 (List.cons.inj h).1
      rw [clsLead, this]
      simp only [List.cons_append]
      split
      · simp_all
      · rfl
  have hi := clsItems_plain t ht (r.length + 1) r
  rw [show t.length + 1 + (r.length + 1) = (t ++ ']' :: r).length + 1 by simp; omega] at hi
  show (match clsOpen ('^' :: (t ++ ']' :: r)) with | .ok (k, r') => Except.ok (Tok.cls k, r') | .error e => .error e) = _
  rw [clsOpen]
  simp only [clsHead, hl, hi, assemble_plain, List.nil_append]

theorem resolve_lits (f : Flags) (fs : List Flags) (ts : List RTok) : ∀ t : List Char,
    resolve f fs (t.map (fun c => .tok c (.lit c)) ++ ts) = prep (t.map fun c => (Tok.lit c).under f c) (resolve f fs ts)
  | [] => by cases h : resolve f fs ts <;> simp [prep, h]
  | c :: t => by
    rw [List.map_cons, List.cons_append, resolve_tok]
    simp only [RTok.step, resolve_lits f fs ts t]
    cases resolve f fs ts <;> rfl

theorem repeats_lits (ts : List RTok) (h : repeats ts = false) (t : List Char) :
    repeats (t.map (fun c => .tok c (.lit c)) ++ ts) = false := by
  cases t with
  | nil => exact h
  | cons c t => rfl

/-- A character up to case. -/
def foldCls (c : Char) : Cls := ⟨false, [.fold false (.single c)]⟩

theorem under_insens (c : Char) : (Tok.lit c).under { insens := true } c = .cls (foldCls c) := rfl

/-- The tokens of these regexes, after the first two. -/
def flaggedToks : Flagged → List Tok
  | .casing t => t.map fun c => .cls (foldCls c)
  | .partly s t u => (s.map fun c => .cls (foldCls c)) ++ ((.group :: t.map .lit ++ [.close]) ++ u.map fun c => .cls (foldCls c))
  | .without t => [.cls ⟨true, [.fold false (.all (t.map .single))]⟩]
  | .anything => [.cls ⟨false, [.range (Char.ofNat 0) (Char.ofNat 0x10FFFF)]⟩, .star]
  | .line t => .mark .lineStart :: t.map .lit ++ [.mark .lineEnd]
  | .whole t => .bol :: t.map .lit ++ [.eol]

theorem lex_flagged (f : Flagged) (hf : f.Plain) : lex f.value = .ok (.group :: .close :: flaggedToks f) := by
  have go : ∀ {cs ts}, lexRaw cs = .ok ts → lex cs = resolve {} [] ts := fun {cs ts} h => by
    have : lexF cs.length cs = .ok ts := h
    rw [lex, this]
  cases f with
  | casing t =>
    have h1 : lexRaw ('(' :: '?' :: 'i' :: ')' :: (t ++ [])) = .ok (.flags [(.i, true)] :: (t.map (fun c => .tok c (.lit c)) ++ [])) := by
      rw [lexRaw_cons (r' := t ++ []) (t := .flags [(.i, true)]) rfl, lexRaw_plain _ hf]; rfl
    rw [List.append_nil] at h1
    show lex ('(' :: '?' :: 'i' :: ')' :: t) = _
    rw [go h1, resolve, repeats_lits [] rfl]
    simp only [Bool.false_eq_true, if_false, Flags.set, resolve_lits]
    simp [resolve, prep, under_insens, flaggedToks]
  | partly s t u =>
    obtain ⟨hs, ht, hu⟩ := hf
    have h1 : lexRaw ('(' :: '?' :: 'i' :: ')' :: (s ++ '(' :: '?' :: '-' :: 'i' :: ':' :: (t ++ ')' :: (u ++ [])))) =
        .ok (.flags [(.i, true)] :: (s.map (fun c => .tok c (.lit c)) ++ .scope [(.i, false)] ::
          (t.map (fun c => .tok c (.lit c)) ++ .tok ')' .close :: (u.map (fun c => .tok c (.lit c)) ++ [])))) := by
      rw [lexRaw_cons (r' := s ++ '(' :: '?' :: '-' :: 'i' :: ':' :: (t ++ ')' :: (u ++ []))) (t := .flags [(.i, true)]) rfl, lexRaw_plain _ hs,
        lexRaw_cons (r' := t ++ ')' :: (u ++ [])) (t := .scope [(.i, false)]) rfl, lexRaw_plain _ ht,
        lexRaw_cons (r' := u ++ []) (t := .tok ')' .close) rfl, lexRaw_plain _ hu]
      simp only [putRaw_putRaw, show lexRaw [] = .ok [] from rfl]
      simp [putRaw]
    have e : (Flagged.partly s t u).value = '(' :: '?' :: 'i' :: ')' :: (s ++ '(' :: '?' :: '-' :: 'i' :: ':' :: (t ++ ')' :: (u ++ []))) := by
      simp [Flagged.value]
    rw [e, go h1, resolve, repeats_lits _ rfl]
    simp only [Bool.false_eq_true, if_false, Flags.set, resolve_lits, resolve, prep, RTok.step, Tok.under, List.headD, List.tail]
    simp [flaggedToks, foldCls]
  | without t =>
    have h1 : lexRaw ('(' :: '?' :: 'i' :: ')' :: '[' :: ('^' :: t ++ ']' :: [])) = .ok [.flags [(.i, true)], .tok '[' (.cls ⟨true, t.map .single⟩)] := by
      rw [lexRaw_cons (r' := '[' :: ('^' :: t ++ ']' :: [])) (t := .flags [(.i, true)]) rfl, lexRaw_cons (rawOne_without hf.1 hf.2 [])]; rfl
    show lex ('(' :: '?' :: 'i' :: ')' :: '[' :: ('^' :: t ++ ']' :: [])) = _
    rw [go h1]
    have e : (t.map CItem.single).map CItem.insens = t.map CItem.single := by simp [CItem.insens]
    simp only [resolve, repeats, Bool.false_eq_true, if_false, Flags.set, RTok.step, Tok.under, Cls.insens, e, beq_self_eq_true, Bool.and_self, if_true]
    rfl
  | anything => rfl
  | line t =>
    have h1 : lexRaw ('(' :: '?' :: 'm' :: ')' :: '^' :: (t ++ ['$'])) =
        .ok (.flags [(.m, true)] :: .tok '^' .bol :: (t.map (fun c => .tok c (.lit c)) ++ [.tok '$' .eol])) := by
      rw [lexRaw_cons (r' := '^' :: (t ++ ['$'])) (t := .flags [(.m, true)]) rfl, lexRaw_cons (r' := t ++ ['$']) (t := .tok '^' .bol) rfl,
        lexRaw_plain _ hf]
      rfl
    show lex ('(' :: '?' :: 'm' :: ')' :: '^' :: (t ++ ['$'])) = _
    rw [go h1]
    simp only [resolve, repeats, Bool.false_eq_true, if_false, Flags.set, RTok.step, Tok.under, resolve_lits]
    rfl
  | whole t =>
    have h1 : lexRaw ('(' :: '?' :: 'm' :: ')' :: '\\' :: 'A' :: (t ++ ['\\', 'z'])) =
        .ok (.flags [(.m, true)] :: .tok '\\' .bol :: (t.map (fun c => .tok c (.lit c)) ++ [.tok '\\' .eol])) := by
      rw [lexRaw_cons (r' := '\\' :: 'A' :: (t ++ ['\\', 'z'])) (t := .flags [(.m, true)]) rfl,
        lexRaw_cons (r' := t ++ ['\\', 'z']) (t := .tok '\\' .bol) rfl, lexRaw_plain _ hf]
      rfl
    show lex ('(' :: '?' :: 'm' :: ')' :: '\\' :: 'A' :: (t ++ ['\\', 'z'])) = _
    rw [go h1]
    simp only [resolve, repeats, Bool.false_eq_true, if_false, Flags.set, RTok.step, Tok.under, resolve_lits]
    rfl

/-! ## Trees -/

/-- The items of these regexes, after the first. -/
def flaggedItems : Flagged → List Ast
  | .casing t => t.map fun c => .cls (foldCls c)
  | .partly s t u => (s.map fun c => .cls (foldCls c)) ++ ([.group (catA (t.map .lit))] ++ u.map fun c => .cls (foldCls c))
  | .without t => [.cls ⟨true, [.fold false (.all (t.map .single))]⟩]
  | .anything => [.rep (.cls ⟨false, [.range (Char.ofNat 0) (Char.ofNat 0x10FFFF)]⟩) 0 none true]
  | .line t => [.mark .lineStart] ++ (t.map .lit ++ [.mark .lineEnd])
  | .whole t => [.bol] ++ (t.map .lit ++ [.eol])

theorem _root_.CE.Regex.AReadsAs.clss (k : Char → Cls) (u : List Char) : AReadsAs (u.map fun c => .cls (k c)) (u.map fun c => .cls (k c)) := by
  induction u with
  | nil => exact .nil
  | cons c u ih => exact AReadsAs.append (ts := [.cls (k c)]) (rs := [.cls (k c)]) (fun _ => ⟨false, fun _ _ _ _ => rfl⟩) ih

theorem reads_flagged (f : Flagged) : AReadsAs (flaggedToks f) (flaggedItems f) := by
  cases f with
  | casing t => exact .clss foldCls t
  | partly s t u =>
    refine (AReadsAs.clss foldCls s).append (.append ?_ (.clss foldCls u))
    have := AReadsAs.group (bs := [(t.map .lit, t.map .lit)]) (by simp) (by simpa using AReadsAs.lits t)
    simpa [barred, altA] using this
  | without t => exact fun _ => ⟨false, fun _ _ _ _ => rfl⟩
  | anything => exact fun _ => ⟨true, fun _ _ _ _ => rfl⟩
  | line t => exact .append (ts := [.mark .lineStart]) (fun _ => ⟨false, fun _ _ _ _ => rfl⟩) ((AReadsAs.lits t).append fun _ => ⟨false, fun _ _ _ _ => rfl⟩)
  | whole t => exact .append (ts := [.bol]) (fun _ => ⟨false, fun _ _ _ _ => rfl⟩) ((AReadsAs.lits t).append fun _ => ⟨false, fun _ _ _ _ => rfl⟩)

/-- The trees of these regexes. -/
def flaggedAst (f : Flagged) : Ast := catA (.group .empty :: flaggedItems f)

theorem groups_flagged (f : Flagged) : (flaggedAst f).toRe.groups = [] := by
  have h : ∀ a ∈ flaggedItems f, a.toRe.groups = [] := by
    intro a ha
    cases f with
    | casing t => obtain ⟨c, -, rfl⟩ := List.mem_map.1 ha; rfl
    | partly s t u =>
      simp only [flaggedItems, List.mem_append, List.mem_map, List.mem_singleton] at ha
      rcases ha with ⟨c, -, rfl⟩ | rfl | ⟨c, -, rfl⟩
      · rfl
      · exact toRe_lits_groups t
      · rfl
    | without t => cases List.mem_singleton.1 ha; rfl
    | anything => cases List.mem_singleton.1 ha; rfl
    | line t =>
      simp only [flaggedItems, List.mem_append, List.mem_map, List.mem_singleton] at ha
      rcases ha with rfl | ⟨c, -, rfl⟩ | rfl <;> rfl
    | whole t =>
      simp only [flaggedItems, List.mem_append, List.mem_map, List.mem_singleton] at ha
      rcases ha with rfl | ⟨c, -, rfl⟩ | rfl <;> rfl
  rw [flaggedAst, toRe_catA, groups_catL, List.flatten_eq_nil_iff]
  simp only [List.map_map, List.mem_map, Function.comp_apply]
  rintro l ⟨a, ha, rfl⟩
  rcases List.mem_cons.1 ha with rfl | ha
  · rfl
  · exact h a ha

theorem parse_flagged (f : Flagged) (hf : f.Plain) : Ast.parse f.value = .ok (flaggedAst f) := by
  have hb : buildA [] .start (.group :: .close :: flaggedToks f) = .ok (flaggedAst f) := by
    obtain ⟨fr, h⟩ := reads_flagged f false
    have := h [] [] [.group .empty] []
    rw [List.append_nil] at this
    refine Eq.trans this ?_
    simp [buildA, AFrame.finish, flaggedAst, altA]
  simp only [Ast.parse, lex_flagged f hf, hb, Re.names, groups_flagged]
  rfl

theorem marked_flagged (f : Flagged) : (flaggedAst f).marked = [] := by
  have := marked_groups (flaggedAst f)
  rw [groups_flagged] at this
  exact List.eq_nil_of_length_eq_zero this

/-! ## Meaning -/

theorem match_casing (t : List Char) : ∀ (g : Nat) (pre x post : List Char) (l : List Cap),
    (catL (t.map fun c => .cls (foldCls c))).Match U g pre x post l ↔ Casing U t x ∧ l = [] := by
  induction t with
  | nil => intro g pre x post l; exact Iff.rfl
  | cons c t ih =>
    intro g pre x post l
    rw [List.map_cons, match_catL_cons]
    simp only [ih, Re.Match, Casing, Cls.mem]
    constructor
    · rintro ⟨y, z, k, m, rfl, rfl, ⟨⟨d, hd, rfl⟩, rfl⟩, hz, rfl⟩
      obtain ⟨i, hi, hd⟩ := hd
      cases List.mem_singleton.1 hi
      exact ⟨⟨d, z, rfl, hd.imp_right fun ⟨_, h, e⟩ => e ▸ h, hz⟩, rfl⟩
    · rintro ⟨⟨d, z, rfl, hd, hz⟩, rfl⟩
      exact ⟨[d], z, [], [], rfl, rfl, ⟨⟨d, ⟨_, List.mem_singleton.2 rfl, hd.imp_right fun h => ⟨c, h, rfl⟩⟩, rfl⟩, rfl⟩, hz, rfl⟩

theorem char_le_max (c : Char) : c ≤ Char.ofNat 0x10FFFF := by
  show c.val ≤ 0x10FFFF
  rw [UInt32.le_iff_toNat_le]
  have := c.valid
  rcases this with h | h
  · exact Nat.le_trans (Nat.le_of_lt h) (by decide)
  · exact Nat.le_of_lt_succ h.2

theorem mem_all (c : Char) : ∀ t : List Char, (CItem.all (t.map .single)).mem U c ↔ c ∈ t
  | [] => by simp [CItem.all, CItem.mem]
  | [d] => by simp [CItem.all, CItem.mem]
  | d :: d' :: t => by
    have := mem_all c (d' :: t)
    simp only [List.map_cons] at this
    simp only [List.map_cons, CItem.all, CItem.mem, this]
    simp

theorem match_items (f : Flagged) (g : Nat) (pre x post : List Char) (l : List Cap) :
    (catL ((flaggedItems f).map Ast.toRe)).Match U g pre x post l ↔ f.Takes U pre x post ∧ l = [] := by
  cases f with
  | casing t =>
    simp only [flaggedItems, List.map_map, Function.comp_def, Ast.toRe]
    exact match_casing t g pre x post l
  | partly s t u =>
    simp only [flaggedItems, List.map_append, List.map_map, Function.comp_def, Ast.toRe, match_catL_append, match_casing, List.map_cons, List.map_nil,
      catL, toRe_catA, match_lits, Flagged.Takes]
    constructor
    · rintro ⟨y, z, k, m, rfl, rfl, ⟨hy, rfl⟩, y', z', k', m', rfl, rfl, ⟨rfl, rfl⟩, hz, rfl⟩
      exact ⟨⟨y, z', by simp, hy, hz⟩, rfl⟩
    · rintro ⟨⟨y, z, rfl, hy, hz⟩, rfl⟩
      exact ⟨y, t ++ z, [], [], by simp, rfl, ⟨hy, rfl⟩, t, z, [], [], rfl, rfl, ⟨rfl, rfl⟩, hz, rfl⟩
  | without t =>
    simp only [flaggedItems, List.map_cons, List.map_nil, catL, Ast.toRe, Re.Match, Flagged.Takes, Cls.mem, List.mem_singleton, exists_eq_left,
      CItem.mem, mem_all]
    refine and_congr_left fun _ => ⟨?_, ?_⟩
    · rintro ⟨c, h, rfl⟩
      exact ⟨c, rfl, fun d hd => ⟨fun e => h (.inl (e ▸ hd)), fun hf => h (.inr ⟨d, hf, hd⟩)⟩⟩
    · rintro ⟨c, rfl, h⟩
      refine ⟨c, ?_, rfl⟩
      rintro (hc | ⟨d, hf, hd⟩)
      · exact (h c hc).1 rfl
      · exact (h d hd).2 hf
  | anything =>
    simp only [flaggedItems, List.map_cons, List.map_nil, Ast.toRe, catL, Re.Match, Flagged.Takes, true_and]
    have all : ∀ c : Char, (⟨false, [.range (Char.ofNat 0) (Char.ofNat 0x10FFFF)]⟩ : Cls).mem U c := fun c =>
      ⟨_, List.mem_singleton.2 rfl, UInt32.zero_le, char_le_max c⟩
    constructor
    · intro h
      exact ((repeats_single (fun _ _ _ _ => Iff.rfl) _ _ _ _ _).1 h).2.2
    · rintro rfl
      exact (repeats_single (fun _ _ _ _ => Iff.rfl) _ _ _ _ _).2 ⟨by simp, fun c _ => all c, rfl⟩
  | line t =>
    simp only [flaggedItems, List.map_append, List.map_map, match_catL_append]
    simp only [Ast.toRe, Re.Match, Function.comp_def, match_lits, List.map_cons, List.map_nil, catL, Flagged.Takes, Mark.Holds]
    constructor
    · rintro ⟨y, z, k, m, rfl, rfl, ⟨h1, rfl, rfl⟩, y, z, k, m, rfl, rfl, ⟨rfl, rfl⟩, h2, rfl, rfl⟩
      simp only [List.append_nil, List.nil_append] at h1 h2 ⊢
      exact ⟨⟨trivial, h1, h2⟩, trivial⟩
    · rintro ⟨⟨rfl, h1, h2⟩, rfl⟩
      exact ⟨[], x, [], [], rfl, rfl, ⟨by simpa using h1, rfl, rfl⟩, x, [], [], [], by simp, rfl, ⟨rfl, rfl⟩, by simpa using h2, rfl, rfl⟩
  | whole t =>
    simp only [flaggedItems, List.map_append, List.map_map, match_catL_append]
    simp only [Ast.toRe, Re.Match, Function.comp_def, match_lits, List.map_cons, List.map_nil, catL, Flagged.Takes]
    constructor
    · rintro ⟨y, z, k, m, rfl, rfl, ⟨h1, rfl, rfl⟩, y, z, k, m, rfl, rfl, ⟨rfl, rfl⟩, h2, rfl, rfl⟩
      exact ⟨⟨by simp, h1, h2⟩, rfl⟩
    · rintro ⟨⟨rfl, h1, h2⟩, rfl⟩
      exact ⟨[], x, [], [], rfl, rfl, ⟨h1, rfl, rfl⟩, x, [], [], [], by simp, rfl, ⟨rfl, rfl⟩, h2, rfl, rfl⟩

theorem match_flagged (f : Flagged) (g : Nat) (pre x post : List Char) (l : List Cap) :
    (flaggedAst f).toRe.Match U g pre x post l ↔ f.Takes U pre x post ∧ l = [] := by
  rw [flaggedAst, toRe_catA, List.map_cons, match_catL_cons]
  simp only [match_items]
  constructor
  · rintro ⟨y, z, k, m, rfl, rfl, ⟨rfl, rfl⟩, h, rfl⟩
    rw [List.append_nil] at h
    exact ⟨h, rfl⟩
  · rintro ⟨h, rfl⟩
    exact ⟨[], x, [], [], rfl, rfl, ⟨rfl, rfl⟩, by rwa [List.append_nil], rfl⟩

theorem flagged_param (T : Tables) {pars : Provider} {F : Parameter → Option Flagged} {p : Parameter} (h : HasFlagged pars F p) :
    RegularParam pars p ∧ Unrepeated pars p ∧ customMatch T pars p = flaggedMatch T.classes F p ∧
      customGroups pars p = flaggedGroups F p := by
  unfold HasFlagged at h
  unfold RegularParam Unrepeated customMatch flaggedMatch customGroups flaggedGroups
  cases hF : F p with
  | none =>
    rw [hF] at h
    simp only [h.1]
    exact ⟨h.2, (by intro v a h; exact nomatch h), trivial, trivial⟩
  | some f =>
    rw [hF] at h
    have hp := parse_flagged f h.2
    have ho : (flaggedAst f).outerGroup = false := outer_groupless (groups_flagged f)
    simp only [h.1]
    refine ⟨⟨_, hp, fun hg => absurd (groups_flagged f) hg⟩, ?_, ?_, ?_⟩
    · intro v a hv ha
      cases hv
      rw [hp] at ha
      cases ha
      simp [marked_flagged]
    · funext g pre x post l
      refine propext ?_
      constructor
      · rintro ⟨a, ha, hm⟩
        rw [hp] at ha
        cases ha
        rw [ho, if_neg (by simp)] at hm
        obtain ⟨k, hk, rfl⟩ := hm
        obtain ⟨h1, rfl⟩ := (match_flagged f _ _ _ _ _).1 hk
        exact ⟨h1, rfl⟩
      · rintro ⟨h1, rfl⟩
        refine ⟨_, hp, ?_⟩
        rw [ho, if_neg (by simp)]
        exact ⟨[], (match_flagged f _ _ _ _ _).2 ⟨h1, rfl⟩, rfl⟩
    · simp only [hp, ho, groups_flagged, Bool.false_eq_true, if_false]; rfl

/-- C75: custom regexes with flags in one of six shapes match what they should (`Flagged.Takes`), capture it, and have no influence on
anything else: all other text is matched as it is, and other parameters as without them. -/
theorem C75_flags (T : Tables) (pars : Provider) (F : Parameter → Option Flagged) (src : List Char) (e : Expression)
    (h : Expression.parse src = .ok e) (hF : ∀ p ∈ params e, HasFlagged pars F p) :
    ∃ c, Expression.regexWithParameters (hirOf T) pars src = .ok c ∧
      ∀ (w pre x post : List Char) (l : List Cap), c.re.Finds T.classes w pre x post l ↔
        pre = [] ∧ post = [] ∧ x = w ∧ SplitsWith (flaggedMatch T.classes F) (flaggedGroups F) e 1 [] w [] l := by
  have hk := fun p hp => flagged_param T (hF p hp)
  obtain ⟨c, counts, h1, -, -, h2⟩ := C57_attribution_partial T pars src e h (fun p hp => (hk p hp).1) fun p hp => (hk p hp).2.1
  refine ⟨c, h1, fun w pre x post l => (h2 w pre x post l).trans ?_⟩
  have hc : ∀ p ∈ params e, customMatch T pars p = flaggedMatch T.classes F p ∧ customGroups pars p = flaggedGroups F p :=
    fun p hp => (hk p hp).2.2
  constructor
  · rintro ⟨rfl, rfl, rfl, hs⟩
    exact ⟨rfl, rfl, rfl, splitsWith_congr hc hs⟩
  · rintro ⟨rfl, rfl, rfl, hs⟩
    exact ⟨rfl, rfl, rfl, splitsWith_congr (fun p hp => ⟨(hc p hp).1.symm, (hc p hp).2.symm⟩) hs⟩

/-! ## Examples -/

/-- Non-vacuity: the value of `{c}` may be written in any way, the words around it may not; `{d}` may have several lines. -/
example : ∃ e c hir, Expression.parse (chars! "a {c} b: {d} {word}") = .ok e ∧
    (∀ p ∈ params e, HasFlagged (hashMapProvider [(['c'], chars! "(?i)red"), (['d'], chars! "(?s).*")])
      (fun p => if p.id = 0 then some (.casing (chars! "red")) else if p.id = 1 then some .anything else none) p) ∧
    Expression.regexWithParameters (hirOf asciiTables) (hashMapProvider [(['c'], chars! "(?i)red"), (['d'], chars! "(?s).*")])
      (chars! "a {c} b: {d} {word}") = .ok c ∧
    hirOf asciiTables c.pattern = some hir ∧
    hir.find (chars! "a rEd b: x\ny z") = some (0, chars! "a rEd b: x\ny z", [⟨1, 2, chars! "rEd"⟩, ⟨2, 9, chars! "x\ny"⟩, ⟨3, 13, ['z']⟩]) ∧
    hir.find (chars! "A red b: x z") = none ∧ hir.find (chars! "a red B: x z") = none := by
  have three : ∀ p ∈ params [.text ⟨0, 1, ['a']⟩, .whitespaces ⟨1, 1, [' ']⟩, .parameter ⟨⟨3, 1, ['c']⟩, 0⟩, .whitespaces ⟨5, 1, [' ']⟩,
      .text ⟨6, 1, ['b', ':']⟩, .whitespaces ⟨8, 1, [' ']⟩, .parameter ⟨⟨10, 1, ['d']⟩, 1⟩, .whitespaces ⟨12, 1, [' ']⟩,
      .parameter ⟨⟨14, 1, ['w', 'o', 'r', 'd']⟩, 2⟩],
      p = ⟨⟨3, 1, ['c']⟩, 0⟩ ∨ p = ⟨⟨10, 1, ['d']⟩, 1⟩ ∨ p = ⟨⟨14, 1, ['w', 'o', 'r', 'd']⟩, 2⟩ := by decide
  refine ⟨_, _, _, rfl, ?_, rfl, rfl, by decide +kernel, by decide +kernel, by decide +kernel⟩
  intro p hp
  rcases three p hp with rfl | rfl | rfl
  · exact ⟨rfl, by simp [Flagged.Plain, Spec.Unmarked]⟩
  · exact ⟨rfl, trivial⟩
  · exact ⟨rfl, .word, rfl⟩

/-- Flags hold up to the end of the group, through its branches, and can be cleared; they cannot be repeated. -/
example : ∃ c hir, Expression.regexWithParameters (hirOf asciiTables) (hashMapProvider [(['c'], chars! "x|(?i)a|b(?-i:c)")]) (chars! "{c}d") = .ok c ∧
    hirOf asciiTables c.pattern = some hir ∧ hir.find (chars! "Ad") ≠ none ∧ hir.find (chars! "Bcd") ≠ none ∧ hir.find (chars! "Xd") = none ∧
    hir.find (chars! "BCd") = none ∧ hir.find (chars! "AD") = none ∧ Regex.parse (chars! "(?i)*") = .error .invalid :=
  ⟨_, _, rfl, rfl, by decide +kernel, by decide +kernel, by decide +kernel, by decide +kernel, by decide +kernel, rfl⟩

/-- Under `m`, `^` and `$` also hold at line breaks, `\A` does not. -/
example : ∃ c hir, Expression.regexWithParameters (hirOf asciiTables) (hashMapProvider [(['c'], chars! "(?m)^b$"), (['d'], chars! "(?m)\\Ab$")])
      (chars! "(a)\n{c}(\nc)") = .ok c ∧
    hirOf asciiTables c.pattern = some hir ∧ hir.find (chars! "a\nb\nc") = some (0, chars! "a\nb\nc", [⟨1, 2, ['b']⟩]) ∧
    Regex.parse (chars! "(?m)\\A") = .ok (.cat .empty .bol) :=
  ⟨_, _, rfl, rfl, by decide +kernel, rfl⟩

/-- The other shapes are found where they should be. -/
example : ∃ c hir, Expression.regexWithParameters (hirOf asciiTables)
      (hashMapProvider [(['p'], (Flagged.partly ['a'] ['b'] ['c']).value), (['w'], (Flagged.without ['x', 'y']).value), (['m'], (Flagged.whole ['z']).value)])
      (chars! "{p}{w}") = .ok c ∧
    hirOf asciiTables c.pattern = some hir ∧ hir.find (chars! "AbCz") = some (0, chars! "AbCz", [⟨1, 0, chars! "AbC"⟩, ⟨2, 3, ['z']⟩]) ∧
    hir.find (chars! "aBcz") = none ∧ hir.find (chars! "abcX") = none :=
  ⟨_, _, rfl, rfl, by decide +kernel, by decide +kernel, by decide +kernel⟩

end CE
