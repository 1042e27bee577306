import Verif.Prop.Pieces
import Verif.Proof.CustomExpr
import Verif.Spec.Segments

/-!
# Groups in custom regexes: C77
-/

namespace CE
open Spec Regex Spec.Pat

variable {U : Classes}

/-! ## Tokens -/

theorem lexes_factors {fs : List Factor} (hv : ∀ f ∈ fs, f.Valid) : Lexes (writeBranch fs) (branchToks' false fs) := by
  intro rest
  have h1 := lexRaw_branch rest hv
  have e : ∀ cs, lex cs = match lexRaw cs with | .error e => .error e | .ok ts => resolve {} [] ts := fun _ => rfl
  rw [e, e, h1]
  cases lexRaw rest with
  | error x => rfl
  | ok ts => exact resolve_branch false [] ts fs

theorem legal_valid {n : List Char} (h : LegalName n) : Hir.ValidName n := by
  cases n with
  | nil => exact h.elim
  | cons c r =>
    refine ⟨c, r, rfl, ?_, fun d hd => ?_⟩
    · have := h.1
      simp only [isCaptureChar, if_true, Bool.or_eq_true, decide_eq_true_eq]
      exact this.symm
    · have := h.2 d hd
      simp only [List.mem_cons, List.not_mem_nil, or_false] at this
      simp only [isCaptureChar, Char.isAlphanum, Bool.false_eq_true, if_false, Bool.or_eq_true, decide_eq_true_eq]
      rcases this with h | h | h | h | h | h <;> simp [h]

/-- The token of the beginning of a group. -/
def openTok : Opening → Tok
  | .number => .capture none
  | .named _ n => .capture (some n)
  | .noCapture => .group

def openKind : Opening → Kind
  | .number => .capture none
  | .named _ n => .capture (some n)
  | .noCapture => .group

def patternToks (p : Pattern) : List Tok :=
  insToks p.ins ++ branchToks' p.ins p.first ++ (p.others.map fun b => .bar :: branchToks' p.ins b).flatten

theorem groupOpen_name {n : List Char} (h : LegalName n) (rest : List Char) :
    groupOpen ('?' :: '<' :: (n ++ '>' :: rest)) = .ok (.capture (some n), rest) := by
  have hc := capName_valid (legal_valid h) rest
  cases n with
  | nil => exact h.elim
  | cons c r =>
    have h1 : c ≠ '=' ∧ c ≠ '!' := by
      constructor <;> (rintro rfl; exact absurd h.1 (by decide))
    rw [List.cons_append] at hc ⊢
    unfold groupOpen
    split <;> first | (rename_i h0; cases h0; done) | skip
    · rename_i h0; cases h0; exact absurd rfl h1.1
    · rename_i h0; cases h0; exact absurd rfl h1.2
    · rename_i h0; cases h0; rw [hc]
    all_goals (rename_i h0; first | (injection h0 with _ h0; injection h0 with h0 _; exact absurd h0.symm (by assumption)) | simp_all)

theorem lexes_group {o : Opening} {p : Pattern} (hv : p.Valid) (hn : ∀ n, o.name = some n → LegalName n) :
    Lexes (['('] ++ o.write ++ p.value ++ [')']) (openTok o :: patternToks p ++ [.close]) := by
  have hl : lex p.value = .ok (patternToks p) := lex_pattern hv
  obtain ⟨r, hb⟩ : ∃ r, build [] .start (patternToks p) = .ok r := by
    have := parse_re (parse_patternOf hv)
    unfold Regex.parse at this
    rw [hl] at this
    cases hb : build [] .start (patternToks p) with
    | ok r => exact ⟨r, rfl⟩
    | error x => simp only [hb] at this; cases this
  cases o with
  | number => exact lexes_captured hl hb
  | noCapture => exact lexes_enclosed (o := ['?', ':']) (t := .group) hl hb fun rest => rfl
  | named b n =>
    have hl' := hn n rfl
    cases b with
    | true =>
      refine lexes_enclosed (o := ['?', 'P', '<'] ++ n ++ ['>']) (t := .capture (some n)) hl hb fun rest => ?_
      have e : ['?', 'P', '<'] ++ n ++ ['>'] ++ (p.value ++ ')' :: rest) = '?' :: 'P' :: '<' :: (n ++ '>' :: (p.value ++ ')' :: rest)) := by simp
      rw [e]
      simp only [lexOne, groupOpen, capName_valid (legal_valid hl')]
    | false =>
      refine lexes_enclosed (o := ['?', '<'] ++ n ++ ['>']) (t := .capture (some n)) hl hb fun rest => ?_
      have e : ['?', '<'] ++ n ++ ['>'] ++ (p.value ++ ')' :: rest) = '?' :: '<' :: (n ++ '>' :: (p.value ++ ')' :: rest)) := by simp
      rw [e]
      exact groupOpen_name hl' _

def segmentToks : Segment → List Tok
  | .plain fs => branchToks' false fs
  | .group o p => openTok o :: patternToks p ++ [.close]

theorem lexes_segment {s : Segment} (hv : s.Valid) : Lexes s.write (segmentToks s) := by
  cases s with
  | plain fs => exact lexes_factors hv
  | group o p => exact lexes_group hv.1 hv.2

/-! ## Trees -/

def segmentAsts : Segment → List Ast
  | .plain fs => fs.map (factorAst false)
  | .group o p => [(openKind o).wrapA (patternAst p)]

theorem reads_segment (s : Segment) : AReadsAs (segmentToks s) (segmentAsts s) := by
  cases s with
  | plain fs => exact reads_branch false fs
  | group o p =>
    intro fr
    refine ⟨false, fun st br it rest => ?_⟩
    have := buildA_inside (build_pattern p) (openKind o) ⟨br, it, fr⟩ st rest
    simp only [List.nil_append] at this
    have e : segmentToks (.group o p) ++ rest = openTok o :: (patternToks p ++ .close :: rest) := by simp [segmentToks]
    rw [e]
    refine Eq.trans ?_ this
    cases o <;> rfl

def segmentsAst (ss : List Segment) : Ast := catA (ss.map segmentAsts).flatten

/-- The name of each group. -/
def segmentGroups (s : Segment) : List (Option (List Char)) := if s.captures then [s.name] else []

theorem groups_segment (s : Segment) : ((segmentAsts s).map fun a => a.toRe.groups).flatten = segmentGroups s := by
  cases s with
  | plain fs =>
    rw [List.flatten_eq_nil_iff.2]
    · rfl
    · intro l hl
      simp only [segmentAsts, List.map_map, List.mem_map, Function.comp_apply] at hl
      obtain ⟨f, -, rfl⟩ := hl
      exact groups_factor false f
  | group o p =>
    cases o <;> simp [segmentAsts, openKind, Kind.wrapA, Ast.toRe, Re.groups, groups_pattern, segmentGroups, Segment.captures, Opening.captures,
      Segment.name, Opening.name]

theorem groups_segments (ss : List Segment) : (segmentsAst ss).toRe.groups = (ss.map segmentGroups).flatten := by
  rw [segmentsAst, toRe_catA, groups_catL]
  induction ss with
  | nil => rfl
  | cons s ss ih =>
    simp only [List.map_cons, List.flatten_cons, List.map_append, List.flatten_append]
    rw [ih, List.map_map]
    congr 1
    exact groups_segment s

theorem names_segments (ss : List Segment) : (segmentsAst ss).toRe.names = ss.filterMap Segment.name := by
  rw [Re.names, groups_segments]
  induction ss with
  | nil => rfl
  | cons s ss ih =>
    simp only [List.map_cons, List.flatten_cons, List.filterMap_append, ih]
    have : ∀ o : Option (List Char), (o.toList ++ ss.filterMap Segment.name) = (match o with | none => ss.filterMap Segment.name | some n => n :: ss.filterMap Segment.name) := by
      intro o; cases o <;> rfl
    rw [List.filterMap_cons]
    cases s with
    | plain fs => rfl
    | group o p => cases o <;> rfl

theorem count_segments (ss : List Segment) : (segmentsAst ss).toRe.groups.length = groupCount ss := by
  rw [groups_segments, groupCount]
  induction ss with
  | nil => rfl
  | cons s ss ih =>
    simp only [List.map_cons, List.flatten_cons, List.length_append, ih, List.filter_cons, segmentGroups]
    cases s.captures <;> simp [Nat.add_comm]

theorem parse_segments {ss : List Segment} (hv : ValidSegments ss) : Ast.parse (writeSegments ss) = .ok (segmentsAst ss) := by
  have h1 : Lexes (writeSegments ss) (ss.map segmentToks).flatten := Lexes.flatten ss fun s hs => lexes_segment (hv.1 s hs)
  have h2 : AReadsAs (ss.map segmentToks).flatten (ss.map segmentAsts).flatten := AReadsAs.flatten ss fun s _ => reads_segment s
  have hb : buildA [] .start (ss.map segmentToks).flatten = .ok (segmentsAst ss) := by
    obtain ⟨fr, h⟩ := h2 false
    have := h [] [] [] []
    rw [List.append_nil] at this
    refine Eq.trans this ?_
    simp [buildA, AFrame.finish, segmentsAst, altA]
  simp only [Ast.parse, h1.lex, hb, names_segments]
  rw [if_pos hv.2]

theorem regular_factor (ins : Bool) (f : Factor) : (factorAst ins f).Regular := by
  obtain ⟨p, q⟩ := f
  have hp : (pieceAst ins p).Regular := by cases p <;> cases ins <;> trivial
  have he : (pieceAst ins p).eager = false := by cases p <;> cases ins <;> rfl
  cases q with
  | none => exact hp
  | some x => exact ⟨hp, .inl (groups_piece ins p), fun h => by rw [he] at h; exact nomatch h.1⟩

theorem regular_pattern (p : Pattern) : (patternAst p).Regular := by
  refine regular_altA fun a ha => ?_
  obtain ⟨as, has, rfl⟩ := List.mem_map.1 ha
  refine regular_catA fun b hb => ?_
  rcases List.mem_cons.1 has with rfl | has
  · rcases List.mem_append.1 hb with hb | hb
    · revert hb; cases p.ins
      · intro hb; exact nomatch hb
      · intro hb; cases List.mem_singleton.1 hb; trivial
    · obtain ⟨f, -, rfl⟩ := List.mem_map.1 hb
      exact regular_factor _ f
  · obtain ⟨c, -, rfl⟩ := List.mem_map.1 has
    obtain ⟨f, -, rfl⟩ := List.mem_map.1 hb
    exact regular_factor _ f

theorem regular_segments (ss : List Segment) : (segmentsAst ss).Regular := by
  refine regular_catA fun a ha => ?_
  obtain ⟨l, hl, ha⟩ := List.mem_flatten.1 ha
  obtain ⟨s, -, rfl⟩ := List.mem_map.1 hl
  cases s with
  | plain fs => obtain ⟨f, -, rfl⟩ := List.mem_map.1 ha; exact regular_factor _ f
  | group o p =>
    cases List.mem_singleton.1 ha
    cases o <;> exact regular_pattern p

theorem marked_segments {ss : List Segment} : ∀ g ∈ (segmentsAst ss).marked, g.2 = false := by
  intro g hg
  rw [segmentsAst, marked_catA] at hg
  obtain ⟨l, hl, hg⟩ := List.mem_flatten.1 hg
  obtain ⟨a, ha, rfl⟩ := List.mem_map.1 hl
  obtain ⟨l, hl, ha⟩ := List.mem_flatten.1 ha
  obtain ⟨s, -, rfl⟩ := List.mem_map.1 hl
  have hnone : ∀ b : Ast, b.toRe.groups = [] → b.marked = [] := fun b hb => by
    have := marked_groups b
    rw [hb] at this
    exact List.eq_nil_of_length_eq_zero this
  cases s with
  | plain fs =>
    obtain ⟨f, -, rfl⟩ := List.mem_map.1 ha
    rw [hnone _ (groups_factor _ f)] at hg
    exact nomatch hg
  | group o p =>
    cases List.mem_singleton.1 ha
    have hp := hnone _ (groups_pattern p)
    cases o with
    | noCapture =>
      have : g ∈ (patternAst p).marked := hg
      rw [hp] at this
      exact nomatch this
    | number =>
      have : g ∈ (none, false) :: (patternAst p).marked := hg
      rw [hp] at this
      cases List.mem_singleton.1 this
      rfl
    | named b n =>
      have : g ∈ (some n, false) :: (patternAst p).marked := hg
      rw [hp] at this
      cases List.mem_singleton.1 this
      rfl

/-! ## Meaning -/

theorem match_segment (s : Segment) (g : Nat) (pre x post : List Char) (l : List Cap) :
    (catL ((segmentAsts s).map Ast.toRe)).Match U g pre x post l ↔ s.Takes U g pre.length x l := by
  cases s with
  | plain fs => exact match_branchOf false fs g pre x post l
  | group o p =>
    have cap : (∃ k, (patternAst p).toRe.Match U (g + 1) pre x post k ∧ l = ⟨g, pre.length, x⟩ :: k) ↔
        p.Takes U x ∧ l = [⟨g, pre.length, x⟩] := by
      constructor
      · rintro ⟨k, hk, rfl⟩
        obtain ⟨h, rfl⟩ := (match_pattern p _ _ _ _ _).1 hk
        exact ⟨h, rfl⟩
      · rintro ⟨h, rfl⟩
        exact ⟨[], (match_pattern p _ _ _ _ _).2 ⟨h, rfl⟩, rfl⟩
    cases o with
    | noCapture => exact match_pattern p g pre x post l
    | number => exact cap
    | named b n => exact cap

theorem match_segments : ∀ (ss : List Segment) (g : Nat) (pre x post : List Char) (l : List Cap),
    (segmentsAst ss).toRe.Match U g pre x post l ↔ Segments U ss g pre.length x l
  | [], _, _, _, _, _ => Iff.rfl
  | s :: ss, g, pre, x, post, l => by
    have e : (segmentsAst (s :: ss)).toRe = catL ((segmentAsts s).map Ast.toRe ++ ((ss.map segmentAsts).flatten).map Ast.toRe) := by
      rw [segmentsAst, toRe_catA]
      simp
    have hc : (catL ((segmentAsts s).map Ast.toRe)).groups.length = if s.captures then 1 else 0 := by
      have := groups_segment s
      rw [groups_catL, List.map_map]
      show ((segmentAsts s).map fun a => a.toRe.groups).flatten.length = _
      rw [this, segmentGroups]
      cases s.captures <;> rfl
    have e2 : ∀ g pre x l, (catL (((ss.map segmentAsts).flatten).map Ast.toRe)).Match U g pre x post l ↔ Segments U ss g pre.length x l := by
      intro g pre x l
      rw [← toRe_catA]
      exact match_segments ss g pre x post l
    rw [e, match_catL_append]
    simp only [match_segment, e2, hc, Segments, List.length_append]
    have : (g + if s.captures = true then 1 else 0) = if s.captures = true then g + 1 else g := by cases s.captures <;> rfl
    rw [this]

/-- Without groups, nothing is captured. -/
theorem segments_none : ∀ {ss : List Segment} {g h pos : Nat} {x : List Char} {l : List Cap}, groupCount ss = 0 →
    Segments U ss g pos x l → l = [] ∧ Segments U ss h pos x []
  | [], _, _, _, _, _, _, hs => ⟨hs.2, hs.1, rfl⟩
  | s :: ss, g, h, pos, x, l, hc, hs => by
    obtain ⟨y, z, k, m, rfl, rfl, h1, h2⟩ := hs
    have hcap : s.captures = false := by
      cases hb : s.captures with
      | false => rfl
      | true => simp [groupCount, hb] at hc
    have hc' : groupCount ss = 0 := by simpa [groupCount, hcap] using hc
    obtain ⟨rfl, h3⟩ := segments_none (h := h) hc' h2
    have hk : k = [] ∧ s.Takes U h pos y [] := by
      cases s with
      | plain fs => exact ⟨h1.2, h1.1, rfl⟩
      | group o p =>
        have ho : o.captures = false := hcap
        have := h1.2
        rw [ho, if_neg (by simp)] at this
        exact ⟨this, h1.1, by rw [ho, if_neg (by simp)]⟩
    obtain ⟨rfl, h4⟩ := hk
    refine ⟨rfl, y, z, [], [], rfl, rfl, h4, ?_⟩
    rw [hcap, if_neg (by simp)]
    exact h3

theorem outer_segments (ss : List Segment) : (segmentsAst ss).outerGroup = !decide (groupCount ss = 0) := by
  have hl := marked_groups (segmentsAst ss)
  rw [count_segments] at hl
  by_cases h : groupCount ss = 0
  · have : (segmentsAst ss).marked = [] := List.eq_nil_of_length_eq_zero (hl.trans h)
    simp [Ast.outerGroup, this, h]
  · have hm := marked_segments (ss := ss)
    cases hs : (segmentsAst ss).marked with
    | nil => rw [hs] at hl; exact absurd hl.symm h
    | cons g gs =>
      have := hm g (by simp [hs])
      simp [Ast.outerGroup, hs, this, h]

theorem segments_param (T : Tables) {pars : Provider} {F : Parameter → Option (List Segment)} {p : Parameter} (h : HasSegments pars F p) :
    RegularParam pars p ∧ Unrepeated pars p ∧ customMatch T pars p = segmentsMatch T.classes F p ∧
      customGroups pars p = segmentsGroups F p ∧ customLabels pars p = segmentsLabels F p := by
  unfold HasSegments at h
  unfold RegularParam Unrepeated customMatch segmentsMatch customGroups segmentsGroups customLabels segmentsLabels
  cases hF : F p with
  | none =>
    rw [hF] at h
    simp only [h.1]
    exact ⟨h.2, (by intro v a h; exact nomatch h), trivial, trivial, trivial⟩
  | some ss =>
    rw [hF] at h
    have hp := parse_segments h.2
    have ho := outer_segments ss
    simp only [h.1]
    refine ⟨⟨_, hp, fun _ => regular_segments ss⟩, ?_, ?_, ?_, ?_⟩
    · intro v a hv ha
      cases hv
      rw [hp] at ha
      cases ha
      exact marked_segments
    · funext g pre x post l
      refine propext ?_
      have : (∃ a, Ast.parse (writeSegments ss) = .ok a ∧ if a.outerGroup then a.toRe.Match T.classes g pre x post l
          else ∃ k, a.toRe.Match T.classes (g + 1) pre x post k ∧ l = ⟨g, pre.length, x⟩ :: k) ↔
          if (segmentsAst ss).outerGroup then (segmentsAst ss).toRe.Match T.classes g pre x post l
          else ∃ k, (segmentsAst ss).toRe.Match T.classes (g + 1) pre x post k ∧ l = ⟨g, pre.length, x⟩ :: k := by
        constructor
        · rintro ⟨a, ha, h⟩
          rw [hp] at ha
          cases ha
          exact h
        · exact fun h => ⟨_, hp, h⟩
      refine this.trans ?_
      rw [ho]
      by_cases hc : groupCount ss = 0
      · simp only [hc, decide_true, Bool.not_true, Bool.false_eq_true, if_false, if_true, match_segments]
        constructor
        · rintro ⟨k, hk, rfl⟩
          obtain ⟨rfl, h⟩ := segments_none (h := g) hc hk
          exact ⟨h, rfl⟩
        · rintro ⟨h, rfl⟩
          exact ⟨[], (segments_none (h := g + 1) hc h).2, rfl⟩
      · simp only [hc, decide_false, Bool.not_false, if_true, if_false, match_segments]
    · simp only [hp, ho, count_segments]
      by_cases hc : groupCount ss = 0 <;> simp [hc]
    · simp only [hp, ho, count_segments]
      by_cases hc : groupCount ss = 0 <;> simp [hc]

/-- C77: custom regexes with groups, named or not: the expression is accepted, however often names are used by several parameters, the
parameter matches what its regex does, and captures what each of its groups matches, in order; if there are no groups, all of it. The
names given to the groups of a custom regex are not used: they are named as the documentation says. -/
theorem C77_groups (T : Tables) (pars : Provider) (F : Parameter → Option (List Segment)) (src : List Char) (e : Expression)
    (h : Expression.parse src = .ok e) (hF : ∀ p ∈ params e, HasSegments pars F p) :
    ∃ c, Expression.regexWithParameters (hirOf T) pars src = .ok c ∧
      c.re.groups = ((params e).map (segmentsLabels F)).flatten ∧
      ∀ (w pre x post : List Char) (l : List Cap), c.re.Finds T.classes w pre x post l ↔
        pre = [] ∧ post = [] ∧ x = w ∧ SplitsWith (segmentsMatch T.classes F) (segmentsGroups F) e 1 [] w [] l := by
  have hk := fun p hp => segments_param T (hF p hp)
  obtain ⟨c, counts, h1, -, -, h2⟩ := C57_attribution_partial T pars src e h (fun p hp => (hk p hp).1) fun p hp => (hk p hp).2.1
  have hg := C57_names_partial T pars src e h (fun p hp => (hk p hp).1) (fun p hp => (hk p hp).2.1) c h1
  rw [List.map_congr_left fun p hp => (hk p hp).2.2.2.2] at hg
  refine ⟨c, h1, hg, fun w pre x post l => (h2 w pre x post l).trans ?_⟩
  have hc : ∀ p ∈ params e, customMatch T pars p = segmentsMatch T.classes F p ∧ customGroups pars p = segmentsGroups F p :=
    fun p hp => ⟨(hk p hp).2.2.1, (hk p hp).2.2.2.1⟩
  constructor
  · rintro ⟨rfl, rfl, rfl, hs⟩
    exact ⟨rfl, rfl, rfl, splitsWith_congr hc hs⟩
  · rintro ⟨rfl, rfl, rfl, hs⟩
    exact ⟨rfl, rfl, rfl, splitsWith_congr (fun p hp => ⟨(hc p hp).1.symm, (hc p hp).2.symm⟩) hs⟩

/-! ## Names that are not legal -/

theorem capName_rest_illegal : ∀ {n : List Char} (rest : List Char), '>' ∉ n → (∀ d ∈ n, d.toNat < 128) →
    ¬ (∀ d ∈ n, d.isAlpha ∨ d.isDigit ∨ d ∈ ['_', '.', '[', ']']) → ∃ x, capName false (n ++ '>' :: rest) = .error x
  | [], _, _, _, h => absurd (fun d hd => nomatch hd) h
  | c :: n, rest, h1, h2, h3 => by
    have hc : c ≠ '>' := fun e => h1 (by simp [e])
    rw [List.cons_append, capName, if_neg hc, if_neg (by have := h2 c (by simp); omega)]
    split
    · next hcc =>
      obtain ⟨x, hx⟩ := capName_rest_illegal (n := n) rest (fun h => h1 (by simp [h])) (fun d hd => h2 d (by simp [hd])) (by
        intro h
        refine h3 fun d hd => ?_
        rcases List.mem_cons.1 hd with rfl | hd
        · simp only [isCaptureChar, Char.isAlphanum, Bool.false_eq_true, if_false, Bool.or_eq_true, decide_eq_true_eq] at hcc
          simp only [List.mem_cons, List.not_mem_nil, or_false]
          grind
        · exact h d hd)
      exact ⟨x, by rw [hx]⟩
    · exact ⟨_, rfl⟩

theorem capName_illegal {n : List Char} (rest : List Char) (h1 : '>' ∉ n) (h2 : ∀ d ∈ n, d.toNat < 128) (h3 : ¬ LegalName n) :
    ∃ x, capName true (n ++ '>' :: rest) = .error x := by
  cases n with
  | nil => exact ⟨_, rfl⟩
  | cons c n =>
    have hc : c ≠ '>' := fun e => h1 (by simp [e])
    rw [List.cons_append, capName, if_neg hc, if_neg (by have := h2 c (by simp); omega)]
    split
    · next hcc =>
      obtain ⟨x, hx⟩ := capName_rest_illegal (n := n) rest (fun h => h1 (by simp [h])) (fun d hd => h2 d (by simp [hd])) (by
        intro h
        refine h3 ⟨?_, h⟩
        simp only [isCaptureChar, if_true, Bool.or_eq_true, decide_eq_true_eq] at hcc
        exact hcc.symm)
      exact ⟨x, by rw [hx]⟩
    · exact ⟨_, rfl⟩

theorem refused_group (T : Tables) (pars : Provider) (src : List Char) (e : Expression) (h : Expression.parse src = .ok e) (p : Parameter)
    (hp : p ∈ params e) {fs : List Factor} (hfs : ∀ f ∈ fs, f.Valid) {r : List Char} {y : RErr} (hf : atFlags '(' r = false)
    (ho : groupOpen r = .error y) (hv : pars p.input = some (writeBranch fs ++ '(' :: r)) :
    ∃ x, Expression.regexWithParameters (hirOf T) pars src = .err (.expansion x) := by
  refine C36_parens_partial (hirOf T) pars src e h p hp _ hv (by simp) ?_
  have hr : rawOne '(' r = .error y := by
    rw [rawOne, if_neg (by simp [hf])]
    simp only [lexOne, ho]
  have h4 : lexRaw ('(' :: r) = .error y := by
    simp only [lexRaw, List.length_cons, lexF, hr]
  have h5 := lexRaw_branch ('(' :: r) hfs
  rw [h4] at h5
  have hlex : lex (writeBranch fs ++ '(' :: r) = .error y := by
    have e2 : ∀ cs, lex cs = match lexRaw cs with | .error e => .error e | .ok ts => resolve {} [] ts := fun _ => rfl
    rw [e2, h5]
    rfl
  simp only [hirOf, Ast.parse, hlex]

/-- C77: a regex whose first group has a name that is not legal makes every expression with it fail. -/
theorem C77_illegal (T : Tables) (pars : Provider) (src : List Char) (e : Expression) (h : Expression.parse src = .ok e) (p : Parameter)
    (hp : p ∈ params e) (fs : List Factor) (hfs : ∀ f ∈ fs, f.Valid) (n rest : List Char) (b : Bool) (h1 : '>' ∉ n) (h2 : ∀ d ∈ n, d.toNat < 128)
    (h3 : ¬ LegalName n) (hv : pars p.input = some (writeBranch fs ++ ['('] ++ (Opening.named b n).write ++ rest)) :
    ∃ x, Expression.regexWithParameters (hirOf T) pars src = .err (.expansion x) := by
  obtain ⟨x, hx⟩ := capName_illegal rest h1 h2 h3
  have ho : ∃ y, groupOpen ((Opening.named b n).write ++ rest) = .error y := by
    cases b with
    | true =>
      have e : (Opening.named true n).write ++ rest = '?' :: 'P' :: '<' :: (n ++ '>' :: rest) := by simp [Opening.write]
      rw [e]
      exact ⟨x, by simp only [groupOpen, hx]⟩
    | false =>
      have e : (Opening.named false n).write ++ rest = '?' :: '<' :: (n ++ '>' :: rest) := by simp [Opening.write]
      rw [e]
      unfold groupOpen
      split <;> first | (rename_i h0; cases h0; done) | exact ⟨_, rfl⟩ | skip
      · rename_i h0; cases h0; rw [hx]; exact ⟨_, rfl⟩
      all_goals (rename_i h0; first | (injection h0 with _ h0; injection h0 with h0 _; exact absurd h0.symm (by assumption)) | simp_all)
  obtain ⟨y, ho⟩ := ho
  have e2 : writeBranch fs ++ ['('] ++ (Opening.named b n).write ++ rest = writeBranch fs ++ '(' :: ((Opening.named b n).write ++ rest) := by simp
  rw [e2] at hv
  exact refused_group T pars src e h p hp hfs (by cases b <;> rfl) ho hv

/-- C77: look-around is refused. -/
theorem C77_lookaround (T : Tables) (pars : Provider) (src : List Char) (e : Expression) (h : Expression.parse src = .ok e) (p : Parameter)
    (hp : p ∈ params e) (fs : List Factor) (hfs : ∀ f ∈ fs, f.Valid) (o rest : List Char) (ho : o ∈ lookarounds)
    (hv : pars p.input = some (writeBranch fs ++ o ++ rest)) :
    ∃ x, Expression.regexWithParameters (hirOf T) pars src = .err (.expansion x) := by
  rw [List.append_assoc] at hv
  simp only [lookarounds, List.mem_cons, List.not_mem_nil, or_false] at ho
  rcases ho with rfl | rfl | rfl | rfl
  all_goals exact refused_group T pars src e h p hp hfs rfl rfl hv

/-! ## Non-vacuity -/

/-- `(\d+)-(?P<m.1>a|\d{2})(?:!)`. -/
def exampleSegments : List Segment :=
  [.group .number ⟨false, [⟨.short false .digit, some (.some, false)⟩], []⟩,
   .plain [⟨.one (.plain '-'), none⟩],
   .group (.named true (chars! "m.1")) ⟨false, [⟨.one (.plain 'a'), none⟩], [[⟨.short false .digit, some (.exactly 2, false)⟩]]⟩,
   .group .noCapture ⟨false, [⟨.one (.plain '!'), none⟩], []⟩]

theorem exampleSegments_write : writeSegments exampleSegments = chars! "(\\d+)-(?P<m.1>a|\\d{2})(?:!)" := by decide

theorem exampleSegments_valid : ValidSegments exampleSegments := by
  have h1 : ∀ c ∈ ['-', 'a', '!'], c ∉ specialOutside := by decide
  refine ⟨?_, by decide⟩
  intro s hs
  simp only [exampleSegments, List.mem_cons, List.not_mem_nil, or_false] at hs
  rcases hs with rfl | rfl | rfl | rfl
  · refine ⟨?_, nofun⟩
    intro b hb f hf
    cases List.mem_singleton.1 hb
    cases List.mem_singleton.1 hf
    exact ⟨trivial, by intro q l hq; cases hq; trivial⟩
  · intro f hf
    cases List.mem_singleton.1 hf
    exact ⟨h1 '-' (by decide), nofun⟩
  · refine ⟨?_, ?_⟩
    · intro b hb f hf
      rcases List.mem_cons.1 hb with rfl | hb
      · cases List.mem_singleton.1 hf
        exact ⟨h1 'a' (by decide), nofun⟩
      · cases List.mem_singleton.1 hb
        cases List.mem_singleton.1 hf
        exact ⟨trivial, by intro q l hq; cases hq; trivial⟩
    · intro n hn
      cases hn
      exact ⟨by decide, by decide⟩
  · refine ⟨?_, nofun⟩
    intro b hb f hf
    cases List.mem_singleton.1 hb
    cases List.mem_singleton.1 hf
    exact ⟨h1 '!' (by decide), nofun⟩

set_option maxRecDepth 4000 in
/-- The hypotheses hold, with the same name in two parameters, and what is found is as expected. -/
example : ∃ e c hir, Expression.parse (chars! "{p} {p} {int}") = .ok e ∧
    (∀ p ∈ params e, HasSegments (hashMapProvider [(['p'], writeSegments exampleSegments)]) (fun p => if p.id < 2 then some exampleSegments else none) p) ∧
    Expression.regexWithParameters (hirOf asciiTables) (hashMapProvider [(['p'], writeSegments exampleSegments)]) (chars! "{p} {p} {int}") = .ok c ∧
    c.re.groups = [some (chars! "__0_0"), some (chars! "__0_1"), some (chars! "__1_0"), some (chars! "__1_1"), none] ∧
    hirOf asciiTables c.pattern = some hir ∧
    hir.find (chars! "7-a! 80-12! 5") = some (0, chars! "7-a! 80-12! 5",
      [⟨1, 0, chars! "7"⟩, ⟨2, 2, chars! "a"⟩, ⟨3, 5, chars! "80"⟩, ⟨4, 8, chars! "12"⟩, ⟨5, 12, chars! "5"⟩]) ∧
    hir.find (chars! "7-a! 80-1! 5") = none := by
  have three : ∀ p ∈ params [.parameter ⟨⟨1, 1, ['p']⟩, 0⟩, .whitespaces ⟨3, 1, [' ']⟩, .parameter ⟨⟨5, 1, ['p']⟩, 1⟩, .whitespaces ⟨7, 1, [' ']⟩,
      .parameter ⟨⟨9, 1, ['i', 'n', 't']⟩, 2⟩], p = ⟨⟨1, 1, ['p']⟩, 0⟩ ∨ p = ⟨⟨5, 1, ['p']⟩, 1⟩ ∨ p = ⟨⟨9, 1, ['i', 'n', 't']⟩, 2⟩ := by decide
  refine ⟨_, _, _, rfl, ?_, rfl, rfl, rfl, by decide +kernel, by decide +kernel⟩
  intro p hp
  rcases three p hp with rfl | rfl | rfl
  · exact ⟨rfl, exampleSegments_valid⟩
  · exact ⟨rfl, exampleSegments_valid⟩
  · exact ⟨rfl, .int, rfl⟩

/-- A name beginning with a digit. -/
example : ∃ x, Expression.regexWithParameters (hirOf asciiTables) (hashMapProvider [(['p'], chars! "a(?P<1m>b)")]) (chars! "x {p}") = .err (.expansion x) :=
  C77_illegal asciiTables _ _ _ rfl ⟨⟨3, 1, ['p']⟩, 0⟩ (by decide) [⟨.one (.plain 'a'), none⟩]
    (by
      intro f hf
      have h1 : 'a' ∉ specialOutside := by decide
      cases List.mem_singleton.1 hf
      exact ⟨h1, nofun⟩)
    ['1', 'm'] ['b', ')'] true (by decide) (by decide) (by intro h; exact absurd h.1 (by decide)) rfl

example : ∃ x, Expression.regexWithParameters (hirOf asciiTables) (hashMapProvider [(['p'], chars! "(?=b)b")]) (chars! "x {p}") = .err (.expansion x) :=
  C77_lookaround asciiTables _ _ _ rfl ⟨⟨3, 1, ['p']⟩, 0⟩ (by decide) [] nofun ['(', '?', '='] (chars! "b)b") (by decide) rfl

end CE
