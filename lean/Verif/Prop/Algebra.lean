import Verif.Model.Display
import Verif.Proof.Algebra
import Verif.Prop.CustomLang

/-!
# Putting expressions together: C50, C51, C52

What is matched is stated for whole subjects (`Finds U w [] w [] l`); other matches do not exist (C29).
-/

namespace CE
open Spec Regex

theorem printSingle_erase (e : SingleExpression) : (eraseSingle e).render = printSingle e := by
  have alt : ∀ a : Alternative, (erasePiece a).render = printAlternative a := by intro a; cases a <;> rfl
  have br : ∀ b : SingleAlternation, renderPieces (b.map erasePiece) = b.flatMap printAlternative := by
    intro b
    simp only [renderPieces, List.map_map, List.flatMap]
    congr 1
    exact List.map_congr_left fun a _ => alt a
  cases e with
  | alternation a =>
    simp only [eraseSingle, Elem.render, printSingle]
    induction a with
    | nil => rfl
    | cons b a ih =>
      cases a with
      | nil => simp [renderBranches, br]
      | cons b' a => simp only [List.map_cons, renderBranches, br] at ih ⊢; simp [ih]
  | _ => rfl

theorem print_erase (x : Expression) : render (erase x) = print x := by
  simp only [render, erase, print, List.map_map, List.flatMap]
  congr 1
  exact List.map_congr_left fun e _ => printSingle_erase e

/-! ## Matching depends on the plain tree only -/

section
variable (parseHir : List Char → Option Hir) (U : Classes) (pars : Provider)

/-- Some parameter with the given name and id. -/
def named (n : List Char) (i : Nat) : Parameter := ⟨⟨0, 1, n⟩, i⟩

/-- The meaning of the parameters. -/
def typesOf : Types := ⟨fun n => paramMatch parseHir U pars (named n 0), fun n => paramGroups parseHir pars (named n 0)⟩

/-- The names of all groups, when the parameters have these names. -/
def groupNames (ns : List (List Char)) : List (List Char) :=
  (ns.zipIdx.map fun n => paramNames parseHir pars (named n.1 n.2)).flatten

variable {pars}

theorem byName_of (hn : ByName pars) (p : Parameter) : pars p.input = pars (named p.input.frag 0).input := hn _ _ rfl

theorem sound_named (hn : ByName pars) {p : Parameter} :
    Sound parseHir U pars p ↔ Sound parseHir U pars (named p.input.frag 0) := by
  unfold Sound; rw [byName_of hn p]; rfl

theorem paramNames_named (hn : ByName pars) (p : Parameter) :
    paramNames parseHir pars p = paramNames parseHir pars (named p.input.frag p.id) := by
  unfold paramNames; rw [byName_of hn p]; rfl

theorem paramMatch_named (hn : ByName pars) :
    paramMatch parseHir U pars = fun p => (typesOf parseHir U pars).mat p.input.frag := by
  funext p g pre x post l
  simp only [typesOf]
  unfold paramMatch; rw [byName_of hn p]; rfl

theorem paramGroups_named (hn : ByName pars) :
    paramGroups parseHir pars = fun p => (typesOf parseHir U pars).count p.input.frag := by
  funext p
  simp only [typesOf]
  unfold paramGroups; rw [byName_of hn p]; rfl

theorem params_erase (x : Expression) : (params x).map (·.input.frag) = namesOf (erase x) := by
  induction x with
  | nil => rfl
  | cons e x ih => cases e <;> simpa [params, erase, namesOf, eraseSingle] using ih

theorem params_numbered {src : List Char} {x : Expression} (h : Expression.parse src = .ok x) :
    (params x).map (fun p => (p.input.frag, p.id)) = (namesOf (erase x)).zipIdx := by
  have hid : (params x).map Parameter.id = List.range (params x).length := by
    have := C03_ids src x h
    rw [ids_eq] at this
    simpa using this
  rw [← params_erase]
  refine List.ext_getElem (by simp) fun i h1 h2 => ?_
  simp only [List.length_map] at h1
  have h3 : (params x)[i].id = i := by
    have := congrArg (·[i]?) hid
    simpa [h1] using this
  simp [h3]

theorem names_erase (hn : ByName pars) {src : List Char} {x : Expression} (h : Expression.parse src = .ok x) :
    ((params x).map (paramNames parseHir pars)).flatten = groupNames parseHir pars (namesOf (erase x)) := by
  rw [groupNames, ← params_numbered h, List.map_map]
  congr 1
  exact List.map_congr_left fun p _ => paramNames_named parseHir hn p

theorem groups_erase (x : Expression) (T : Types) :
    ((params x).map fun p => T.count p.input.frag).sum = groupsOf T (erase x) := by
  induction x with
  | nil => rfl
  | cons e x ih => cases e <;> simpa [params, erase, groupsOf, eraseSingle, Elem.groupCount] using ih

/-- All parameters of a plain tree are sound. -/
def eSound (pars : Provider) (es : List Elem) : Prop := ∀ n, Elem.param n ∈ es → Sound parseHir U pars (named n 0)

theorem eSound_erase (hn : ByName pars) {x : Expression} :
    (∀ p ∈ params x, Sound parseHir U pars p) ↔ eSound parseHir U pars (erase x) := by
  constructor
  · intro h n hm
    obtain ⟨e, he, hm⟩ := List.mem_map.1 hm
    cases e <;> simp only [eraseSingle, Elem.param.injEq, reduceCtorEq] at hm
    subst hm
    exact (sound_named parseHir U hn).1 (h _ (mem_params.2 he))
  · intro h p hp
    exact (sound_named parseHir U hn).2 (h _ (List.mem_map.2 ⟨_, mem_params.1 hp, rfl⟩))

theorem eSound_names {es fs : List Elem} (h : eSound parseHir U pars fs) (hn : namesOf es = namesOf fs) : eSound parseHir U pars es :=
  fun n hm => h n (mem_namesOf.1 (hn ▸ mem_namesOf.2 hm))

/-- The regex of the text of a canonical tree. -/
theorem regex_render (hn : ByName pars) {es : List Elem} (hc : Canonical es) (hs : eSound parseHir U pars es) :
    ((∃ c, Expression.regexWithParameters parseHir pars (render es) = .ok c) ↔ (groupNames parseHir pars (namesOf es)).Nodup) ∧
    ∀ c, Expression.regexWithParameters parseHir pars (render es) = .ok c →
      c.re.groups.length = groupsOf (typesOf parseHir U pars) es ∧
      ∀ (w : List Char) (l : List Cap), c.re.Finds U w [] w [] l ↔ eSplits (typesOf parseHir U pars) es 1 [] w [] l := by
  obtain ⟨x, hx, he⟩ := C06_print_then_parse es hc
  obtain ⟨h1, h2⟩ := C45_language parseHir U pars _ x hx ((eSound_erase parseHir U hn).2 (he ▸ hs))
  rw [names_erase parseHir hn hx, he] at h1 h2
  have key : ∀ c, Expression.regexWithParameters parseHir pars (render es) = .ok c → (groupNames parseHir pars (namesOf es)).Nodup := by
    intro c hc
    by_cases hd : (groupNames parseHir pars (namesOf es)).Nodup
    · exact hd
    · rw [h2 hd] at hc; cases hc
  refine ⟨⟨fun ⟨c, hc⟩ => key c hc, fun h => ?_⟩, fun c hc => ?_⟩
  · obtain ⟨c, hc, -⟩ := h1 h
    exact ⟨c, hc⟩
  · obtain ⟨c', h3, h4, -, h5⟩ := h1 (key c hc)
    rw [hc] at h3
    cases h3
    refine ⟨?_, fun w l => ?_⟩
    · rw [h4, paramGroups_named parseHir U hn, groups_erase, he]
    · rw [h5, paramMatch_named parseHir U hn, paramGroups_named parseHir U hn, splits_erase, he]; simp

/-! ## Regexes without anchors -/

theorem repeats_context {P Q : Matches} {i : Nat} {p0 q0 : List Char}
    (h : ∀ p x q l, Q (p0 ++ p) x (q ++ q0) l ↔ ∃ k, P p x q k ∧ l = k.map (Cap.shift i p0.length)) (m : Nat) (n : Option Nat)
    (p x q : List Char) (l : List Cap) :
    Repeats Q m n (p0 ++ p) x (q ++ q0) l ↔ ∃ k, Repeats P m n p x q k ∧ l = k.map (Cap.shift i p0.length) := by
  constructor
  · intro hr
    generalize hp : p0 ++ p = p' at hr
    generalize hq : q ++ q0 = q' at hr
    induction hr generalizing p with
    | done n pre post => exact ⟨[], .done .., rfl⟩
    | more m n pre x y post l k h1 h2 h3 ih =>
      subst hp hq
      rw [← List.append_assoc] at h2
      obtain ⟨l', h4, rfl⟩ := (h ..).1 h2
      obtain ⟨k', h5, rfl⟩ := ih (p ++ x) (by simp) rfl
      exact ⟨l' ++ k', .more _ _ _ _ _ _ _ _ h1 h4 h5, by simp⟩
  · rintro ⟨k, hr, rfl⟩
    induction hr with
    | done n pre post => exact .done ..
    | more m n pre x y post l k h1 h2 h3 ih =>
      rw [List.map_append]
      refine .more _ _ _ _ _ _ _ _ h1 ?_ ?_
      · rw [← List.append_assoc]; exact (h ..).2 ⟨_, h2, rfl⟩
      · rw [List.append_assoc]; exact ih

theorem match_context (r : Re) (h : r.anchorFree = true) : ContextFree (r.Match U) := by
  have leaf : ∀ P : List Char → Prop, ContextFree (fun _ _ x _ l => P x ∧ l = []) := by
    intro P g i p0 p x q q0 l
    constructor
    · rintro ⟨h, rfl⟩; exact ⟨[], ⟨h, rfl⟩, rfl⟩
    · rintro ⟨k, ⟨h, rfl⟩, rfl⟩; exact ⟨h, rfl⟩
  induction r with
  | empty => exact leaf fun x => x = []
  | lit c => exact leaf fun x => x = [c]
  | dot => exact leaf fun x => ∃ c, c ≠ '\n' ∧ x = [c]
  | cls k => exact leaf fun x => ∃ c, k.mem U c ∧ x = [c]
  | bol => cases h
  | eol => cases h
  | mark n => cases h
  | cap n r ih =>
    intro g i p0 p x q q0 l
    have ih := ih h
    simp only [Re.Match]
    rw [show g + i + 1 = g + 1 + i by omega]
    simp only [ih (g + 1) i p0 p x q q0]
    constructor
    · rintro ⟨_, ⟨k, h1, rfl⟩, rfl⟩
      exact ⟨_, ⟨k, h1, rfl⟩, by simp [Cap.shift, Nat.add_comm]⟩
    · rintro ⟨_, ⟨k, h1, rfl⟩, rfl⟩
      exact ⟨_, ⟨k, h1, rfl⟩, by simp [Cap.shift, Nat.add_comm]⟩
  | cat a b iha ihb =>
    intro g i p0 p x q q0 l
    simp only [Re.anchorFree, Bool.and_eq_true] at h
    simp only [Re.Match]
    rw [show g + i + a.groups.length = g + a.groups.length + i by omega]
    constructor
    · rintro ⟨y, z, k, m, rfl, rfl, h1, h2⟩
      rw [← List.append_assoc, iha h.1] at h1
      rw [List.append_assoc, ihb h.2] at h2
      obtain ⟨k, h1, rfl⟩ := h1
      obtain ⟨m, h2, rfl⟩ := h2
      exact ⟨k ++ m, ⟨y, z, k, m, rfl, rfl, h1, h2⟩, by simp⟩
    · rintro ⟨_, ⟨y, z, k, m, rfl, rfl, h1, h2⟩, rfl⟩
      refine ⟨y, z, _, _, rfl, List.map_append, ?_, ?_⟩
      · rw [← List.append_assoc, iha h.1]; exact ⟨k, h1, rfl⟩
      · rw [List.append_assoc, ihb h.2]; exact ⟨m, h2, rfl⟩
  | alt a b iha ihb =>
    intro g i p0 p x q q0 l
    simp only [Re.anchorFree, Bool.and_eq_true] at h
    simp only [Re.Match]
    rw [show g + i + a.groups.length = g + a.groups.length + i by omega, iha h.1, ihb h.2]
    constructor
    · rintro (⟨k, h1, rfl⟩ | ⟨k, h1, rfl⟩)
      · exact ⟨k, .inl h1, rfl⟩
      · exact ⟨k, .inr h1, rfl⟩
    · rintro ⟨k, h1 | h1, rfl⟩
      · exact .inl ⟨k, h1, rfl⟩
      · exact .inr ⟨k, h1, rfl⟩
  | rep r m n b ih =>
    intro g i p0 p x q q0 l
    exact repeats_context (fun p x q l => ih h g i p0 p x q q0 l) m n p x q l

theorem captures_shift (b : Builtin) (g p i j : Nat) (x : List Char) (l : List Cap) :
    b.Captures (g + i) (p + j) x l ↔ ∃ k, b.Captures g p x k ∧ l = k.map (Cap.shift i j) := by
  cases b with
  | string =>
    simp only [Builtin.Captures]
    constructor
    · rintro ⟨t, ⟨h, rfl⟩ | ⟨h, rfl⟩⟩
      · exact ⟨[⟨g, p + 1, t⟩], ⟨t, .inl ⟨h, rfl⟩⟩, by simp [Cap.shift]; omega⟩
      · exact ⟨[⟨g + 1, p + 1, t⟩], ⟨t, .inr ⟨h, rfl⟩⟩, by simp [Cap.shift]; omega⟩
    · rintro ⟨k, ⟨t, ⟨h, rfl⟩ | ⟨h, rfl⟩⟩, rfl⟩
      · exact ⟨t, .inl ⟨h, by simp [Cap.shift]; omega⟩⟩
      · exact ⟨t, .inr ⟨h, by simp [Cap.shift]; omega⟩⟩
  | _ =>
    simp only [Builtin.Captures, exists_eq_left, List.map_cons, List.map_nil, Cap.shift]

theorem param_context (p : Parameter) (h : AnchorFree pars p) : ContextFree (paramMatch parseHir U pars p) := by
  intro g i p0 p' x q q0 l
  unfold paramMatch
  unfold AnchorFree at h
  cases hv : pars p.input with
  | none =>
    simp only [List.length_append]
    rw [Nat.add_comm p0.length]
    simp only [captures_shift]
    constructor
    · rintro ⟨b, h1, h2, k, h3, h4⟩; exact ⟨k, ⟨b, h1, h2, h3⟩, h4⟩
    · rintro ⟨k, ⟨b, h1, h2, h3⟩, h4⟩; exact ⟨b, h1, h2, k, h3, h4⟩
  | some v =>
    simp only []
    constructor
    · rintro ⟨r, hr, hm⟩
      have hc := match_context U r (h v r hv hr)
      cases hg : grouped parseHir v with
      | some hh =>
        rw [hg] at hm
        obtain ⟨k, h1, h2⟩ := (hc ..).1 hm
        exact ⟨k, ⟨r, hr, h1⟩, h2⟩
      | none =>
        rw [hg] at hm
        obtain ⟨k, h1, rfl⟩ := hm
        rw [show g + i + 1 = g + 1 + i by omega] at h1
        obtain ⟨k', h3, rfl⟩ := (hc ..).1 h1
        exact ⟨_, ⟨r, hr, k', h3, rfl⟩, by simp [Cap.shift, Nat.add_comm]⟩
    · rintro ⟨k, ⟨r, hr, hm⟩, rfl⟩
      have hc := match_context U r (h v r hv hr)
      refine ⟨r, hr, ?_⟩
      cases hg : grouped parseHir v with
      | some hh =>
        rw [hg] at hm
        exact (hc ..).2 ⟨k, hm, rfl⟩
      | none =>
        rw [hg] at hm
        obtain ⟨k, h1, rfl⟩ := hm
        refine ⟨k.map (Cap.shift i p0.length), ?_, by simp [Cap.shift, Nat.add_comm]⟩
        rw [show g + i + 1 = g + 1 + i by omega]
        exact (hc ..).2 ⟨k, h1, rfl⟩

/-! ## C50 -/

/-- C50: accepted texts can be written one directly behind the other. -/
theorem C50_accepted (a b : List Char) (x y : Expression) (ha : Expression.parse a = .ok x)
    (hb : Expression.parse b = .ok y) : ∃ z, Expression.parse (a ++ b) = .ok z :=
  (C05_accepts_iff_relaxed _).2 (star_append ((C05_accepts_iff_relaxed _).1 ⟨x, ha⟩) ((C05_accepts_iff_relaxed _).1 ⟨y, hb⟩))

/-- C50 with custom parameters: if their regexes have no anchors, and the three regexes exist. -/
theorem C50_concat_custom (hn : ByName pars) (a b : List Char) (x y : Expression) (ha : Expression.parse a = .ok x)
    (hb : Expression.parse b = .ok y) (hx : ∀ p ∈ params x, Sound parseHir U pars p) (hy : ∀ p ∈ params y, Sound parseHir U pars p)
    (fx : ∀ p ∈ params x, AnchorFree pars p) (fy : ∀ p ∈ params y, AnchorFree pars p) (ht : ¬ Touching x y)
    (ca cb c : Compiled) (hca : Expression.regexWithParameters parseHir pars a = .ok ca)
    (hcb : Expression.regexWithParameters parseHir pars b = .ok cb)
    (hc : Expression.regexWithParameters parseHir pars (a ++ b) = .ok c) (w : List Char) (l : List Cap) :
    c.re.Finds U w [] w [] l ↔
      ∃ u v k m, w = u ++ v ∧ ca.re.Finds U u [] u [] k ∧ cb.re.Finds U v [] v [] m ∧
        l = k ++ m.map (Cap.shift ca.re.groups.length u.length) := by
  obtain ⟨ca1, ra, -⟩ := C06_parse_then_print a x ha
  obtain ⟨cb1, rb, -⟩ := C06_parse_then_print b y hb
  have free : ∀ {x : Expression}, (∀ p ∈ params x, AnchorFree pars p) → ∀ n, Elem.param n ∈ erase x →
      ContextFree ((typesOf parseHir U pars).mat n) := by
    intro x hf n hm
    obtain ⟨e, he, hm⟩ := List.mem_map.1 hm
    cases e <;> simp only [eraseSingle, Elem.param.injEq, reduceCtorEq] at hm
    subst hm
    refine param_context parseHir U (named _ 0) fun v r hv hr => ?_
    exact hf _ (mem_params.2 he) v r (hv ▸ hn _ _ rfl) hr
  have cx := eSplits_context (typesOf parseHir U pars) (erase x) (free fx)
  have cy := eSplits_context (typesOf parseHir U pars) (erase y) (free fy)
  rw [eSound_erase parseHir U hn] at hx hy
  obtain ⟨es, hces, hr, hs, hnm, -⟩ := join ca1 cb1 (fun h => ht (touching_erase h))
  rw [← ra] at hca; rw [← rb] at hcb; rw [← ra, ← rb, ← hr] at hc
  obtain ⟨a2, a3⟩ := (regex_render parseHir U hn ca1 hx).2 ca hca
  obtain ⟨-, b3⟩ := (regex_render parseHir U hn cb1 hy).2 cb hcb
  have hses : eSound parseHir U pars es := fun n h => by
    have := mem_namesOf.1 (hnm ▸ mem_namesOf.2 h)
    exact (List.mem_append.1 this).elim (hx n) (hy n)
  obtain ⟨-, c3⟩ := (regex_render parseHir U hn hces hses).2 c hc
  rw [c3, (hs _).2, eSplits_append]
  simp only [a3, b3, a2]
  have shift0 : ∀ k : List Cap, k.map (Cap.shift 0 0) = k := fun k => by
    conv => rhs; rw [← List.map_id k]
    rfl
  have hu : ∀ u v k, eSplits (typesOf parseHir U pars) (erase x) 1 [] u (v ++ []) k ↔
      eSplits (typesOf parseHir U pars) (erase x) 1 [] u [] k := by
    intro u v k
    have := cx 1 0 [] [] u [] v k
    rw [List.append_nil]
    simp only [Nat.add_zero, List.append_nil, List.nil_append, List.length_nil] at this
    rw [this]
    constructor
    · rintro ⟨k', h, rfl⟩; rw [shift0]; exact h
    · intro h; exact ⟨k, h, (shift0 k).symm⟩
  have hv : ∀ u v m, eSplits (typesOf parseHir U pars) (erase y) (1 + groupsOf (typesOf parseHir U pars) (erase x)) ([] ++ u) v [] m ↔
      ∃ k, eSplits (typesOf parseHir U pars) (erase y) 1 [] v [] k ∧
        m = k.map (Cap.shift (groupsOf (typesOf parseHir U pars) (erase x)) u.length) := by
    intro u v m
    have := cy 1 (groupsOf (typesOf parseHir U pars) (erase x)) u [] v [] [] m
    simpa using this
  constructor
  · rintro ⟨u, v, k, m, rfl, rfl, h1, h2⟩
    obtain ⟨m', h2', rfl⟩ := (hv ..).1 h2
    exact ⟨u, v, k, m', rfl, (hu ..).1 h1, h2', rfl⟩
  · rintro ⟨u, v, k, m, rfl, h1, h2, rfl⟩
    exact ⟨u, v, k, _, rfl, rfl, (hu ..).2 h1, (hv ..).2 ⟨m, h2, rfl⟩⟩

/-! ## C51 -/

theorem lang_or {es as bs : List Elem} (L R m ma mb : List Elem) (he : SameLang es (L ++ (m ++ R)))
    (ha : SameLang as (L ++ (ma ++ R))) (hb : SameLang bs (L ++ (mb ++ R))) (T : Types)
    (hga : groupsOf T ma = groupsOf T m) (hgb : groupsOf T mb = groupsOf T m)
    (h : ∀ g p w q l, eSplits T m g p w q l ↔ eSplits T ma g p w q l ∨ eSplits T mb g p w q l)
    (w : List Char) (l : List Cap) :
    eSplits T es 1 [] w [] l ↔ eSplits T as 1 [] w [] l ∨ eSplits T bs 1 [] w [] l := by
  rw [(he T).2, (ha T).2, (hb T).2]
  simp only [eSplits_append, hga, hgb, h]
  constructor
  · rintro ⟨u, v, k, n, rfl, rfl, h1, u', v', k', n', rfl, rfl, h2 | h2, h3⟩
    · exact .inl ⟨_, _, _, _, rfl, rfl, h1, _, _, _, _, rfl, rfl, h2, h3⟩
    · exact .inr ⟨_, _, _, _, rfl, rfl, h1, _, _, _, _, rfl, rfl, h2, h3⟩
  · rintro (⟨u, v, k, n, rfl, rfl, h1, u', v', k', n', rfl, rfl, h2, h3⟩ | ⟨u, v, k, n, rfl, rfl, h1, u', v', k', n', rfl, rfl, h2, h3⟩)
    · exact ⟨_, _, _, _, rfl, rfl, h1, _, _, _, _, rfl, rfl, .inl h2, h3⟩
    · exact ⟨_, _, _, _, rfl, rfl, h1, _, _, _, _, rfl, rfl, .inr h2, h3⟩

theorem param_not_textual {es : List Elem} (h : es.all textual = true) (n : List Char) : Elem.param n ∉ es := fun hn => by
  have := List.all_eq_true.1 h _ hn
  cases this

/-- C51 with custom parameters. -/
theorem C51_optional_custom (hn : ByName pars) (src : List Char) (e : Expression) (h : Expression.parse src = .ok e)
    (hs : ∀ p ∈ params e, Sound parseHir U pars p) (c : Compiled) (hcomp : Expression.regexWithParameters parseHir pars src = .ok c)
    (l r : Expression) (o : Optional) (he : e = l ++ .optional o :: r) :
    ∃ with' without, Expression.regexWithParameters parseHir pars (print l ++ o.input.frag ++ print r) = .ok with' ∧
      Expression.regexWithParameters parseHir pars (print l ++ print r) = .ok without ∧
      ∀ (w : List Char) (k : List Cap), c.re.Finds U w [] w [] k ↔
        with'.re.Finds U w [] w [] k ∨ without.re.Finds U w [] w [] k := by
  obtain ⟨hc, hr, -⟩ := C06_parse_then_print src e h
  rw [eSound_erase parseHir U hn] at hs
  have hee : erase e = erase l ++ .opt o.input.frag :: erase r := by simp [he, erase, eraseSingle]
  rw [hee] at hc hr hs
  generalize hL : erase l = L at hc hr hs
  generalize hR : erase r = R at hc hr hs
  have hprL : print l = render L := by rw [← hL, print_erase]
  have hprR : print r = render R := by rw [← hR, print_erase]
  have hlast : ∀ x, L.getLast? = some x → x.isAlt = false := fun x hx => by
    have := bad_seam hc x _ hx rfl
    cases x <;> first | rfl | exact absurd trivial this
  have hcL := (canonical_of_append hc).1
  have hcR := canonical_tail (canonical_of_append hc).2
  have hhead : ∀ x, R.head? = some x → x.isAlt = false := fun x hx => by
    have := bad_seam (a := [.opt o.input.frag]) (b := R) (canonical_of_append hc).2 _ x rfl hx
    cases x <;> first | rfl | exact absurd trivial this
  have hlr : ¬ eTouching L R := by
    rintro ⟨x, y, hx, hy, -, h1 | h1⟩
    · rw [hlast x hx] at h1; cases h1
    · rw [hhead y hy] at h1; cases h1
  have hvo := hc.1 (.opt o.input.frag) (by simp)
  obtain ⟨X, t1, t2, t3, t4⟩ := textual_of_opt hvo.2
  obtain ⟨es2, j1, j2, j3, j4, j5, -⟩ := join t1 hcR (textual_touching' t3 hhead)
  have hle : ¬ eTouching L es2 := by
    rintro ⟨x, y, hx, hy, -, h1 | h1⟩
    · rw [hlast x hx] at h1; cases h1
    · rw [hy, Option.map_some, h1] at j5
      cases X with
      | nil =>
        cases hRh : R.head? with
        | none => simp [hRh] at j5
        | some z => simp [hRh, hhead z hRh] at j5
      | cons z X =>
        simp at j5 t3
        cases z <;> simp [textual, Elem.isAlt] at j5 t3
  obtain ⟨es, k1, k2, k3, k4, -⟩ := join hcL j1 hle
  obtain ⟨es', m1, m2, m3, m4, -⟩ := join hcL hcR hlr
  have hX : namesOf X = [] := List.eq_nil_iff_forall_not_mem.2 fun n hm => param_not_textual t3 n (mem_namesOf.1 hm)
  have nk : namesOf es = namesOf (L ++ .opt o.input.frag :: R) := by
    rw [k4, namesOf_append, j4, namesOf_append, hX, namesOf_append]; rfl
  have nm : namesOf es' = namesOf (L ++ .opt o.input.frag :: R) := by
    rw [m4, namesOf_append, namesOf_append]; rfl
  rw [← hr] at hcomp
  obtain ⟨c1, c2⟩ := regex_render parseHir U hn hc hs
  obtain ⟨d1, d2⟩ := regex_render parseHir U hn k1 (eSound_names parseHir U hs nk)
  obtain ⟨f1, f2⟩ := regex_render parseHir U hn m1 (eSound_names parseHir U hs nm)
  have hnd := c1.1 ⟨c, hcomp⟩
  obtain ⟨d, hd⟩ := d1.2 (nk ▸ hnd)
  obtain ⟨f, hf⟩ := f1.2 (nm ▸ hnd)
  refine ⟨d, f, by rw [hprL, hprR, List.append_assoc, ← hd, k2, j2, t2], by rw [hprL, hprR, ← hf, m2], fun w k => ?_⟩
  rw [(c2 c hcomp).2, (d2 d hd).2, (f2 f hf).2]
  refine lang_or L R [.opt o.input.frag] X [] (by simpa using .refl _) (k3.trans ((SameLang.refl L).append j3))
    (by simpa using m3) _ (by rw [(t4 _).1]; rfl) (by simp [groupsOf, Elem.groupCount]) ?_ w k
  intro g p w q l
  rw [(t4 _).2]
  simp only [eSplits, Elem.Piece]
  constructor
  · rintro ⟨_, _, _, _, rfl, rfl, ⟨rfl | rfl, rfl⟩, rfl, rfl⟩
    · exact .inr ⟨by simp, by simp⟩
    · exact .inl ⟨by simp, by simp⟩
  · rintro (⟨rfl, rfl⟩ | ⟨rfl, rfl⟩)
    · exact ⟨_, [], [], [], by simp, by simp, ⟨.inr rfl, rfl⟩, rfl, rfl⟩
    · exact ⟨[], [], [], [], by simp, by simp, ⟨.inl rfl, rfl⟩, rfl, rfl⟩

theorem slashed_append (a b : List (List Spec.Piece)) : slashed (a ++ b) = slashed a ++ slashed b := by simp [slashed]

theorem renderBranches_swap {BL BR : List (List Spec.Piece)} {b b' : List Spec.Piece} (h : renderPieces b = renderPieces b') :
    renderBranches (BL ++ b :: BR) = renderBranches (BL ++ b' :: BR) := by
  cases BL with
  | nil => simp [renderBranches_cons, h]
  | cons c BL => simp [renderBranches_cons, slashed_append, h]

theorem canonical_swap {L R : List Elem} {x y : Elem} (hy : y.Valid) (h : Canonical (L ++ x :: R))
    (h1 : ∀ u, Elem.Bad u y → Elem.Bad u x) (h2 : ∀ u, Elem.Bad y u → Elem.Bad x u) : Canonical (L ++ y :: R) := by
  refine canonical_append (canonical_of_append h).1 (canonical_replace hy (canonical_of_append h).2 h2) fun u v hu hv => ?_
  simp at hv
  subst hv
  exact fun hbad => bad_seam h u x hu rfl (h1 u hbad)

theorem render_mid (L R : List Elem) (x : Elem) : render (L ++ x :: R) = render L ++ (x.render ++ render R) := by simp [render]

/-- C51 inside an alternation, with custom parameters. -/
theorem C51_in_branch_custom (hn : ByName pars) (src : List Char) (e : Expression) (h : Expression.parse src = .ok e)
    (hs : ∀ p ∈ params e, Sound parseHir U pars p) (c : Compiled) (hcomp : Expression.regexWithParameters parseHir pars src = .ok c)
    (l r : Expression) (bl br : Alternation) (al ar : SingleAlternation) (o : Optional)
    (he : e = l ++ .alternation (bl ++ (al ++ .optional o :: ar) :: br) :: r) (hns : NoSpace o.input.frag) :
    ∃ with' without,
      Expression.regexWithParameters parseHir pars (print (l ++ .alternation (bl ++ (al ++ .text o.input :: ar) :: br) :: r)) = .ok with' ∧
      Expression.regexWithParameters parseHir pars (print (l ++ .alternation (bl ++ (al ++ ar) :: br) :: r)) = .ok without ∧
      ∀ (w : List Char) (k : List Cap), c.re.Finds U w [] w [] k ↔
        with'.re.Finds U w [] w [] k ∨ without.re.Finds U w [] w [] k := by
  obtain ⟨hc, hr, -⟩ := C06_parse_then_print src e h
  rw [eSound_erase parseHir U hn] at hs
  rw [← print_erase, ← print_erase]
  simp only [he, erase, List.map_append, List.map_cons, eraseSingle, erasePiece] at hc hr hs ⊢
  generalize l.map eraseSingle = L at hc hr hs ⊢
  generalize r.map eraseSingle = R at hc hr hs ⊢
  generalize bl.map (·.map erasePiece) = BL at hc hr hs ⊢
  generalize br.map (·.map erasePiece) = BR at hc hr hs ⊢
  generalize al.map erasePiece = AL at hc hr hs ⊢
  generalize ar.map erasePiece = AR at hc hr hs ⊢
  generalize o.input.frag = t at hc hr hs hns ⊢
  have hv := hc.1 (.alt (BL ++ (AL ++ .opt t :: AR) :: BR)) (by simp)
  have hvb := hv.2 (AL ++ .opt t :: AR) (by simp)
  have hvt := hvb.1.1 (.opt t) (by simp)
  have hte : Escd textStops t := by
    have key : ∀ {t : List Char}, Escd optStops t → Escd [' '] t → Escd textStops t := by
      intro t h1
      induction h1 with
      | nil => intro _; exact .nil
      | char c cs h1 h2 _ ih =>
        intro h
        have h' : c ∉ [' '] ∧ Escd [' '] cs := by
          cases h with
          | char _ _ _ h4 h5 => exact ⟨h4, h5⟩
          | esc => exact absurd rfl h1
        refine .char c cs h1 ?_ (ih h'.2)
        simp [optStops, textStops] at h2 h' ⊢
        exact ⟨h'.1, h2.1, h2.2.2.1, h2.2.2.2⟩
      | esc d cs h1 _ ih =>
        intro h
        cases h with
        | char _ _ h3 => exact absurd rfl h3
        | esc _ _ _ h5 => exact .esc d cs h1 (ih h5)
    exact key hvt.2 hns
  have htx : (AL ++ AR).any Piece.isText = true := by
    have := hvb.2
    simpa [Piece.isText] using this
  obtain ⟨b1, p1, p2, p3, p4⟩ := normPieces (AL ++ .text t :: AR) (fun p hp => by
    rcases List.mem_append.1 hp with hp | hp
    · exact hvb.1.1 p (by simp [hp])
    · rcases List.mem_cons.1 hp with rfl | hp
      · exact ⟨hvt.1, hte⟩
      · exact hvb.1.1 p (by simp [hp]))
  obtain ⟨b2, q1, q2, q3, q4⟩ := normPieces (AL ++ AR) (fun p hp => hvb.1.1 p (by
    rcases List.mem_append.1 hp with hp | hp <;> simp [hp]))
  have hval : ∀ b, ValidPieces b → b.any Piece.isText = true → (Elem.alt (BL ++ b :: BR)).Valid := by
    intro b hb1 hb2
    refine ⟨by simpa using hv.1, fun x hx => ?_⟩
    rcases List.mem_append.1 hx with hx | hx
    · exact hv.2 x (by simp [hx])
    · rcases List.mem_cons.1 hx with rfl | hx
      · exact ⟨hb1, hb2⟩
      · exact hv.2 x (by simp [hx])
  have hv1 := hval b1 p1 (by rw [p3]; simp [Piece.isText])
  have hv2 := hval b2 q1 (by rw [q3, htx])
  have nsw : ∀ x : List (List Spec.Piece), namesOf (L ++ .alt x :: R) = namesOf (L ++ .alt (BL ++ (AL ++ .opt t :: AR) :: BR) :: R) := by
    intro x; rw [namesOf_append, namesOf_append]; rfl
  rw [← hr] at hcomp
  obtain ⟨c1, c2⟩ := regex_render parseHir U hn hc hs
  obtain ⟨d1, d2⟩ := regex_render parseHir U hn (canonical_swap hv1 hc (by intro u hu; cases u <;> simp_all [Elem.Bad])
    (by intro u hu; cases u <;> simp_all [Elem.Bad])) (eSound_names parseHir U hs (nsw _))
  obtain ⟨f1, f2⟩ := regex_render parseHir U hn (canonical_swap hv2 hc (by intro u hu; cases u <;> simp_all [Elem.Bad])
    (by intro u hu; cases u <;> simp_all [Elem.Bad])) (eSound_names parseHir U hs (nsw _))
  have hnd := c1.1 ⟨c, hcomp⟩
  obtain ⟨d, hd⟩ := d1.2 (nsw _ ▸ hnd)
  obtain ⟨f, hf⟩ := f1.2 (nsw _ ▸ hnd)
  refine ⟨d, f, ?_, ?_, fun w k => ?_⟩
  · rw [← hd, render_mid, render_mid, Elem.render, Elem.render, renderBranches_swap p2]
  · rw [← hf, render_mid, render_mid, Elem.render, Elem.render, renderBranches_swap q2]
  rw [(c2 c hcomp).2, (d2 d hd).2, (f2 f hf).2]
  refine lang_or L R [.alt (BL ++ (AL ++ .opt t :: AR) :: BR)] [.alt (BL ++ b1 :: BR)] [.alt (BL ++ b2 :: BR)]
    (by simpa using .refl _) (by simpa using .refl _) (by simpa using .refl _) _ (by simp [groupsOf, Elem.groupCount])
    (by simp [groupsOf, Elem.groupCount]) ?_ w k
  have hor : ∀ x, piecesLang (AL ++ .opt t :: AR) x ↔ piecesLang b1 x ∨ piecesLang b2 x := by
    intro x
    rw [p4, q4]
    simp only [piecesLang_append, piecesLang, Piece.Lang]
    constructor
    · rintro ⟨y, _, rfl, h1, u, v, rfl, rfl | rfl, h2⟩
      · exact .inr ⟨y, v, by simp, h1, h2⟩
      · exact .inl ⟨y, _, rfl, h1, _, v, rfl, rfl, h2⟩
    · rintro (⟨y, _, rfl, h1, u, v, rfl, rfl, h2⟩ | ⟨y, v, rfl, h1, h2⟩)
      · exact ⟨y, _, rfl, h1, _, v, rfl, .inr rfl, h2⟩
      · exact ⟨y, _, rfl, h1, [], v, rfl, .inl rfl, h2⟩
  intro g p w q l
  simp only [eSplits, Elem.Piece, List.mem_append, List.mem_cons]
  constructor
  · rintro ⟨x, y, k, m, rfl, rfl, ⟨⟨b, hb, hx⟩, rfl⟩, rfl, rfl⟩
    rcases hb with hb | rfl | hb
    · exact .inl ⟨x, [], [], [], rfl, rfl, ⟨⟨b, .inl hb, hx⟩, rfl⟩, rfl, rfl⟩
    · rcases (hor x).1 hx with hx | hx
      · exact .inl ⟨x, [], [], [], rfl, rfl, ⟨⟨b1, .inr (.inl rfl), hx⟩, rfl⟩, rfl, rfl⟩
      · exact .inr ⟨x, [], [], [], rfl, rfl, ⟨⟨b2, .inr (.inl rfl), hx⟩, rfl⟩, rfl, rfl⟩
    · exact .inl ⟨x, [], [], [], rfl, rfl, ⟨⟨b, .inr (.inr hb), hx⟩, rfl⟩, rfl, rfl⟩
  · rintro (⟨x, y, k, m, rfl, rfl, ⟨⟨b, hb, hx⟩, rfl⟩, rfl, rfl⟩ | ⟨x, y, k, m, rfl, rfl, ⟨⟨b, hb, hx⟩, rfl⟩, rfl, rfl⟩) <;>
    · refine ⟨x, [], [], [], rfl, rfl, ⟨?_, rfl⟩, rfl, rfl⟩
      rcases hb with hb | rfl | hb
      · exact ⟨b, .inl hb, hx⟩
      · exact ⟨_, .inr (.inl rfl), (hor x).2 (by first | exact .inl hx | exact .inr hx)⟩
      · exact ⟨b, .inr (.inr hb), hx⟩

/-! ## C52 -/

/-- C52 with custom parameters. -/
theorem C52_alternation_custom (hn : ByName pars) (src : List Char) (e : Expression) (h : Expression.parse src = .ok e)
    (hs : ∀ p ∈ params e, Sound parseHir U pars p) (c : Compiled) (hcomp : Expression.regexWithParameters parseHir pars src = .ok c)
    (l r : Expression) (a : Alternation) (he : e = l ++ .alternation a :: r) :
    (∀ b ∈ a, ∃ cb, Expression.regexWithParameters parseHir pars (print l ++ printBranch b ++ print r) = .ok cb) ∧
    ∀ (w : List Char) (k : List Cap), c.re.Finds U w [] w [] k ↔
      ∃ b ∈ a, ∃ cb, Expression.regexWithParameters parseHir pars (print l ++ printBranch b ++ print r) = .ok cb ∧
        cb.re.Finds U w [] w [] k := by
  obtain ⟨hc, hr, -⟩ := C06_parse_then_print src e h
  rw [eSound_erase parseHir U hn] at hs
  have hee : erase e = erase l ++ .alt (a.map (·.map erasePiece)) :: erase r := by simp [he, erase, eraseSingle]
  rw [hee] at hc hr hs
  generalize hL : erase l = L at hc hr hs
  generalize hR : erase r = R at hc hr hs
  have hprL : print l = render L := by rw [← hL, print_erase]
  have hprR : print r = render R := by rw [← hR, print_erase]
  have hv := hc.1 _ (List.mem_append_right _ (List.mem_cons_self ..))
  have hlast : ∀ x, L.getLast? = some x → ∀ q : Spec.Piece, ¬ Elem.Bad x q.toElem := fun x hx q => by
    have := bad_seam hc x _ hx rfl
    cases x <;> cases q <;> simp_all [Elem.Bad, Piece.toElem]
  have hhead : ∀ x, R.head? = some x → ∀ q : Spec.Piece, ¬ Elem.Bad q.toElem x := fun x hx q => by
    have := bad_seam (a := [_]) (b := R) (canonical_of_append hc).2 _ x rfl hx
    cases x <;> cases q <;> simp_all [Elem.Bad, Piece.toElem]
  rw [← hr] at hcomp
  obtain ⟨c1, c2⟩ := regex_render parseHir U hn hc hs
  have hnd := c1.1 ⟨c, hcomp⟩
  have hbr : ∀ b ∈ a, ∃ cb, Expression.regexWithParameters parseHir pars (print l ++ printBranch b ++ print r) = .ok cb ∧
      ∀ (w : List Char) (k : List Cap), cb.re.Finds U w [] w [] k ↔
        eSplits (typesOf parseHir U pars) (L ++ ((b.map erasePiece).map Piece.toElem ++ R)) 1 [] w [] k := by
    intro b hbm
    have hvb := (hv.2 (b.map erasePiece) (List.mem_map_of_mem hbm))
    have hne : (b.map erasePiece) ≠ [] := branch_ne_nil hvb.2
    have hcan : Canonical (L ++ ((b.map erasePiece).map Piece.toElem ++ R)) := by
      refine canonical_append (canonical_of_append hc).1 (canonical_append (canonical_pieces hvb.1)
        (canonical_tail (canonical_of_append hc).2) fun x y hx hy => ?_) fun x y hx hy => ?_
      · obtain ⟨q, -, rfl⟩ := List.mem_map.1 (List.mem_of_mem_getLast? hx)
        exact hhead y hy q
      · cases hq : b.map erasePiece with
        | nil => exact absurd hq hne
        | cons q qs =>
          rw [hq] at hy
          simp at hy
          subst hy
          exact hlast x hx q
    have hnames : namesOf (L ++ ((b.map erasePiece).map Piece.toElem ++ R)) = namesOf (L ++ .alt (a.map (·.map erasePiece)) :: R) := by
      have : namesOf ((b.map erasePiece).map Piece.toElem) = [] := List.eq_nil_iff_forall_not_mem.2 fun n hm => by
        obtain ⟨q, -, hq⟩ := List.mem_map.1 (mem_namesOf.1 hm)
        cases q <;> cases hq
      rw [namesOf_append, namesOf_append, this, namesOf_append]; rfl
    obtain ⟨d1, d2⟩ := regex_render parseHir U hn hcan (eSound_names parseHir U hs hnames)
    obtain ⟨cb, hcb⟩ := d1.2 (hnames ▸ hnd)
    have d3 := (d2 cb hcb).2
    refine ⟨cb, ?_, d3⟩
    have hpb : renderPieces (b.map erasePiece) = printBranch b := by
      simp only [renderPieces, printBranch, List.map_map, List.flatMap]
      congr 1
      exact List.map_congr_left fun q _ => by cases q <;> rfl
    rw [render_append, render_append, render_pieces, hpb] at hcb
    rw [hprL, hprR, List.append_assoc]
    exact hcb
  refine ⟨fun b hbm => (hbr b hbm).imp fun _ h => h.1, fun w k => ?_⟩
  rw [(c2 c hcomp).2]
  have hex : (∃ b ∈ a, ∃ cb, Expression.regexWithParameters parseHir pars (print l ++ printBranch b ++ print r) = .ok cb ∧ cb.re.Finds U w [] w [] k) ↔
      ∃ b ∈ a, eSplits (typesOf parseHir U pars) (L ++ ((b.map erasePiece).map Piece.toElem ++ R)) 1 [] w [] k := by
    constructor
    · rintro ⟨b, hbm, cb, h1, h2⟩
      obtain ⟨cb', h3, h4⟩ := hbr b hbm
      rw [h3] at h1
      cases h1
      exact ⟨b, hbm, (h4 ..).1 h2⟩
    · rintro ⟨b, hbm, h⟩
      obtain ⟨cb', h3, h4⟩ := hbr b hbm
      exact ⟨b, hbm, cb', h3, (h4 ..).2 h⟩
  rw [hex]
  simp only [eSplits_append, eSplits_pieces, groupsOf_pieces, eSplits, Elem.Piece, Elem.groupCount, List.mem_map]
  constructor
  · rintro ⟨u, _, k, _, rfl, rfl, h1, x, y, _, m, rfl, rfl, ⟨⟨_, ⟨b, hbm, rfl⟩, hx⟩, rfl⟩, h2⟩
    exact ⟨b, hbm, u, _, k, _, rfl, rfl, h1, x, y, [], m, rfl, rfl, ⟨hx, rfl⟩, h2⟩
  · rintro ⟨b, hbm, u, _, k, _, rfl, rfl, h1, x, y, _, m, rfl, rfl, ⟨hx, rfl⟩, h2⟩
    exact ⟨u, _, k, _, rfl, rfl, h1, x, y, [], m, rfl, rfl, ⟨⟨_, ⟨b, hbm, rfl⟩, hx⟩, rfl⟩, h2⟩

/-- C52, the order, with custom parameters. -/
theorem C52_order_custom (hn : ByName pars) (src src' : List Char) (e e' : Expression) (h : Expression.parse src = .ok e)
    (h' : Expression.parse src' = .ok e') (hs : ∀ p ∈ params e, Sound parseHir U pars p) (c : Compiled)
    (hcomp : Expression.regexWithParameters parseHir pars src = .ok c) (l r l' r' : Expression) (a a' : Alternation)
    (he : e = l ++ .alternation a :: r) (he' : e' = l' ++ .alternation a' :: r') (hl : print l = print l')
    (hr : print r = print r') (ha : ∀ t, t ∈ a.map printBranch ↔ t ∈ a'.map printBranch) :
    ∃ c', Expression.regexWithParameters parseHir pars src' = .ok c' ∧
      ∀ (w : List Char) (k : List Cap), c.re.Finds U w [] w [] k ↔ c'.re.Finds U w [] w [] k := by
  obtain ⟨hc, hre, -⟩ := C06_parse_then_print src e h
  obtain ⟨hc', hre', -⟩ := C06_parse_then_print src' e' h'
  have hnames : namesOf (erase e') = namesOf (erase e) := by
    simp only [he, he', erase, List.map_append, List.map_cons] at hc hc' ⊢
    have hL := C06_unambiguous _ _ (canonical_of_append hc).1 (canonical_of_append hc').1
      (by have := hl; rw [← print_erase, ← print_erase] at this; exact this)
    have hR := C06_unambiguous _ _ (canonical_tail (canonical_of_append hc).2) (canonical_tail (canonical_of_append hc').2)
      (by have := hr; rw [← print_erase, ← print_erase] at this; exact this)
    rw [hL, hR, namesOf_append, namesOf_append]; rfl
  have hs1 := (eSound_erase parseHir U hn).1 hs
  have hs2 := eSound_names parseHir U hs1 hnames
  have hs' := (eSound_erase parseHir U hn).2 hs2
  have hnd := (regex_render parseHir U hn hc hs1).1.1 ⟨c, by rw [hre]; exact hcomp⟩
  obtain ⟨c', hcomp'⟩ := (regex_render parseHir U hn hc' hs2).1.2 (hnames ▸ hnd)
  rw [hre'] at hcomp'
  refine ⟨c', hcomp', fun w k => ?_⟩
  rw [(C52_alternation_custom parseHir U hn src e h hs c hcomp l r a he).2,
    (C52_alternation_custom parseHir U hn src' e' h' hs' c' hcomp' l' r' a' he').2, hl, hr]
  constructor
  · rintro ⟨b, hbm, cb, h1, h2⟩
    obtain ⟨b', hbm', hp⟩ := List.mem_map.1 ((ha _).1 (List.mem_map_of_mem hbm))
    exact ⟨b', hbm', cb, by rw [hp]; exact h1, h2⟩
  · rintro ⟨b, hbm, cb, h1, h2⟩
    obtain ⟨b', hbm', hp⟩ := List.mem_map.1 ((ha _).2 (List.mem_map_of_mem hbm))
    exact ⟨b', hbm', cb, by rw [hp]; exact h1, h2⟩

/-- Non-vacuity: `{a} x(s) b/c {a}` with `x|y+` for `a` is sound, is accepted, and has no anchors. -/
example : ∃ e, Expression.parse (chars! "{a} x(s) b/c {a}") = .ok e ∧ ByName (hashMapProvider [(['a'], chars! "x|y+")]) ∧
    (∀ p ∈ params e, Sound (fun _ => none) U (hashMapProvider [(['a'], chars! "x|y+")]) p) ∧
    (∀ p ∈ params e, AnchorFree (hashMapProvider [(['a'], chars! "x|y+")]) p) ∧
    ∃ c, Expression.regexWithParameters (fun _ => none) (hashMapProvider [(['a'], chars! "x|y+")])
      (chars! "{a} x(s) b/c {a}") = .ok c := by
  refine ⟨_, rfl, fun s t h => by simp [hashMapProvider, h], ?_, ?_, ?_⟩
  · intro p hp
    simp only [params, List.filterMap_cons, List.filterMap_nil, List.mem_cons, List.not_mem_nil, or_false] at hp
    rcases hp with rfl | rfl <;> exact ⟨_, rfl, by decide, by intro h hg; simp [grouped] at hg⟩
  · intro p hp v r hv hr
    simp only [params, List.filterMap_cons, List.filterMap_nil, List.mem_cons, List.not_mem_nil, or_false] at hp
    rcases hp with rfl | rfl <;> (cases hv; cases hr; rfl)
  · exact ⟨_, rfl⟩

/-- C50 needs that custom regexes have no anchors: `{a}` with `x$` for `a` matches `x`, and `y` matches `y`, but `{a}y` does
not match `xy`. -/
theorem C50_anchors : ∃ pars ca cb c, ByName pars ∧
    Expression.regexWithParameters (fun _ => none) pars "{a}".toList = .ok ca ∧
    Expression.regexWithParameters (fun _ => none) pars "y".toList = .ok cb ∧
    Expression.regexWithParameters (fun _ => none) pars "{a}y".toList = .ok c ∧
    ∀ U : Classes, ca.re.IsMatch U "x".toList ∧ cb.re.IsMatch U "y".toList ∧ ¬ c.re.IsMatch U "xy".toList := by
  refine ⟨hashMapProvider [(['a'], ['x', '$'])],
    ⟨chars! "^(x$)$", .cat .bol (.cat (.cap none (.cat (.lit 'x') .eol)) .eol)⟩, ⟨chars! "^y$", .cat .bol (.cat (.lit 'y') .eol)⟩,
    ⟨chars! "^(x$)y$", .cat .bol (.cat (.cap none (.cat (.lit 'x') .eol)) (.cat (.lit 'y') .eol))⟩,
    fun s t h => by simp [hashMapProvider, h], rfl, rfl, rfl, fun U => ⟨?_, ?_, ?_⟩⟩
  · exact ⟨[], ['x'], [], [⟨1, 0, ['x']⟩], rfl, [], ['x'], [], _, rfl, rfl, ⟨rfl, rfl, rfl⟩, ['x'], [], [⟨1, 0, ['x']⟩], [], rfl, rfl,
      ⟨[], ⟨['x'], [], [], [], rfl, rfl, ⟨rfl, rfl⟩, rfl, rfl, rfl⟩, rfl⟩, rfl, rfl, rfl⟩
  · exact ⟨[], ['y'], [], [], rfl, [], ['y'], [], [], rfl, rfl, ⟨rfl, rfl, rfl⟩, ['y'], [], [], [], rfl, rfl, ⟨rfl, rfl⟩, rfl, rfl, rfl⟩
  · rintro ⟨pre, x, post, l, -, h⟩
    obtain ⟨_, _, _, _, -, -, -, _, _, _, _, -, -, ⟨_, ⟨_, _, _, _, -, -, -, h1, -⟩, -⟩, _, _, _, _, rfl, -, ⟨rfl, -⟩, -⟩ := h
    simp at h1

end

/-! ## Built-in parameters only -/

/-- No custom parameters. -/
def noCustom : Provider := fun _ => none

theorem byName_noCustom : ByName noCustom := fun _ _ _ => rfl

theorem regexWith_noCustom (src : List Char) : Expression.regexWithParameters (fun _ => none) noCustom src = Expression.regex src :=
  C30_fallback _ _ src fun _ _ _ _ => rfl

theorem sound_noCustom (U : Classes) {e : Expression} (hb : AllBuiltin e) : ∀ p ∈ params e, Sound (fun _ => none) U noCustom p :=
  fun p hp => hb p (mem_params.1 hp)

def someClasses : Classes := ⟨fun _ => False, fun _ => False, fun _ => False, fun _ _ => False, fun _ _ => False⟩

/-- C50: if no alternation stands at the seam, the regex of `a` followed by `b` matches exactly the texts of `a` followed by
texts of `b`, with the captures of both. -/
theorem C50_concat (a b : List Char) (x y : Expression) (ha : Expression.parse a = .ok x)
    (hb : Expression.parse b = .ok y) (hx : AllBuiltin x) (hy : AllBuiltin y) (ht : ¬ Touching x y) :
    ∃ ca cb c, Expression.regex a = .ok ca ∧ Expression.regex b = .ok cb ∧ Expression.regex (a ++ b) = .ok c ∧
      ∀ (U : Classes) (w : List Char) (l : List Cap), c.re.Finds U w [] w [] l ↔
        ∃ u v k m, w = u ++ v ∧ ca.re.Finds U u [] u [] k ∧ cb.re.Finds U v [] v [] m ∧
          l = k ++ m.map (Cap.shift ca.re.groups.length u.length) := by
  obtain ⟨z, hz⟩ := C50_accepted a b x y ha hb
  have hbz : AllBuiltin z := by
    obtain ⟨ca1, ra, -⟩ := C06_parse_then_print a x ha
    obtain ⟨cb1, rb, -⟩ := C06_parse_then_print b y hb
    obtain ⟨es, hces, hr, -, hnm, -⟩ := join ca1 cb1 (fun h => ht (touching_erase h))
    obtain ⟨cz, rz, -⟩ := C06_parse_then_print _ z hz
    have : erase z = es := C06_unambiguous _ _ cz hces (by rw [rz, hr, ra, rb])
    have e1 := sound_noCustom someClasses hx
    have e2 := sound_noCustom someClasses hy
    rw [eSound_erase _ _ byName_noCustom] at e1 e2
    have : ∀ p ∈ params z, Sound (fun _ => none) someClasses noCustom p := by
      rw [eSound_erase _ _ byName_noCustom, this]
      intro n hm
      exact (List.mem_append.1 (mem_namesOf.1 (hnm ▸ mem_namesOf.2 hm))).elim (e1 n) (e2 n)
    exact fun p hp => this p (mem_params.2 hp)
  refine ⟨_, _, _, regex_builtin ha hx, regex_builtin hb hy, regex_builtin hz hbz, fun U w l => ?_⟩
  exact C50_concat_custom (fun _ => none) U byName_noCustom a b x y ha hb (sound_noCustom U hx) (sound_noCustom U hy)
    (fun _ _ _ _ h => absurd h (by simp [noCustom])) (fun _ _ _ _ h => absurd h (by simp [noCustom])) ht _ _ _ ((regexWith_noCustom _).trans (regex_builtin ha hx))
    ((regexWith_noCustom _).trans (regex_builtin hb hy)) ((regexWith_noCustom _).trans (regex_builtin hz hbz)) w l

/-- Non-vacuity: the seam between `I have {int} cucumber` and `(s) {word}`. -/
example : ∃ x y, Expression.parse "I have {int} cucumber".toList = .ok x ∧ Expression.parse "(s) {word}".toList = .ok y ∧
    AllBuiltin x ∧ AllBuiltin y ∧ ¬ Touching x y := by
  refine ⟨_, _, rfl, rfl, ?_, ?_, ?_⟩
  · intro p hp
    simp at hp
    exact ⟨.int, by rw [hp]; rfl⟩
  · intro p hp
    simp at hp
    exact ⟨.word, by rw [hp]; rfl⟩
  · rintro ⟨a, b, ha, hb, -, -, h⟩
    simp at ha hb
    subst ha hb
    simp [SingleExpression.isAlternation] at h

/-- C50: with an alternation at the seam it may be otherwise: `a/b` followed by `c` does not match `ac`. -/
theorem C50_touching : ∃ c, Expression.regex "a/bc".toList = .ok c ∧ ∀ U : Classes, ¬ c.re.IsMatch U "ac".toList := by
  have hc := (C06_parse_then_print "a/bc".toList _ rfl).1
  have hr : Expression.regex "a/bc".toList = .ok _ := regex_builtin rfl (by simp [AllBuiltin])
  refine ⟨_, hr, fun U h => ?_⟩
  obtain ⟨pre, x, post, l, h⟩ := h
  obtain ⟨rfl, rfl, rfl⟩ := (C29_whole _ _ rfl (by simp [AllBuiltin]) _ hr).2 U _ _ _ _ _ h
  rw [((regex_render (fun _ => none) U byName_noCustom hc (fun n hm => by simp [erase, eraseSingle] at hm)).2 _
    ((regexWith_noCustom _).trans hr)).2] at h
  obtain ⟨x, y, k, m, hw, -, ⟨⟨b, hb, hx⟩, -⟩, rfl, -⟩ := h
  simp only [List.map_cons, List.map_nil, erasePiece, List.mem_cons, List.not_mem_nil, or_false, List.append_nil] at hb hw
  subst hw
  rcases hb with rfl | rfl <;>
    (obtain ⟨y, z, h1, h2, h3⟩ := hx
     simp only [Piece.Lang, piecesLang] at h2 h3
     subst h2 h3
     exact absurd h1 (by decide))

/-- C51: an optional means with or without. The expression with the optional matches exactly what the expression with the
text of the optional in its place matches, and what the expression without it matches, with the same captures. -/
theorem C51_optional (src : List Char) (e : Expression) (h : Expression.parse src = .ok e) (hb : AllBuiltin e)
    (l r : Expression) (o : Optional) (he : e = l ++ .optional o :: r) :
    ∃ c with' without, Expression.regex src = .ok c ∧ Expression.regex (print l ++ o.input.frag ++ print r) = .ok with' ∧
      Expression.regex (print l ++ print r) = .ok without ∧
      ∀ (U : Classes) (w : List Char) (k : List Cap), c.re.Finds U w [] w [] k ↔
        with'.re.Finds U w [] w [] k ∨ without.re.Finds U w [] w [] k := by
  have key := fun U => C51_optional_custom (fun _ => none) U byName_noCustom src e h (sound_noCustom U hb) _
    ((regexWith_noCustom _).trans (regex_builtin h hb)) l r o he
  simp only [regexWith_noCustom] at key
  obtain ⟨d, f, hd, hf, -⟩ := key someClasses
  refine ⟨_, d, f, regex_builtin h hb, hd, hf, fun U w k => ?_⟩
  obtain ⟨d', f', hd', hf', hk⟩ := key U
  cases hd.symm.trans hd'
  cases hf.symm.trans hf'
  exact hk w k

/-- C51 inside an alternation, if the text of the optional has no space (a space would end the alternation). -/
theorem C51_in_branch (src : List Char) (e : Expression) (h : Expression.parse src = .ok e) (hb : AllBuiltin e)
    (l r : Expression) (bl br : Alternation) (al ar : SingleAlternation) (o : Optional)
    (he : e = l ++ .alternation (bl ++ (al ++ .optional o :: ar) :: br) :: r) (hns : NoSpace o.input.frag) :
    ∃ c with' without, Expression.regex src = .ok c ∧
      Expression.regex (print (l ++ .alternation (bl ++ (al ++ .text o.input :: ar) :: br) :: r)) = .ok with' ∧
      Expression.regex (print (l ++ .alternation (bl ++ (al ++ ar) :: br) :: r)) = .ok without ∧
      ∀ (U : Classes) (w : List Char) (k : List Cap), c.re.Finds U w [] w [] k ↔
        with'.re.Finds U w [] w [] k ∨ without.re.Finds U w [] w [] k := by
  have key := fun U => C51_in_branch_custom (fun _ => none) U byName_noCustom src e h (sound_noCustom U hb) _
    ((regexWith_noCustom _).trans (regex_builtin h hb)) l r bl br al ar o he hns
  simp only [regexWith_noCustom] at key
  obtain ⟨d, f, hd, hf, -⟩ := key someClasses
  refine ⟨_, d, f, regex_builtin h hb, hd, hf, fun U w k => ?_⟩
  obtain ⟨d', f', hd', hf', hk⟩ := key U
  cases hd.symm.trans hd'
  cases hf.symm.trans hf'
  exact hk w k

/-- Non-vacuity: `cucumber(s)`, and `a(b)/c`. -/
example : ∃ o : Optional, Expression.parse "{int} cucumber(s) left".toList = .ok
    ([.parameter ⟨⟨1, 1, "int".toList⟩, 0⟩, .whitespaces ⟨5, 1, " ".toList⟩, .text ⟨6, 1, "cucumber".toList⟩] ++
      .optional o :: [.whitespaces ⟨17, 1, " ".toList⟩, .text ⟨18, 1, "left".toList⟩]) := ⟨⟨⟨15, 1, "s".toList⟩⟩, rfl⟩
example : ∃ o : Optional, Expression.parse "a(b)/c".toList = .ok
    ([] ++ .alternation ([] ++ ([.text ⟨0, 1, "a".toList⟩] ++ .optional o :: []) :: [[.text ⟨5, 1, "c".toList⟩]]) :: []) ∧
    NoSpace o.input.frag := ⟨⟨⟨2, 1, "b".toList⟩⟩, rfl, .char _ _ (by decide) (by decide) .nil⟩

/-- C52: an alternation means any of its branches: the expression matches exactly what the expressions with one of the
branches in its place match, with the same captures. -/
theorem C52_alternation (src : List Char) (e : Expression) (h : Expression.parse src = .ok e) (hb : AllBuiltin e)
    (l r : Expression) (a : Alternation) (he : e = l ++ .alternation a :: r) :
    ∃ c, Expression.regex src = .ok c ∧
      (∀ b ∈ a, ∃ cb, Expression.regex (print l ++ printBranch b ++ print r) = .ok cb) ∧
      ∀ (U : Classes) (w : List Char) (k : List Cap), c.re.Finds U w [] w [] k ↔
        ∃ b ∈ a, ∃ cb, Expression.regex (print l ++ printBranch b ++ print r) = .ok cb ∧ cb.re.Finds U w [] w [] k := by
  have key := fun U => C52_alternation_custom (fun _ => none) U byName_noCustom src e h (sound_noCustom U hb) _
    ((regexWith_noCustom _).trans (regex_builtin h hb)) l r a he
  simp only [regexWith_noCustom] at key
  exact ⟨_, regex_builtin h hb, (key someClasses).1, fun U => (key U).2⟩

/-- C52: the order and multiplicity of the branches do not matter for what is matched and captured. -/
theorem C52_order (src src' : List Char) (e e' : Expression) (h : Expression.parse src = .ok e) (h' : Expression.parse src' = .ok e')
    (hb : AllBuiltin e) (l r l' r' : Expression) (a a' : Alternation) (he : e = l ++ .alternation a :: r)
    (he' : e' = l' ++ .alternation a' :: r') (hl : print l = print l') (hr : print r = print r')
    (ha : ∀ t, t ∈ a.map printBranch ↔ t ∈ a'.map printBranch) :
    ∃ c c', Expression.regex src = .ok c ∧ Expression.regex src' = .ok c' ∧
      ∀ (U : Classes) (w : List Char) (k : List Cap), c.re.Finds U w [] w [] k ↔ c'.re.Finds U w [] w [] k := by
  have key := fun U => C52_order_custom (fun _ => none) U byName_noCustom src src' e e' h h' (sound_noCustom U hb) _
    ((regexWith_noCustom _).trans (regex_builtin h hb)) l r l' r' a a' he he' hl hr ha
  simp only [regexWith_noCustom] at key
  obtain ⟨c', hc', -⟩ := key someClasses
  refine ⟨_, c', regex_builtin h hb, hc', fun U w k => ?_⟩
  obtain ⟨d', hd', hk⟩ := key U
  cases hc'.symm.trans hd'
  exact hk w k

/-- Non-vacuity: `{int} b/a(c)/a(c)` and `{int} a(c)/b`. -/
example : ∃ a a' : Alternation,
    Expression.parse "{int} b/a(c)/a(c)".toList = .ok ([.parameter ⟨⟨1, 1, "int".toList⟩, 0⟩, .whitespaces ⟨5, 1, " ".toList⟩] ++
      .alternation a :: []) ∧
    Expression.parse "{int} a(c)/b".toList = .ok ([.parameter ⟨⟨1, 1, "int".toList⟩, 0⟩, .whitespaces ⟨5, 1, " ".toList⟩] ++
      .alternation a' :: []) ∧ ∀ t, t ∈ a.map printBranch ↔ t ∈ a'.map printBranch :=
  ⟨_, _, rfl, rfl, by
    intro t
    simp only [printBranch, List.map_cons, List.map_nil, List.flatMap_cons, List.flatMap_nil, printAlternative,
      List.mem_cons, List.not_mem_nil, or_false, List.append_nil]
    constructor
    · rintro (h | h | h)
      · exact .inr h
      · exact .inl h
      · exact .inl h
    · rintro (h | h)
      · exact .inr (.inl h)
      · exact .inl h⟩

end CE
