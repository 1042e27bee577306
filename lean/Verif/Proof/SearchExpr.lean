import Verif.Proof.SearchBuiltin
import Verif.Prop.Expand

/-! # The order in which the matches of an expression are tried -/

namespace CE
open Spec Regex

variable {T : Tests}

/-! ## Concatenation and alternation -/

theorem andThen_nil (f : List Char → List Try) : andThen [([], [])] f = f [] := by simp [andThen]

theorem andThen_done (L : List Try) : andThen L (fun _ => [([], [])]) = L := by simp [andThen]

theorem andThen_assoc (L : List Try) (f h : List Char → List Try) :
    andThen (andThen L f) h = andThen L (fun x => andThen (f x) (fun y => h (x ++ y))) := by
  simp [andThen, List.flatMap_assoc, List.flatMap_map, List.map_flatMap, Function.comp_def]

theorem tries_catL_cons (r : Re) (rs : List Re) (g : Nat) (pre rest : List Char) :
    (catL (r :: rs)).tries T g pre rest = andThen (r.tries T g pre rest) fun x =>
      (catL rs).tries T (g + r.groups.length) (pre ++ x) (rest.drop x.length) := by
  cases rs with
  | nil => simp only [catL, Re.tries]; rw [andThen_done]
  | cons s rs => rfl

theorem tries_catL_append (rs qs : List Re) (g : Nat) (pre rest : List Char) :
    (catL (rs ++ qs)).tries T g pre rest = andThen ((catL rs).tries T g pre rest) fun x =>
      (catL qs).tries T (g + (catL rs).groups.length) (pre ++ x) (rest.drop x.length) := by
  induction rs generalizing g pre rest with
  | nil => simp [catL, Re.tries, andThen_nil, Re.groups]
  | cons r rs ih =>
    rw [List.cons_append, tries_catL_cons, tries_catL_cons, andThen_assoc]
    have hg : (catL (r :: rs)).groups.length = r.groups.length + (catL rs).groups.length := by simp [groups_catL]
    simp only [ih, hg, List.append_assoc, List.length_append, List.drop_drop, Nat.add_assoc]

/-- A literal text. -/
def litTries (u rest : List Char) : List (List Char) := if u.isPrefixOf rest then [u] else []

theorem mem_litTries {u rest x : List Char} : x ∈ litTries u rest ↔ x = u ∧ ∃ post, rest = x ++ post := by
  unfold litTries
  by_cases h : u.isPrefixOf rest = true
  · rw [if_pos h, List.mem_singleton]
    obtain ⟨post, hp⟩ := List.isPrefixOf_iff_prefix.1 h
    exact ⟨fun hx => ⟨hx, post, by rw [hx, hp]⟩, fun hx => hx.1⟩
  · rw [if_neg h]
    simp only [List.not_mem_nil, false_iff]
    rintro ⟨rfl, post, hp⟩
    exact h (List.isPrefixOf_iff_prefix.2 ⟨post, hp.symm⟩)

theorem tries_lits (u : List Char) (g : Nat) (pre rest : List Char) :
    (catL (u.map .lit)).tries T g pre rest = (litTries u rest).map fun x => (x, []) := by
  induction u generalizing pre rest g with
  | nil => simp [catL, Re.tries, litTries]
  | cons c u ih =>
    rw [List.map_cons, tries_catL_cons]
    cases rest with
    | nil => simp [Re.tries, oneChar, andThen, litTries]
    | cons d rest =>
      simp only [Re.tries, oneChar, ih, litTries, List.isPrefixOf_cons_cons]
      by_cases h : d = c
      · subst h
        by_cases hp : u.isPrefixOf rest = true <;> simp [-List.isPrefixOf_iff_prefix, andThen, hp]
      · have : (c == d) = false := by simp [Ne.symm h]
        simp [andThen, h, this]

theorem tries_altL (rs : List Re) (hne : rs ≠ []) (hg : ∀ r ∈ rs, r.groups = []) (g : Nat) (pre rest : List Char) :
    (altL rs).tries T g pre rest = rs.flatMap fun r => r.tries T g pre rest := by
  induction rs with
  | nil => exact absurd rfl hne
  | cons r rs ih =>
    cases rs with
    | nil => simp [altL]
    | cons s rs =>
      have h1 : (altL (r :: s :: rs)).tries T g pre rest =
          r.tries T g pre rest ++ (altL (s :: rs)).tries T (g + r.groups.length) pre rest := rfl
      rw [h1, hg r (by simp), List.length_nil, Nat.add_zero, ih (by simp) (fun q hq => hg q (by simp [hq]))]
      rfl

/-! ## Elements, with choices -/

/-- Optionals of the expression are not empty. -/
def FullAlternative : Alternative → Prop
  | .optional o => unescape o.input.frag ≠ []
  | _ => True

def FullElem : SingleExpression → Prop
  | .optional o => unescape o.input.frag ≠ []
  | .alternation a => a ≠ [] ∧ ∀ b ∈ a, ∀ q ∈ b, FullAlternative q
  | .whitespaces t => unescape t.frag = t.frag
  | _ => True

/-- An optional text. -/
def optTries (u rest : List Char) : List (Bool × List Char) := (litTries u rest).map (true, ·) ++ [(false, [])]

theorem mem_optTries {u rest x : List Char} {b : Bool} :
    (b, x) ∈ optTries u rest ↔ x = (if b then u else []) ∧ ∃ post, rest = x ++ post := by
  unfold optTries
  rw [List.mem_append, List.mem_map]
  constructor
  · rintro (⟨y, hy, h⟩ | h)
    · simp only [Prod.mk.injEq] at h
      obtain ⟨rfl, rfl⟩ := h
      exact mem_litTries.1 hy
    · simp only [List.mem_singleton, Prod.mk.injEq] at h
      obtain ⟨rfl, rfl⟩ := h
      exact ⟨rfl, rest, rfl⟩
  · rintro ⟨h, hp⟩
    cases b with
    | true => exact .inl ⟨x, mem_litTries.2 ⟨h, hp⟩, rfl⟩
    | false => exact .inr (by simp [h])

theorem tries_opt {u : List Char} (hu : u ≠ []) (g : Nat) (pre rest : List Char) :
    (Re.rep (catL (u.map .lit)) 0 (some 1) true).tries T g pre rest = (optTries u rest).map fun a => (a.2, []) := by
  have hs : ∀ v : List Char, (catL (v.map Re.lit)).solid = true := by
    intro v
    induction v with
    | nil => rfl
    | cons c v ih => cases v with
      | nil => rfl
      | cons d v => simpa [catL, Re.solid] using ih
  have hn : ∀ v : List Char, v ≠ [] → (catL (v.map Re.lit)).nonEmpty = true := by
    intro v hv
    cases v with
    | nil => exact absurd rfl hv
    | cons c v => cases v with
      | nil => rfl
      | cons d v => simp [catL, Re.nonEmpty]
  rw [tries_quest (hs u) (hn u hu), tries_lits]
  simp [optTries, Function.comp_def]

def branchTries : SingleAlternation → List Char → List (List Bool × List Char)
  | [], _ => [([], [])]
  | .text t :: as, rest => (litTries (unescape t.frag) rest).flatMap fun x =>
    (branchTries as (rest.drop x.length)).map fun b => (b.1, x ++ b.2)
  | .optional o :: as, rest => (optTries (unescape o.input.frag) rest).flatMap fun a =>
    (branchTries as (rest.drop a.2.length)).map fun b => (a.1 :: b.1, a.2 ++ b.2)

theorem tries_branch (b : SingleAlternation) (hb : ∀ q ∈ b, FullAlternative q) (g : Nat) (pre rest : List Char) :
    (catL (branchItems b)).tries T g pre rest = (branchTries b rest).map fun a => (a.2, []) := by
  induction b generalizing g pre rest with
  | nil => rfl
  | cons a as ih =>
    have ih := fun g pre rest => ih (fun q hq => hb q (by simp [hq])) g pre rest
    have hi : branchItems (a :: as) = altItems a ++ branchItems as := rfl
    rw [hi, tries_catL_append]
    simp only [ih]
    cases a with
    | text t => simp [altItems, tries_lits, branchTries, andThen, List.flatMap_map, List.map_flatMap, Function.comp_def]
    | optional o =>
      have ho : unescape o.input.frag ≠ [] := hb (.optional o) (by simp)
      simp [altItems, catL, tries_opt ho, branchTries, andThen, List.flatMap_map, List.map_flatMap, Function.comp_def]

theorem mem_branchTries (b : SingleAlternation) (rest : List Char) (s : List Bool) (x : List Char) :
    (s, x) ∈ branchTries b rest ↔ BranchFits b s x ∧ ∃ post, rest = x ++ post := by
  induction b generalizing rest s x with
  | nil =>
    cases s with
    | nil =>
      simp only [branchTries, BranchFits, List.mem_singleton, Prod.mk.injEq, true_and]
      exact ⟨fun h => ⟨h, rest, by simp [h]⟩, fun h => h.1⟩
    | cons b s => simp [branchTries, BranchFits]
  | cons a as ih =>
    cases a with
    | text t =>
      simp only [branchTries, BranchFits, List.mem_flatMap, List.mem_map, Prod.exists, Prod.mk.injEq]
      constructor
      · rintro ⟨y, hy, s', z, hz, rfl, rfl⟩
        obtain ⟨rfl, post, rfl⟩ := mem_litTries.1 hy
        rw [List.drop_left] at hz
        obtain ⟨h1, post', rfl⟩ := (ih _ _ _).1 hz
        exact ⟨⟨z, rfl, h1⟩, post', by simp⟩
      · rintro ⟨⟨z, rfl, h1⟩, post, rfl⟩
        refine ⟨_, mem_litTries.2 ⟨rfl, z ++ post, by simp⟩, s, z, ?_, rfl, rfl⟩
        rw [List.append_assoc, List.drop_left]
        exact (ih _ _ _).2 ⟨h1, post, rfl⟩
    | optional o =>
      cases s with
      | nil => simp [branchTries, BranchFits]
      | cons b s =>
        simp only [branchTries, BranchFits, List.mem_flatMap, List.mem_map, Prod.exists, Prod.mk.injEq, List.cons.injEq]
        constructor
        · rintro ⟨b', y, hy, s', z, hz, ⟨rfl, rfl⟩, rfl⟩
          obtain ⟨rfl, post, rfl⟩ := mem_optTries.1 hy
          rw [List.drop_left] at hz
          obtain ⟨h1, post', rfl⟩ := (ih _ _ _).1 hz
          exact ⟨⟨z, rfl, h1⟩, post', by simp⟩
        · rintro ⟨⟨z, rfl, h1⟩, post, rfl⟩
          refine ⟨b, _, mem_optTries.2 ⟨rfl, z ++ post, by simp⟩, s, z, ?_, ⟨rfl, rfl⟩, rfl⟩
          rw [List.append_assoc, List.drop_left]
          exact (ih _ _ _).2 ⟨h1, post, rfl⟩

theorem sorts_litTries {B : List Char → List Char → Prop} (u rest : List Char) : Sorts B (litTries u rest) :=
  .of_eq fun _ ha _ hb => (mem_litTries.1 ha).1.trans (mem_litTries.1 hb).1.symm

theorem sorts_optTries (u rest : List Char) :
    Sorts (fun a b : Bool × List Char => a.1 = true ∧ b.1 = false) (optTries u rest) := by
  refine .append ((sorts_litTries (B := fun _ _ => False) u rest).map fun _ _ _ _ h => h.elim) (.single _) ?_
  intro a ha b hb
  obtain ⟨x, -, rfl⟩ := List.mem_map.1 ha
  rw [List.mem_singleton.1 hb]
  exact .inr ⟨rfl, rfl⟩

theorem sorts_branchTries (b : SingleAlternation) (rest : List Char) :
    Sorts (fun a c : List Bool × List Char => TakenBefore a.1 c.1) (branchTries b rest) := by
  induction b generalizing rest with
  | nil => exact .single _
  | cons a as ih =>
    cases a with
    | text t =>
      exact Sorts.flatMap (B1 := fun _ _ => False) (B2 := fun _ a c => TakenBefore a.1 c.1) (sorts_litTries _ _)
        (fun _ _ => ih _) (fun _ _ _ _ h => h.elim) (fun _ _ _ _ _ _ h => h)
    | optional o =>
      refine Sorts.flatMap (B1 := fun a b : Bool × List Char => a.1 = true ∧ b.1 = false)
        (B2 := fun _ a c => TakenBefore a.1 c.1) (sorts_optTries _ _) (fun _ _ => ih _) ?_ ?_
      · rintro ⟨a, x⟩ _ ⟨b, y⟩ _ ⟨h1, h2⟩ s _ t _
        simp only at h1 h2
        subst h1 h2
        exact .here _ _
      · intro a _ x _ y _ h
        exact .there _ _ _ h

abbrev CTry := Choice × Try

def elemTries (T : Tests) : SingleExpression → (g : Nat) → (pre rest : List Char) → List CTry
  | .text t, _, _, rest => (litTries (unescape t.frag) rest).map fun x => (.plain, x, [])
  | .whitespaces t, _, _, rest => (litTries t.frag rest).map fun x => (.plain, x, [])
  | .optional o, _, _, rest => (optTries (unescape o.input.frag) rest).map fun a => (.opt a.1, a.2, [])
  | .alternation a, _, _, rest => a.zipIdx.flatMap fun b => (branchTries b.1 rest).map fun s => (.branch b.2 s.1, s.2, [])
  | .parameter p, g, pre, rest => ((bRe p).tries T g pre rest).map fun a => (.arg a.1, a)

theorem tries_elem (e : SingleExpression) (he : FullElem e) (g : Nat) (pre rest : List Char) :
    (catL (elemItems bRe e)).tries T g pre rest = (elemTries T e g pre rest).map (·.2) := by
  cases e with
  | text t => simp [elemItems, elemTries, tries_lits]
  | whitespaces t =>
    have : unescape t.frag = t.frag := he
    simp [elemItems, elemTries, tries_lits, this]
  | optional o => simp [elemItems, altItems, catL, elemTries, tries_opt (u := unescape o.input.frag) he]
  | parameter p => simp [elemItems, elemTries, catL, Function.comp_def]
  | alternation a =>
    have h := tries_altL (T := T) (a.map fun b => catL (branchItems b)) (by simpa using he.1) (by
      intro r hr
      obtain ⟨b, -, rfl⟩ := List.mem_map.1 hr
      exact groups_branch b) g pre rest
    simp only [elemItems, catL, h, elemTries, List.map_flatMap, List.flatMap_map, List.map_map, Function.comp_def]
    have h2 : ∀ k, (a.zipIdx k).flatMap (fun b => (branchTries b.1 rest).map fun s => (s.2, ([] : List Cap))) =
        a.flatMap fun b => (catL (branchItems b)).tries T g pre rest := by
      have hf := he.2
      clear h he
      induction a with
      | nil => intro k; rfl
      | cons b a ih =>
        intro k
        rw [List.zipIdx_cons, List.flatMap_cons, List.flatMap_cons, ih (fun c hc => hf c (by simp [hc])),
          tries_branch b (hf b (by simp))]
    exact (h2 0).symm

theorem mem_elemTries (e : SingleExpression) (hb : ∀ p, e = .parameter p → IsBuiltin p) (g : Nat) (pre rest : List Char)
    (c : Choice) (x : List Char) (l : List Cap) : (c, x, l) ∈ elemTries T e g pre rest ↔
      e.Fits T.classes g pre.length c x l ∧ ∃ post, rest = x ++ post := by
  cases e with
  | text t =>
    simp only [elemTries, List.mem_map, Prod.mk.injEq, mem_litTries]
    constructor
    · rintro ⟨y, ⟨rfl, hp⟩, rfl, rfl, rfl⟩; exact ⟨⟨rfl, rfl⟩, hp⟩
    · rintro ⟨h, hp⟩
      cases c <;> simp only [SingleExpression.Fits] at h
      exact ⟨x, ⟨h.1, hp⟩, rfl, rfl, h.2.symm⟩
  | whitespaces t =>
    simp only [elemTries, List.mem_map, Prod.mk.injEq, mem_litTries]
    constructor
    · rintro ⟨y, ⟨rfl, hp⟩, rfl, rfl, rfl⟩; exact ⟨⟨rfl, rfl⟩, hp⟩
    · rintro ⟨h, hp⟩
      cases c <;> simp only [SingleExpression.Fits] at h
      exact ⟨x, ⟨h.1, hp⟩, rfl, rfl, h.2.symm⟩
  | optional o =>
    simp only [elemTries, List.mem_map, Prod.mk.injEq, Prod.exists, mem_optTries]
    constructor
    · rintro ⟨b, y, ⟨h, hp⟩, rfl, rfl, rfl⟩; exact ⟨⟨h, rfl⟩, hp⟩
    · rintro ⟨h, hp⟩
      cases c <;> simp only [SingleExpression.Fits] at h
      exact ⟨_, x, ⟨h.1, hp⟩, rfl, rfl, h.2.symm⟩
  | alternation a =>
    simp only [elemTries, List.mem_flatMap, List.mem_map, Prod.mk.injEq, Prod.exists, mem_branchTries,
      List.mk_mem_zipIdx_iff_getElem?]
    constructor
    · rintro ⟨b, i, hi, s, y, ⟨h, hp⟩, rfl, rfl, rfl⟩; exact ⟨⟨⟨b, hi, h⟩, rfl⟩, hp⟩
    · rintro ⟨h, hp⟩
      cases c <;> simp only [SingleExpression.Fits] at h
      obtain ⟨⟨b, hi, h⟩, rfl⟩ := h
      exact ⟨b, _, hi, _, x, ⟨h, hp⟩, rfl, rfl, rfl⟩
  | parameter p =>
    obtain ⟨b, hn⟩ := hb p rfl
    have hs : (builtinRe b p.id).solid = true := by cases b <;> rfl
    simp only [elemTries, List.mem_map, Prod.mk.injEq, Prod.exists, bRe_named hn, mem_tries _ hs, match_builtin]
    constructor
    · rintro ⟨y, m, ⟨post, hp, h⟩, rfl, rfl, rfl⟩
      exact ⟨⟨rfl, b, hn, h⟩, post, hp⟩
    · rintro ⟨h, post, hp⟩
      cases c <;> simp only [SingleExpression.Fits] at h
      obtain ⟨rfl, b', hn', h⟩ := h
      obtain rfl := name_inj (hn.symm.trans hn')
      exact ⟨x, l, ⟨post, hp, h⟩, rfl, rfl, rfl⟩

theorem Sorts.zipIdx {α : Type} (a : List α) (k : Nat) : Sorts (fun x y : α × Nat => x.2 < y.2) (a.zipIdx k) := by
  induction a generalizing k with
  | nil => exact .nil
  | cons x a ih =>
    rw [List.zipIdx_cons]
    refine Sorts.append (L := [(x, k)]) (.single _) (ih _) ?_
    rintro y hy ⟨z, j⟩ hz
    rw [List.mem_singleton.1 hy]
    have := (List.mem_zipIdx hz).1
    exact .inr (by simp only; omega)

theorem sorts_elem (hs : SaneDigits T.classes) (e : SingleExpression) (hb : ∀ p, e = .parameter p → IsBuiltin p)
    (g : Nat) (pre rest : List Char) :
    Sorts (fun a b : CTry => e.Before T.classes a.1 b.1) (elemTries T e g pre rest) := by
  cases e with
  | text t => exact (sorts_litTries (B := fun _ _ => False) _ _).map fun _ _ _ _ h => h.elim
  | whitespaces t => exact (sorts_litTries (B := fun _ _ => False) _ _).map fun _ _ _ _ h => h.elim
  | optional o => exact (sorts_optTries _ _).map fun _ _ _ _ h => h
  | alternation a =>
    exact Sorts.flatMap (B1 := fun x y => x.2 < y.2) (B2 := fun _ a c => TakenBefore a.1 c.1) (Sorts.zipIdx a 0)
      (fun _ _ => sorts_branchTries _ _) (fun _ _ _ _ h _ _ _ _ => .inl h) (fun _ _ _ _ _ _ h => .inr ⟨rfl, h⟩)
  | parameter p =>
    obtain ⟨b, hn⟩ := hb p rfl
    simp only [elemTries, bRe_named hn]
    exact (sorts_builtin hs b _ _ _ _).map fun _ _ _ _ h => ⟨b, hn, h⟩

/-! ## Expressions -/

def seqTries (T : Tests) : Expression → (g : Nat) → (pre rest : List Char) → List (List Choice × Try)
  | [], _, _, _ => [([], [], [])]
  | e :: es, g, pre, rest => (elemTries T e g pre rest).flatMap fun a =>
    (seqTries T es (g + e.groupCount) (pre ++ a.2.1) (rest.drop a.2.1.length)).map fun b =>
      (a.1 :: b.1, a.2.1 ++ b.2.1, a.2.2 ++ b.2.2)

theorem groupCount_items (e : SingleExpression) (hb : ∀ p, e = .parameter p → IsBuiltin p) :
    (catL (elemItems bRe e)).groups.length = e.groupCount := by
  cases e with
  | text t => rw [groups_catL]; simp only [elemItems, groups_lits]; rfl
  | whitespaces t => rw [groups_catL]; simp only [elemItems, groups_lits]; rfl
  | optional o => rw [groups_catL]; simp only [elemItems, groups_alt]; rfl
  | alternation a =>
    rw [groups_catL]
    simp only [elemItems, List.map_cons, List.map_nil, List.flatten_cons, List.flatten_nil, List.append_nil, groups_altL,
      SingleExpression.groupCount, List.map_map]
    rw [List.length_eq_zero_iff, List.flatten_eq_nil_iff]
    intro l hl
    obtain ⟨b, -, rfl⟩ := List.mem_map.1 hl
    exact groups_branch b
  | parameter p =>
    obtain ⟨b, hn⟩ := hb p rfl
    simp only [elemItems, catL, bRe_named hn, groups_builtin, SingleExpression.groupCount, hn]
    by_cases h : b = .string
    · simp [h]
    · rw [if_neg h, if_neg fun h' => h (name_inj h')]; rfl

theorem tries_seq (e : Expression) (he : ∀ x ∈ e, FullElem x) (hb : AllBuiltin e) (g : Nat) (pre rest : List Char) :
    (catL (e.map (elemItems bRe)).flatten).tries T g pre rest = (seqTries T e g pre rest).map (·.2) := by
  induction e generalizing g pre rest with
  | nil => rfl
  | cons x e ih =>
    rw [List.map_cons, List.flatten_cons, tries_catL_append, tries_elem x (he x (by simp)),
      groupCount_items x (fun p hp => hb p (by simp [hp]))]
    simp only [ih (fun y hy => he y (by simp [hy])) (fun p hp => hb p (by simp [hp])), seqTries, andThen, List.flatMap_map,
      List.map_flatMap, List.map_map, Function.comp_def]

theorem mem_seqTries (e : Expression) (hb : AllBuiltin e) (g : Nat) (pre rest : List Char) (cs : List Choice)
    (x : List Char) (l : List Cap) : (cs, x, l) ∈ seqTries T e g pre rest ↔
      Fits T.classes e g pre.length cs x l ∧ ∃ post, rest = x ++ post := by
  induction e generalizing g pre rest cs x l with
  | nil =>
    simp only [seqTries, List.mem_singleton, Prod.mk.injEq]
    constructor
    · rintro ⟨rfl, rfl, rfl⟩; exact ⟨.nil _ _, rest, rfl⟩
    · rintro ⟨h, -⟩; cases h; exact ⟨rfl, rfl, rfl⟩
  | cons e es ih =>
    have ih := ih (fun p hp => hb p (by simp [hp]))
    simp only [seqTries, List.mem_flatMap, List.mem_map, Prod.exists, Prod.mk.injEq]
    constructor
    · rintro ⟨c, y, k, h1, ds, z, m, h2, rfl, rfl, rfl⟩
      obtain ⟨h1', post, rfl⟩ := (mem_elemTries e (fun p hp => hb p (by simp [hp])) _ _ _ _ _ _).1 h1
      rw [List.drop_left] at h2
      obtain ⟨h3, post', rfl⟩ := (ih _ _ _ _ _ _).1 h2
      rw [List.length_append] at h3
      exact ⟨.cons _ _ _ _ _ _ _ _ _ _ h1' h3, post', by simp⟩
    · rintro ⟨h, post, rfl⟩
      cases h with
      | cons _ _ _ _ c cs y z k m h1 h2 =>
        refine ⟨c, y, k, (mem_elemTries e (fun p hp => hb p (by simp [hp])) _ _ _ _ _ _).2 ⟨h1, z ++ post, by simp⟩,
          cs, z, m, (ih _ _ _ _ _ _).2 ⟨by rw [List.length_append]; exact h2, post, ?_⟩, rfl, rfl, rfl⟩
        rw [List.append_assoc, List.drop_left]

theorem sorts_seq (hs : SaneDigits T.classes) (e : Expression) (hb : AllBuiltin e) (g : Nat) (pre rest : List Char) :
    Sorts (fun a b : List Choice × Try => Preferred T.classes e a.1 b.1) (seqTries T e g pre rest) := by
  induction e generalizing g pre rest with
  | nil => exact .single _
  | cons e es ih =>
    exact Sorts.flatMap (B1 := fun a b : CTry => e.Before T.classes a.1 b.1)
      (B2 := fun _ (a b : List Choice × Try) => Preferred T.classes es a.1 b.1)
      (sorts_elem hs e (fun p hp => hb p (by simp [hp])) _ _ _) (fun _ _ => ih (fun p hp => hb p (by simp [hp])) _ _ _)
      (fun _ _ _ _ h _ _ _ _ => .here _ _ _ _ _ _ h) (fun _ _ _ _ _ _ h => .there _ _ _ _ _ h)

/-! ## The whole regex -/

theorem tries_expr (e : Expression) (he : ∀ x ∈ e, FullElem x) (hb : AllBuiltin e) (w : List Char) :
    (exprRe bRe e).tries T 1 [] w = ((seqTries T e 1 [] w).filter fun a => (w.drop a.2.1.length).isEmpty).map (·.2) := by
  have : exprRe bRe e = catL (.bol :: ((e.map (elemItems bRe)).flatten ++ [.eol])) := rfl
  rw [this, tries_catL_cons]
  simp only [Re.tries, List.isEmpty_nil, if_true, andThen_nil, Re.groups, List.length_nil, Nat.add_zero, List.nil_append,
    List.drop_zero]
  rw [tries_catL_append, tries_seq e he hb]
  simp only [catL, Re.tries]
  generalize seqTries T e 1 [] w = L
  induction L with
  | nil => rfl
  | cons a L ih =>
    simp only [andThen] at ih
    rw [List.map_cons, andThen, List.flatMap_cons, ih, List.filter_cons]
    by_cases h : (w.drop a.2.1.length).isEmpty = true <;> simp [h]

theorem tries_later (e : Expression) {pre : List Char} (hp : pre ≠ []) (rest : List Char) :
    (exprRe bRe e).tries T 1 pre rest = [] := by
  have : exprRe bRe e = catL (.bol :: ((e.map (elemItems bRe)).flatten ++ [.eol])) := rfl
  rw [this, tries_catL_cons]
  simp [Re.tries, hp, andThen]

theorem find_expr (e : Expression) (he : ∀ x ∈ e, FullElem x) (hb : AllBuiltin e) (w : List Char) :
    (exprRe bRe e).find T w =
      ((seqTries T e 1 [] w).find? fun a => (w.drop a.2.1.length).isEmpty).map fun a => (0, a.2) := by
  unfold Re.find
  rw [List.range_succ_eq_map, List.findSome?_cons]
  have h0 : ((exprRe bRe e).tries T 1 (w.take 0) (w.drop 0)).head? =
      ((seqTries T e 1 [] w).find? fun a => (w.drop a.2.1.length).isEmpty).map (·.2) := by
    rw [List.take_zero, List.drop_zero, tries_expr e he hb, List.head?_map, List.head?_filter]
  rw [h0]
  cases hf : (seqTries T e 1 [] w).find? fun a => (w.drop a.2.1.length).isEmpty with
  | some a => rfl
  | none =>
    simp only [Option.map_none]
    rw [List.findSome?_eq_none_iff]
    intro i hi
    obtain ⟨j, hj, rfl⟩ := List.mem_map.1 hi
    have hj := List.mem_range.1 hj
    rw [tries_later]
    · rfl
    · intro hn
      have := congrArg List.length hn
      rw [List.length_take, List.length_nil] at this
      omega

end CE
