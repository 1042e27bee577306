import Verif.Proof.ExprAst

/-! # The order in which the branches of an alternation are tried after translation into the HIR -/

namespace CE
open Spec Regex Hir

/-! ## The HIR of a branch -/

def partHir : Bool × List Char → Hir
  | (false, u) => .literal u
  | (true, u) => .repetition 0 (some 1) true (.literal u)

theorem partHir_inj {a b : Bool × List Char} (h : partHir a = partHir b) : a = b := by
  obtain ⟨a, u⟩ := a
  obtain ⟨b, v⟩ := b
  cases a <;> cases b <;> simp [partHir] at h <;> simp [h]

def branchHirs (b : SingleAlternation) : List Hir := b.map fun q => partHir q.part

/-- No two texts next to each other. -/
def Sep (hs : List Hir) : Prop := ∀ l a b r, hs ≠ l ++ .literal a :: .literal b :: r

theorem Sep.tail {h : Hir} {hs : List Hir} (hh : Sep (h :: hs)) : Sep hs := fun l a b r he => hh (h :: l) a b r (by rw [he]; rfl)

theorem Sep.drop {hs : List Hir} (h : Sep hs) (n : Nat) : Sep (hs.drop n) := fun l a b r he =>
  h (hs.take n ++ l) a b r (by rw [List.append_assoc, ← he, List.take_append_drop])

theorem joinLits_sep : ∀ {hs : List Hir}, Sep hs → joinLits hs = hs
  | [], _ => rfl
  | h :: hs, hh => by
    rw [joinLits.eq_def]
    simp only []
    rw [joinLits_sep hh.tail]
    split
    · rename_i a b r
      exact absurd rfl (hh [] _ _ _)
    · rfl

/-- A literal or a repetition. -/
def PlainHir (h : Hir) : Prop := (∃ cs, h = .literal cs) ∨ ∃ m n g k, h = .repetition m n g k

theorem flatConcat_plain : ∀ {hs : List Hir}, (∀ h ∈ hs, PlainHir h) → flatConcat hs = hs
  | [], _ => rfl
  | h :: hs, hh => by
    have ih := flatConcat_plain fun k hk => hh k (List.mem_cons_of_mem _ hk)
    rcases hh h (by simp) with ⟨cs, rfl⟩ | ⟨m, n, g, k, rfl⟩ <;> rw [flatConcat, ih] <;> simp

theorem plain_partHir (p : Bool × List Char) : PlainHir (partHir p) := by
  obtain ⟨b, u⟩ := p
  cases b
  · exact .inl ⟨_, rfl⟩
  · exact .inr ⟨_, _, _, _, rfl⟩

theorem plain_branch (b : SingleAlternation) : ∀ h ∈ branchHirs b, PlainHir h := by
  intro h hh
  obtain ⟨q, -, rfl⟩ := List.mem_map.1 hh
  exact plain_partHir _

theorem mkConcat_plain {hs : List Hir} (h : ∀ h ∈ hs, PlainHir h) (hs' : Sep hs) :
    hs = [] ∧ mkConcat hs = .empty ∨ (∃ k, hs = [k] ∧ mkConcat hs = k) ∨ 2 ≤ hs.length ∧ mkConcat hs = .concat hs := by
  rw [mkConcat, flatConcat_plain h, joinLits_sep hs']
  match hs with
  | [] => exact .inl ⟨rfl, rfl⟩
  | [k] => exact .inr (.inl ⟨k, rfl, rfl⟩)
  | _ :: _ :: _ => exact .inr (.inr ⟨by simp, rfl⟩)

theorem joinLits_append_lit (a b : List Char) (hs : List Hir) :
    joinLits (.literal a :: .literal b :: hs) = joinLits (.literal (a ++ b) :: hs) := by
  rw [joinLits.eq_def, joinLits.eq_def (.literal (a ++ b) :: hs)]
  simp only []
  rw [joinLits.eq_def (.literal b :: hs)]
  simp only []
  cases h : joinLits hs with
  | nil => rfl
  | cons k ks => cases k <;> simp

theorem joinLits_congr {a : Hir} {hs ks : List Hir} (h : joinLits hs = joinLits ks) : joinLits (a :: hs) = joinLits (a :: ks) := by
  rw [joinLits.eq_def, joinLits.eq_def]; simp only [h]

theorem joinLits_chars : ∀ {u : List Char} (_ : u ≠ []) (hs : List Hir),
    joinLits (u.map (fun c => .literal [c]) ++ hs) = joinLits (.literal u :: hs)
  | [], h, _ => absurd rfl h
  | [c], _, _ => rfl
  | c :: d :: u, _, hs => by
    have ih := joinLits_chars (u := d :: u) (by simp) hs
    rw [List.map_cons, List.cons_append, joinLits_congr ih, joinLits_append_lit]; rfl

variable (T : Tables)

theorem translateL_lits (u : List Char) (i : Nat) : translateL T (u.map .lit) i = (u.map (fun c => .literal [c]), i) := by
  induction u with
  | nil => rfl
  | cons c u ih => rw [List.map_cons, translateL, translate]; simp only [ih]; rfl

theorem translateL_append (as bs : List Ast) (i : Nat) : translateL T (as ++ bs) i =
    ((translateL T as i).1 ++ (translateL T bs (translateL T as i).2).1, (translateL T bs (translateL T as i).2).2) := by
  induction as generalizing i with
  | nil => rfl
  | cons a as ih => rw [List.cons_append, translateL, translateL]; simp only [ih]; rfl

theorem translate_catA {as : List Ast} {i : Nat} (h : ∀ h ∈ (translateL T as i).1, PlainHir h) :
    translate T (catA as) i = (mkConcat (translateL T as i).1, (translateL T as i).2) := by
  match as with
  | [] => rfl
  | [a] =>
    simp only [catA, translateL] at h ⊢
    have : translate T a i = ((translate T a i).1, (translate T a i).2) := rfl
    rw [this]
    rcases h (translate T a i).1 (by simp) with ⟨cs, hc⟩ | ⟨m, n, g, k, hc⟩ <;> rw [hc] <;> rfl
  | a :: b :: as => rfl

theorem translate_optional {u : List Char} (hu : u ≠ []) (i : Nat) :
    translate T (.rep (.group (catA (u.map .lit))) 0 (some 1) true) i = (partHir (true, u), i) := by
  have h1 : translate T (catA (u.map .lit)) i = (.literal u, i) := by
    rw [translate_catA, translateL_lits]
    · have := joinLits_chars hu []
      simp only [List.append_nil] at this
      rw [mkConcat, flatConcat_plain (by
        intro h hh
        obtain ⟨c, -, rfl⟩ := List.mem_map.1 hh
        exact .inl ⟨_, rfl⟩), this]
      rfl
    · rw [translateL_lits]
      intro h hh
      obtain ⟨c, -, rfl⟩ := List.mem_map.1 hh
      exact .inl ⟨_, rfl⟩
  simp only [translate, h1]
  rw [mkRepetition_heavy (fun h => hu ((light_literal _).1 h)) (by simp) (by simp)]
  rfl

/-- What the branches of accepted expressions satisfy. -/
structure GoodBranch (b : SingleAlternation) : Prop where
  full : ∀ q ∈ b, q.part.2 ≠ []
  text : ∃ t, .text t ∈ b
  sep : Sep (branchHirs b)

theorem translateL_branch {b : SingleAlternation} (h : ∀ q ∈ b, q.part.2 ≠ []) (i : Nat) :
    (translateL T (branchAsts b) i).2 = i ∧ (∀ h ∈ (translateL T (branchAsts b) i).1, PlainHir h) ∧
      joinLits (translateL T (branchAsts b) i).1 = joinLits (branchHirs b) := by
  induction b with
  | nil => exact ⟨rfl, by simp [branchAsts, translateL], rfl⟩
  | cons q b ih =>
    obtain ⟨h1, h2, h3⟩ := ih fun q hq => h q (by simp [hq])
    have hb : branchAsts (q :: b) = altAsts q ++ branchAsts b := rfl
    have hq := h q (by simp)
    rw [hb, translateL_append]
    cases q with
    | text t =>
      have hq : unescape t.frag ≠ [] := hq
      simp only [altAsts, translateL_lits]
      refine ⟨h1, ?_, ?_⟩
      · intro k hk
        rcases List.mem_append.1 hk with hk | hk
        · obtain ⟨c, -, rfl⟩ := List.mem_map.1 hk
          exact .inl ⟨_, rfl⟩
        · exact h2 k hk
      · rw [joinLits_chars hq]; exact joinLits_congr h3
    | optional o =>
      have hq : unescape o.input.frag ≠ [] := hq
      simp only [altAsts, translateL, translate_optional T hq]
      refine ⟨h1, ?_, joinLits_congr h3⟩
      intro k hk
      rcases List.mem_cons.1 hk with rfl | hk
      · exact plain_partHir _
      · exact h2 k hk

theorem translate_branch {b : SingleAlternation} (h : ∀ q ∈ b, q.part.2 ≠ []) (i : Nat) :
    translate T (catA (branchAsts b)) i = (mkConcat (branchHirs b), i) := by
  obtain ⟨h1, h2, h3⟩ := translateL_branch T h i
  rw [translate_catA T h2, h1, mkConcat, mkConcat, flatConcat_plain h2, flatConcat_plain (plain_branch b), h3]

theorem translateL_branches {a : Alternation} (h : ∀ b ∈ a, GoodBranch b) (i : Nat) :
    translateL T (a.map fun b => catA (branchAsts b)) i = (a.map fun b => mkConcat (branchHirs b), i) := by
  induction a with
  | nil => rfl
  | cons b a ih =>
    simp only [List.map_cons, translateL, translate_branch T (h b (by simp)).full, ih fun c hc => h c (by simp [hc])]

theorem translate_alternation {a : Alternation} (h2 : 2 ≤ a.length) (h : ∀ b ∈ a, GoodBranch b) (i : Nat) :
    translate T (.group (altA (a.map fun b => catA (branchAsts b)))) i = (mkAlternation (a.map fun b => mkConcat (branchHirs b)), i) := by
  have : altA (a.map fun b => catA (branchAsts b)) = .alt (a.map fun b => catA (branchAsts b)) := by
    match a, h2 with
    | _ :: _ :: _, _ => rfl
  rw [this, translate, translate, translateL_branches T h]

/-! ## Longest common beginnings -/

theorem commonPrefix_max {p : List Hir} : ∀ {c d : List Hir}, p <+: c → p <+: d → p <+: commonPrefix c d := by
  induction p with
  | nil => intros; exact List.nil_prefix
  | cons a p ih =>
    rintro _ _ ⟨c, rfl⟩ ⟨d, rfl⟩
    simp only [List.cons_append, commonPrefix, if_true]
    exact List.cons_prefix_cons.2 ⟨rfl, ih (List.prefix_append _ _) (List.prefix_append _ _)⟩

theorem foldl_max {p : List Hir} : ∀ {cs : List (List Hir)} {c : List Hir}, p <+: c → (∀ d ∈ cs, p <+: d) →
    p <+: cs.foldl commonPrefix c
  | [], _, h, _ => h
  | d :: cs, c, h, h' => foldl_max (cs := cs) (commonPrefix_max h (h' d (by simp))) fun x hx => h' x (by simp [hx])

theorem branchHirs_parts (b : SingleAlternation) : branchHirs b = (b.map Alternative.part).map partHir := by
  simp [branchHirs]

theorem prefix_map_inj {p l : List (Bool × List Char)} (h : p.map partHir <+: l.map partHir) : p <+: l := by
  induction p generalizing l with
  | nil => exact List.nil_prefix
  | cons a p ih =>
    cases l with
    | nil => simp at h
    | cons b l =>
      rw [List.map_cons, List.map_cons, List.cons_prefix_cons] at h
      exact List.cons_prefix_cons.2 ⟨partHir_inj h.1, ih h.2⟩

/-- The longest common beginning of the branches. -/
def beginning (b : SingleAlternation) (bs : Alternation) : List Hir := (bs.map branchHirs).foldl commonPrefix (branchHirs b)

theorem beginning_prefix {b : SingleAlternation} {bs : Alternation} {c : SingleAlternation} (hc : c ∈ b :: bs) :
    beginning b bs <+: branchHirs c := by
  have := foldl_prefix (bs.map branchHirs) (branchHirs b)
  rcases List.mem_cons.1 hc with rfl | hc
  · exact this.1
  · exact this.2 _ (List.mem_map_of_mem hc)

theorem beginning_take {b : SingleAlternation} {bs : Alternation} {c : SingleAlternation} (hc : c ∈ b :: bs) :
    (branchHirs c).take (beginning b bs).length = beginning b bs :=
  (List.prefix_iff_eq_take.1 (beginning_prefix hc)).symm

theorem beginning_parts {b : SingleAlternation} {bs : Alternation} {c : SingleAlternation} (hc : c ∈ b :: bs) :
    (c.map Alternative.part).take (beginning b bs).length = (b.map Alternative.part).take (beginning b bs).length := by
  have h1 := beginning_take hc
  have h2 := beginning_take (b := b) (bs := bs) (c := b) (by simp)
  rw [← h2, branchHirs_parts, branchHirs_parts] at h1
  have h3 : ((c.map Alternative.part).take (beginning b bs).length).map partHir =
      ((b.map Alternative.part).take (beginning b bs).length).map partHir := by
    rw [List.map_take, List.map_take]
    have : (List.take (beginning b bs).length ((b.map Alternative.part).map partHir)).length = (beginning b bs).length := by
      rw [← branchHirs_parts, h2]
    rw [this] at h1
    exact h1
  exact List.map_inj_right (fun _ _ h => partHir_inj h) |>.1 h3

theorem longest_iff {b : SingleAlternation} {bs : Alternation} {p : List (Bool × List Char)} :
    LongestBeginning (b :: bs) p ↔ p = (b.map Alternative.part).take (beginning b bs).length := by
  have hlen : ((b.map Alternative.part).take (beginning b bs).length).length = (beginning b bs).length := by
    have := congrArg List.length (beginning_take (b := b) (bs := bs) (c := b) (by simp))
    rw [branchHirs_parts] at this
    simpa using this
  have hcom : CommonBeginning (b :: bs) ((b.map Alternative.part).take (beginning b bs).length) := by
    intro c hc
    rw [← beginning_parts hc]
    exact List.take_prefix _ _
  have hmax : ∀ q, CommonBeginning (b :: bs) q → q <+: (b.map Alternative.part).take (beginning b bs).length := by
    intro q hq
    have h1 : q.map partHir <+: beginning b bs := by
      refine foldl_max ?_ ?_
      · rw [branchHirs_parts]; exact List.IsPrefix.map _ (hq b (by simp))
      · intro d hd
        obtain ⟨c, hc, rfl⟩ := List.mem_map.1 hd
        rw [branchHirs_parts]; exact List.IsPrefix.map _ (hq c (by simp [hc]))
    apply prefix_map_inj
    rw [List.map_take, ← branchHirs_parts, beginning_take (by simp)]
    exact h1
  constructor
  · rintro ⟨h1, h2⟩
    have h3 := hmax p h1
    exact h3.eq_of_length (Nat.le_antisymm h3.length_le (h2 _ hcom))
  · rintro rfl
    exact ⟨hcom, fun q hq => (hmax q hq).length_le⟩

/-! ## What is moved -/

theorem shape_branch {hs : List Hir} (h : ∀ h ∈ hs, PlainHir h) (hs' : Sep hs) :
    (∀ ks, mkConcat hs ≠ .alternation ks) ∧ (∀ r, mkConcat hs ≠ .cls r) ∧ ∀ ks, mkConcat hs = .concat ks → ks = hs := by
  rcases mkConcat_plain h hs' with ⟨-, e⟩ | ⟨k, rfl, e⟩ | ⟨-, e⟩ <;> rw [e]
  · simp
  · rcases h k (by simp) with ⟨cs, rfl⟩ | ⟨m, n, g, k, rfl⟩ <;> simp
  · simp +contextual

theorem concats_map : ∀ {ls : List (List Hir)} {cs : List (List Hir)}, (∀ hs ∈ ls, (∀ h ∈ hs, PlainHir h) ∧ Sep hs) →
    concats (ls.map mkConcat) = some cs → cs = ls := by
  intro ls cs h hc
  have := concats_eq _ _ hc
  clear hc
  induction ls generalizing cs with
  | nil => cases cs <;> simp at this; rfl
  | cons l ls ih =>
    cases cs with
    | nil => simp at this
    | cons c cs =>
      simp only [List.map_cons, List.cons.injEq] at this
      obtain ⟨h1, h2⟩ := h l (by simp)
      rw [(shape_branch h1 h2).2.2 c this.1, ih (fun hs hh => h hs (by simp [hh])) this.2]

theorem mixedRanges_valid : ∀ {hs : List Hir} {rs : List (Char × Char)}, (∀ h ∈ hs, ∀ r, h ≠ .cls r) → mixedRanges hs = some rs →
    ∀ r ∈ rs, r.1 ≤ r.2
  | [], rs, _, h => by cases h; simp
  | k :: hs, rs, hn, h => by
    unfold mixedRanges at h
    split at h
    · rename_i he; cases he
    · rename_i c hs' he
      cases he
      obtain ⟨ts, h1, rfl⟩ := Option.map_eq_some_iff.1 h
      intro r hr
      rcases List.mem_cons.1 hr with rfl | hr
      · exact Char.le_refl _
      · exact mixedRanges_valid (fun x hx => hn x (by simp [hx])) h1 r hr
    · rename_i rs' hs' he
      cases he
      exact absurd rfl (hn _ (by simp) rs')
    · cases h

theorem unlifted_branches {ls : List (List Hir)} (h : ∀ hs ∈ ls, (∀ h ∈ hs, PlainHir h) ∧ Sep hs)
    (hp : ∀ c cs, ls = c :: cs → concats (ls.map mkConcat) ≠ none → cs.foldl commonPrefix c = []) : Unlifted (ls.map mkConcat) := by
  have hf : flatAlternation (ls.map mkConcat) = ls.map mkConcat := flatAlternation_id (by
    intro k hk
    obtain ⟨l, hl, rfl⟩ := List.mem_map.1 hk
    exact (shape_branch (h l hl).1 (h l hl).2).1)
  unfold Unlifted
  rw [hf]
  refine ⟨fun c cs hc => ?_, fun rs hr => mixedRanges_valid ?_ (charRanges_mixed hr)⟩
  · exact hp c cs (concats_map h hc).symm (by rw [hc]; simp)
  · intro k hk
    obtain ⟨l, hl, rfl⟩ := List.mem_map.1 hk
    exact (shape_branch (h l hl).1 (h l hl).2).2.1

/-- How many parts are moved out of the alternation. -/
def liftLen (a : Alternation) : Nat :=
  match a with
  | [] => 0
  | b :: bs => if concats ((a.map branchHirs).map mkConcat) = none then 0 else (beginning b bs).length

theorem alternation_same {b : SingleAlternation} {bs : Alternation} (h2 : 1 ≤ bs.length) (h : ∀ c ∈ b :: bs, GoodBranch c)
    (pre rest : List Char) : Same ((mkAlternation ((b :: bs).map fun c => mkConcat (branchHirs c))).tries pre rest)
      (andThen (catTries ((branchHirs b).take (liftLen (b :: bs))) pre rest) fun x =>
        altTries ((b :: bs).map fun c => mkConcat ((branchHirs c).drop (liftLen (b :: bs)))) (pre ++ x) (rest.drop x.length)) := by
  have hall : ∀ hs ∈ (b :: bs).map branchHirs, (∀ h ∈ hs, PlainHir h) ∧ Sep hs := by
    intro hs hh
    obtain ⟨c, hc, rfl⟩ := List.mem_map.1 hh
    exact ⟨plain_branch c, (h c hc).sep⟩
  have hmap : ((b :: bs).map fun c => mkConcat (branchHirs c)) = ((b :: bs).map branchHirs).map mkConcat := by
    rw [List.map_map]; rfl
  rw [hmap]
  have plain : liftLen (b :: bs) = 0 → Unlifted (((b :: bs).map branchHirs).map mkConcat) →
      Same ((mkAlternation (((b :: bs).map branchHirs).map mkConcat)).tries pre rest)
      (andThen (catTries ((branchHirs b).take (liftLen (b :: bs))) pre rest) fun x =>
        altTries ((b :: bs).map fun c => mkConcat ((branchHirs c).drop (liftLen (b :: bs)))) (pre ++ x) (rest.drop x.length)) := by
    intro h0 hu
    rw [h0]
    simp only [List.take_zero, catTries, andThen_nil, List.drop_zero, List.append_nil, List.length_nil]
    rw [hmap]
    exact same_unlifted _ _ hu pre rest
  by_cases hc : concats (((b :: bs).map branchHirs).map mkConcat) = none
  · refine plain (by simp only [liftLen, hc, if_true]) (unlifted_branches hall fun c cs _ hn => absurd hc hn)
  · have hn : liftLen (b :: bs) = (beginning b bs).length := by simp only [liftLen, if_neg hc]
    by_cases hb : beginning b bs = []
    · refine plain (by rw [hn, hb]; rfl) (unlifted_branches hall fun c cs he _ => ?_)
      rw [List.map_cons] at he
      cases he
      exact hb
    · rw [hn]
      obtain ⟨cs, hcs⟩ := Option.ne_none_iff_exists'.1 hc
      have hcs' := concats_map hall hcs
      subst hcs'
      have hu : Unlifted (((b :: bs).map branchHirs).map fun xs => mkConcat (xs.drop (beginning b bs).length)) := by
        have : (((b :: bs).map branchHirs).map fun xs => mkConcat (xs.drop (beginning b bs).length)) =
            (((b :: bs).map branchHirs).map fun xs => xs.drop (beginning b bs).length).map mkConcat := by rw [List.map_map (l := (b :: bs).map branchHirs)]; rfl
        rw [this]
        refine unlifted_branches ?_ ?_
        · intro hs hh
          obtain ⟨l, hl, rfl⟩ := List.mem_map.1 hh
          exact ⟨fun k hk => (hall l hl).1 k (List.mem_of_mem_drop hk), (hall l hl).2.drop _⟩
        · intro d ds hd _
          have hpre := foldl_prefix ds d
          cases hf : ds.foldl commonPrefix d with
          | nil => rfl
          | cons x t =>
            exfalso
            rw [hf] at hpre
            have hx : ∀ c ∈ b :: bs, beginning b bs ++ [x] <+: branchHirs c := by
              intro c hc
              have hm : (branchHirs c).drop (beginning b bs).length ∈ d :: ds := by
                rw [← hd]; exact List.mem_map_of_mem (f := fun xs : List Hir => xs.drop (beginning b bs).length) (List.mem_map_of_mem hc)
              have h1 : x :: t <+: (branchHirs c).drop (beginning b bs).length := by
                rcases List.mem_cons.1 hm with hm | hm
                · rw [hm]; exact hpre.1
                · exact hpre.2 _ hm
              obtain ⟨r, hr⟩ := h1
              refine ⟨t ++ r, ?_⟩
              rw [List.append_assoc]
              have := List.take_append_drop (beginning b bs).length (branchHirs c)
              rw [beginning_take hc, ← hr] at this
              simpa using this
            have h3 : beginning b bs ++ [x] <+: beginning b bs := foldl_max (hx b (by simp)) (by
              intro d hd
              obtain ⟨c, hc, rfl⟩ := List.mem_map.1 hd
              exact hx c (by simp [hc]))
            have := h3.length_le
            rw [List.length_append, List.length_singleton] at this
            omega
      have hf : flatAlternation (((b :: bs).map branchHirs).map mkConcat) = ((b :: bs).map branchHirs).map mkConcat :=
        flatAlternation_id (by
          intro k hk
          obtain ⟨l, hl, rfl⟩ := List.mem_map.1 hk
          exact (shape_branch (hall l hl).1 (hall l hl).2).1)
      have := same_lifted (sizes (((b :: bs).map branchHirs).map mkConcat)) _ (branchHirs b) (bs.map branchHirs) hf (by simpa using h2)
        hcs hb hu pre rest
      rw [beginning_take (by simp)]
      have e : ((b :: bs).map fun c => mkConcat ((branchHirs c).drop (beginning b bs).length)) =
          ((b :: bs).map branchHirs).map fun xs => mkConcat (xs.drop (beginning b bs).length) := by rw [List.map_map]; rfl
      rw [e]
      exact this

/-- As many optionals are moved as there are in the longest common beginning. -/
theorem liftLen_optionals {b : SingleAlternation} {bs : Alternation} (h : ∀ c ∈ b :: bs, GoodBranch c) :
    (((b.map Alternative.part).take (liftLen (b :: bs))).filter (·.1)).length =
      (((b.map Alternative.part).take (beginning b bs).length).filter (·.1)).length := by
  by_cases hc : concats (((b :: bs).map branchHirs).map mkConcat) = none
  · have h0 : liftLen (b :: bs) = 0 := by simp only [liftLen, hc, if_true]
    rw [h0]
    obtain ⟨c, hcm, t, rfl⟩ : ∃ c ∈ b :: bs, ∃ t, c = [.text t] := by
      apply Classical.byContradiction
      intro hno
      have : ∀ ls : Alternation, (∀ c ∈ ls, c ∈ b :: bs) → concats ((ls.map branchHirs).map mkConcat) ≠ none := by
        intro ls
        induction ls with
        | nil => intro _; simp [concats]
        | cons c ls ih =>
          intro hm
          have ih := ih fun d hd => hm d (by simp [hd])
          have hg := h c (hm c (by simp))
          have : mkConcat (branchHirs c) = .concat (branchHirs c) := by
            rcases mkConcat_plain (plain_branch c) hg.sep with ⟨e, -⟩ | ⟨k, e, -⟩ | ⟨-, e⟩
            · obtain ⟨t, ht⟩ := hg.text
              rw [branchHirs, List.map_eq_nil_iff] at e
              rw [e] at ht; cases ht
            · obtain ⟨t, ht⟩ := hg.text
              rw [branchHirs, List.map_eq_singleton_iff] at e
              obtain ⟨q, rfl, -⟩ := e
              rw [List.mem_singleton] at ht
              exact absurd ⟨[q], hm [q] (by simp), t, by rw [ht]⟩ hno
            · exact e
          rw [List.map_cons, List.map_cons, this, concats]
          simpa using ih
      exact this (b :: bs) (fun _ h => h) hc
    have hp := beginning_parts hcm
    rw [← hp]
    generalize (beginning b bs).length = m
    cases m <;> simp [Alternative.part]
  · have hn : liftLen (b :: bs) = (beginning b bs).length := by simp only [liftLen, if_neg hc]
    rw [hn]

theorem liftLen_parts {b : SingleAlternation} {bs : Alternation} {c : SingleAlternation} (hc : c ∈ b :: bs) :
    (c.map Alternative.part).take (liftLen (b :: bs)) = (b.map Alternative.part).take (liftLen (b :: bs)) := by
  by_cases h : concats (((b :: bs).map branchHirs).map mkConcat) = none
  · have h0 : liftLen (b :: bs) = 0 := by simp only [liftLen, h, if_true]
    rw [h0]; rfl
  · have hn : liftLen (b :: bs) = (beginning b bs).length := by simp only [liftLen, if_neg h]
    rw [hn]; exact beginning_parts hc

end CE
