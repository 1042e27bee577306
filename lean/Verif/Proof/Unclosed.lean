import Verif.Proof.Compose

/-! # Unfinished classes, counts and escapes are not finished by what follows a parameter -/

namespace CE.Regex

/-! ## Texts in which an open class is not closed -/

/-- Between brackets, without brackets. -/
inductive Inner : List Char → Prop
  | nil : Inner []
  | plain {c : Char} {b : List Char} : c ≠ '[' → c ≠ ']' → c ≠ '\\' → Inner b → Inner (c :: b)
  | esc {c : Char} {b : List Char} : c ∉ ['x', 'u', 'U', 'p', 'P'] → Inner b → Inner ('\\' :: c :: b)

/-- Brackets are escaped or enclose something, and do not follow a dash; the argument says whether a dash precedes. -/
inductive Safe : Bool → List Char → Prop
  | nil (d : Bool) : Safe d []
  | plain {d : Bool} {c : Char} {z : List Char} : c ≠ '[' → c ≠ ']' → c ≠ '\\' → Safe (c == '-') z → Safe d (c :: z)
  | esc {d : Bool} {c : Char} {z : List Char} : c ∉ ['x', 'u', 'U', 'p', 'P'] → Safe false z → Safe d ('\\' :: c :: z)
  | set {c : Char} {b z : List Char} : c ∉ [':', '-', ']', '^'] → Inner (c :: b) → Safe false z → Safe false ('[' :: c :: (b ++ ']' :: z))
  | neg {c : Char} {b z : List Char} : c ∉ ['-', ']'] → Inner (c :: b) → Safe false z → Safe false ('[' :: '^' :: c :: (b ++ ']' :: z))

theorem Safe.weaken {z : List Char} (h : Safe true z) : Safe false z := by
  cases h with
  | nil => exact .nil _
  | plain h1 h2 h3 h4 => exact .plain h1 h2 h3 h4
  | esc h1 h2 => exact .esc h1 h2

theorem Safe.to {z : List Char} (h : Safe true z) : ∀ d, Safe d z
  | true => h
  | false => h.weaken

theorem Safe.append {d : Bool} {y z : List Char} (h : Safe d y) (hz : Safe true z) : Safe d (y ++ z) := by
  induction h with
  | nil d => exact hz.to d
  | plain h1 h2 h3 _ ih => exact .plain h1 h2 h3 ih
  | esc h1 _ ih => exact .esc h1 ih
  | set h1 h2 _ ih =>
    have := Safe.set h1 h2 ih
    simpa using this
  | neg h1 h2 _ ih =>
    have := Safe.neg h1 h2 ih
    simpa using this

theorem escape_plain {c : Char} (h : c ∉ ['x', 'u', 'U', 'p', 'P']) {r q : List Char} {e : Esc} (he : escape c r = .ok (e, q)) : q = r := by
  unfold escape at he
  split at he
  · exact absurd (by simp) h
  · exact absurd (by simp) h
  · exact absurd (by simp) h
  · exact absurd (by simp) h
  · exact absurd (by simp) h
  · split at he
    · cases he; rfl
    · cases he

theorem clsPrim_esc {c : Char} {r q : List Char} {i : CItem} (h : clsPrim ('\\' :: c :: r) = .ok (i, q)) : ∃ e, escape c r = .ok (e, q) := by
  rw [clsPrim] at h
  split at h
  · next he => cases h; exact ⟨_, he⟩
  · next he => cases h; exact ⟨_, he⟩
  · cases h
  · cases h

/-- What a range consists of. -/
theorem clsRange_cases {cs r : List Char} {i : CItem} (h : clsRange cs = .ok (i, r)) :
    ∃ a q, clsPrim cs = .ok (a, q) ∧ ((q = r ∧ i = a ∧ q ≠ [] ∧ (q.head? ≠ some '-' ∨ ∃ d t, q = '-' :: d :: t ∧ (d = ']' ∨ d = '-'))) ∨
      ∃ d t b x y, q = '-' :: d :: t ∧ d ≠ ']' ∧ d ≠ '-' ∧ clsPrim (d :: t) = .ok (b, r) ∧ a = .single x ∧ b = .single y ∧ x ≤ y ∧ i = .range x y) := by
  unfold clsRange at h
  split at h
  · cases h
  · next a q ha =>
    refine ⟨a, q, ha, ?_⟩
    split at h
    · cases h
    · cases h
    · next d t =>
      split at h
      · next hd => cases h; exact .inl ⟨rfl, rfl, by simp, .inr ⟨d, t, rfl, hd⟩⟩
      · next hd =>
        split at h
        · cases h
        · next b q' hb =>
          split at h
          · split at h
            · next hxy => cases h; exact .inr ⟨_, _, _, _, _, rfl, fun e => hd (.inl e), fun e => hd (.inr e), hb, rfl, rfl, hxy, rfl⟩
            · cases h
          · cases h
    · next h1 h2 h3 =>
      cases h
      refine .inl ⟨rfl, rfl, h1, .inl ?_⟩
      cases r with
      | nil => exact absurd rfl h1
      | cons c q =>
        intro e
        have : c = '-' := by simpa using e
        subst this
        cases q with
        | nil => exact h2 rfl
        | cons d q => exact h3 _ _ rfl

theorem clsRange_single {cs q : List Char} {a : CItem} (h : clsPrim cs = .ok (a, q)) (hne : q ≠ [])
    (hq : q.head? ≠ some '-' ∨ ∃ d t, q = '-' :: d :: t ∧ (d = ']' ∨ d = '-')) : clsRange cs = .ok (a, q) := by
  unfold clsRange
  rw [h]
  simp only []
  rcases hq with hq | ⟨d, t, rfl, hd⟩
  · split
    · exact absurd rfl hne
    · exact absurd rfl hq
    · exact absurd rfl hq
    · rfl
  · simp only [hd, if_true]

theorem clsRange_range {cs t r : List Char} {d x y : Char} (h : clsPrim cs = .ok (.single x, '-' :: d :: t)) (h1 : d ≠ ']') (h2 : d ≠ '-')
    (hb : clsPrim (d :: t) = .ok (.single y, r)) (hxy : x ≤ y) : clsRange cs = .ok (.range x y, r) := by
  unfold clsRange
  rw [h]
  simp only [h1, h2, or_self, if_false, hb, hxy, if_true]

/-! ### Inside of brackets -/

theorem prim_inner {b z : List Char} (h : Inner b) (hne : b ≠ []) {i : CItem} {r : List Char} (hp : clsPrim (b ++ ']' :: z) = .ok (i, r)) :
    ∃ b', Inner b' ∧ r = b' ++ ']' :: z := by
  cases h with
  | nil => exact absurd rfl hne
  | plain h1 h2 h3 h4 =>
    rw [List.cons_append, clsPrim_other _ h3] at hp
    cases hp
    exact ⟨_, h4, rfl⟩
  | esc h1 h2 =>
    obtain ⟨e, he⟩ := clsPrim_esc hp
    exact ⟨_, h2, escape_plain h1 he⟩

theorem inner_tail {c : Char} {b : List Char} (h : Inner (c :: b)) (hc : c ≠ '\\') : Inner b := by
  cases h with
  | plain _ _ _ h => exact h
  | esc => exact absurd rfl hc

theorem range_inner {b z : List Char} (h : Inner b) (hne : b ≠ []) {i : CItem} {r : List Char} (hp : clsRange (b ++ ']' :: z) = .ok (i, r)) :
    ∃ b', Inner b' ∧ r = b' ++ ']' :: z := by
  obtain ⟨a, q, ha, h1⟩ := clsRange_cases hp
  obtain ⟨b', hb', rfl⟩ := prim_inner h hne ha
  rcases h1 with ⟨rfl, -, -, -⟩ | ⟨d, t, b1, x, y, hq, hd1, hd2, hb1, -⟩
  · exact ⟨b', hb', rfl⟩
  · cases b' with
    | nil => cases hq
    | cons c b' =>
      have hc := (List.cons.inj hq).1
      have ht := (List.cons.inj hq).2
      subst hc
      have hb2 := inner_tail hb' (by decide)
      cases b' with
      | nil => exact absurd (List.cons.inj ht).1.symm hd1
      | cons c b' =>
        rw [← ht] at hb1
        exact prim_inner hb2 (by simp) hb1

theorem items_inner (z : List Char) : ∀ (n : Nat) {b : List Char} {ps : List CPiece} {r : List Char}, Inner b →
    clsItems n (b ++ ']' :: z) = .ok (ps, r) → r = z
  | 0, _, _, _, _, h => by cases h
  | n + 1, b, ps, r, hb, h => by
    cases b with
    | nil => cases h; rfl
    | cons c b =>
      rw [List.cons_append] at h
      rcases clsItems_cases h with ⟨he, _⟩ | ⟨q, i, q', _, he, _⟩ | ⟨q, _, q', _, he, _⟩ | ⟨d, _, q, _, hd, he, hy, _⟩ | ⟨i, q, _, _, _, _, hr, hy, _⟩
      · have := (List.cons.inj he).1; subst this
        cases hb with
        | plain _ h2 _ _ => exact absurd rfl h2
      · have := (List.cons.inj he).1; subst this
        cases hb with
        | plain h1 _ _ _ => exact absurd rfl h1
      · have := (List.cons.inj he).1; subst this
        cases hb with
        | plain h1 _ _ _ => exact absurd rfl h1
      · have h1 := (List.cons.inj he).1
        have h2 := (List.cons.inj he).2
        subst h1
        have hd' : c ≠ '\\' ∧ c ≠ ']' := by
          simp only [List.mem_cons, Prod.mk.injEq, List.not_mem_nil, or_false] at hd
          rcases hd with ⟨rfl, _⟩ | ⟨rfl, _⟩ | ⟨rfl, _⟩ <;> decide
        have hb2 := inner_tail hb hd'.1
        cases b with
        | nil => exact absurd (List.cons.inj h2).1.symm hd'.2
        | cons e b =>
          have h3 := (List.cons.inj h2).1
          subst h3
          rw [← (List.cons.inj h2).2] at hy
          exact items_inner z n (inner_tail hb2 hd'.1) hy
      · obtain ⟨b', hb', rfl⟩ := range_inner (b := c :: b) hb (by simp) hr
        exact items_inner z n hb' hy

/-! ### Safe texts -/

theorem prim_safe {d : Bool} {z : List Char} (h : Safe d z) (hh : z.head? ≠ some '[') {i : CItem} {r : List Char} (hp : clsPrim z = .ok (i, r)) :
    ∃ d', Safe d' r := by
  cases h with
  | nil => cases hp
  | plain h1 h2 h3 h4 =>
    rw [clsPrim_other _ h3] at hp
    cases hp
    exact ⟨_, h4⟩
  | esc h1 h2 =>
    obtain ⟨e, he⟩ := clsPrim_esc hp
    rw [escape_plain h1 he]
    exact ⟨_, h2⟩
  | set => exact absurd rfl hh
  | neg => exact absurd rfl hh

theorem safe_dash {d : Bool} {z : List Char} (h : Safe d ('-' :: z)) : Safe true z := by
  cases h with
  | plain _ _ _ h => exact h

theorem safe_true {z : List Char} (h : Safe true z) : z.head? ≠ some '[' := by
  cases h with
  | nil => simp
  | plain h1 _ _ _ => simpa using h1
  | esc => simp

/-- The rest of a range after its first character. -/
theorem range_after {cs q r : List Char} {a i : CItem} {d : Bool} (ha : clsPrim cs = .ok (a, q)) (hq : Safe d q) (h : clsRange cs = .ok (i, r)) :
    ∃ d', Safe d' r := by
  obtain ⟨a', q', ha', h1⟩ := clsRange_cases h
  rw [ha] at ha'
  cases ha'
  rcases h1 with ⟨rfl, -, -, -⟩ | ⟨e, t, b1, x, y, rfl, -, -, hb1, -⟩
  · exact ⟨_, hq⟩
  · have := safe_dash hq
    exact prim_safe this (safe_true this) hb1

theorem asciiClass_colon {cs r : List Char} {i : CItem} (h : asciiClass cs = some (i, r)) : cs.head? = some ':' := by
  obtain ⟨w, hw, rfl⟩ := asciiClass_some h
  have : ∀ x ∈ asciiTable, x.1.head? = some ':' := by decide
  have := this _ hw
  cases w with
  | nil => cases this
  | cons c w => exact this

theorem clsLead_same {c : Char} {t : List Char} (h : c ∉ ['-', ']']) : clsLead (c :: t) = ([], c :: t) := by
  simp only [List.mem_cons, List.not_mem_nil, or_false, not_or] at h
  have hd : clsDashes (c :: t) = ([], c :: t) := by
    rw [clsDashes]
    intro r h0; cases h0; exact h.1 rfl
  unfold clsLead
  rw [hd]
  split
  · next h0 => cases h0; exact absurd rfl h.2
  · rfl

/-- An open class is not closed by a safe text. -/
theorem items_safe : ∀ (n : Nat) {d : Bool} {z : List Char} {ps : List CPiece} {r : List Char}, Safe d z → clsItems n z ≠ .ok (ps, r)
  | 0, _, _, _, _, _ => fun h => by cases h
  | n + 1, d, z, ps, r, hs => fun h => by
    rcases clsItems_cases h with ⟨rfl, _⟩ | ⟨q, i, q', _, rfl, ha, hy, _⟩ | ⟨q, ks, q', _, rfl, ha, hk, hy, _⟩ |
      ⟨c, _, q, _, hc, rfl, hy, _⟩ | ⟨i, q, _, _, h2, _, hr, hy, _⟩
    · cases hs with
      | plain _ h2 _ _ => exact h2 rfl
    · have hh := asciiClass_colon ha
      cases hs with
      | plain h1 _ _ _ => exact h1 rfl
      | set h1 _ _ =>
        simp only [List.head?_cons, Option.some.injEq] at hh
        exact h1 (by simp [hh])
      | neg h1 _ _ => cases hh
    · cases hs with
      | plain h1 _ _ _ => exact h1 rfl
      | @set c b z h1 h2 h3 =>
        have : (clsHead (c :: (b ++ ']' :: z))).2.2 = c :: b ++ ']' :: z := by
          have hc : c ≠ '^' := fun e => h1 (by simp [e])
          rw [clsHead]
          · rw [clsLead_same (fun hm => h1 (by simp at hm ⊢; rcases hm with h | h <;> simp [h]))]
            rfl
          · intro r h0; cases h0; exact hc rfl
        rw [this] at hk
        rw [items_inner _ n h2 hk] at hy
        exact items_safe n h3 hy
      | @neg c b z h1 h2 h3 =>
        have : (clsHead ('^' :: c :: (b ++ ']' :: z))).2.2 = c :: b ++ ']' :: z := by
          rw [clsHead, clsLead_same h1]
          rfl
        rw [this] at hk
        rw [items_inner _ n h2 hk] at hy
        exact items_safe n h3 hy
    · simp only [List.mem_cons, Prod.mk.injEq, List.not_mem_nil, or_false] at hc
      rcases hc with ⟨rfl, _⟩ | ⟨rfl, _⟩ | ⟨rfl, _⟩ <;>
      · cases hs with
        | plain _ _ _ h4 =>
          cases h4 with
          | plain _ _ _ h5 => exact items_safe n h5 hy
    · obtain ⟨a, q1, ha, h1⟩ := clsRange_cases hr
      obtain ⟨d1, hd1⟩ := prim_safe hs h2 ha
      obtain ⟨d2, hd2⟩ := range_after ha hd1 hr
      exact items_safe n hd2 hy

/-! ## What is unfinished before a closing parenthesis -/

section
variable (z : List Char)

theorem hexFixed_cut : ∀ {n v v' : Nat} {a q : List Char}, hexFixed n v (a ++ ')' :: z) = .ok (v', q) →
    ∃ a', q = a' ++ ')' :: z ∧ hexFixed n v a = .ok (v', a')
  | 0, v, v', a, q, h => by cases h; exact ⟨a, rfl, rfl⟩
  | n + 1, v, v', [], q, h => by cases h
  | n + 1, v, v', c :: a, q, h => by
    rw [List.cons_append, hexFixed] at h
    rw [hexFixed]
    split at h
    · exact hexFixed_cut h
    · cases h

theorem hexBrace_cut : ∀ {b : Bool} {v v' : Nat} {a q : List Char}, hexBrace b v (a ++ ')' :: z) = .ok (v', q) →
    ∃ a', q = a' ++ ')' :: z ∧ hexBrace b v a = .ok (v', a')
  | b, v, v', [], q, h => by cases h
  | b, v, v', c :: a, q, h => by
    rw [List.cons_append, hexBrace] at h
    rw [hexBrace]
    split at h
    · next hc =>
      rw [if_pos hc]
      split at h
      · cases h
      · next hb => cases h; exact ⟨a, rfl, by rw [if_neg hb]⟩
    · next hc =>
      rw [if_neg hc]
      split at h
      · exact hexBrace_cut h
      · cases h

theorem hexDigits_cut {n v' : Nat} {a q : List Char} (h : hexDigits n (a ++ ')' :: z) = .ok (v', q)) :
    ∃ a', q = a' ++ ')' :: z ∧ hexDigits n a = .ok (v', a') := by
  have other : ∀ t : List Char, t.head? ≠ some '{' → hexDigits n t = hexFixed n 0 t := by
    intro t ht
    rw [hexDigits]
    intro r h0; rw [h0] at ht; exact ht rfl
  cases a with
  | nil =>
    rw [other _ (by simp)] at h
    rw [other _ (by simp)]
    exact hexFixed_cut z h
  | cons c a =>
    by_cases hc : c = '{'
    · subst hc
      exact hexBrace_cut z h
    · rw [other _ (by simpa using hc)] at h
      rw [other _ (by simpa using hc)]
      exact hexFixed_cut z h

theorem hexEsc_cut {n : Nat} {a q : List Char} {e : Esc} (h : hexEsc n (a ++ ')' :: z) = .ok (e, q)) :
    ∃ a', q = a' ++ ')' :: z ∧ hexEsc n a = .ok (e, a') := by
  unfold hexEsc at h
  split at h
  · cases h
  · next v r hv =>
    obtain ⟨a', rfl, ha⟩ := hexDigits_cut z hv
    split at h
    · next hc =>
      cases h
      refine ⟨a', rfl, ?_⟩
      unfold hexEsc
      rw [ha]
      simp only [hc, if_true]
    · cases h

theorem cut_of_append {a u q : List Char} (hu : ')' ∉ u) (h : a ++ ')' :: z = u ++ q) : ∃ a', a = u ++ a' ∧ q = a' ++ ')' :: z := by
  rcases List.append_eq_append_iff.1 h with ⟨w, h1, h2⟩ | ⟨w, h1, h2⟩
  · cases w with
    | nil => exact ⟨[], by simpa using h1.symm, by simpa using h2.symm⟩
    | cons c w =>
      simp only [List.cons_append, List.cons.injEq] at h2
      exact absurd (by rw [h1, ← h2.1]; simp) hu
  · exact ⟨w, h1, h2⟩

theorem unicodeEsc_cut {neg : Bool} {a q : List Char} {e : Esc} (h : unicodeEsc neg (a ++ ')' :: z) = .ok (e, q)) :
    ∃ a', q = a' ++ ')' :: z ∧ unicodeEsc neg a = .ok (e, a') := by
  obtain ⟨n, hn, rfl, hr | ⟨c, rfl, _, _, hr⟩⟩ := unicodeEsc_eq h
  · have hp : ')' ∉ n := fun m => absurd (List.all_eq_true.1 (categories_letters n hn).2 _ m) (by decide)
    obtain ⟨a', rfl, hq⟩ := cut_of_append z (u := '{' :: (n ++ ['}'])) (q := q) (by simp [hp]) (by simpa using hr)
    refine ⟨a', hq, ?_⟩
    have := unicodeEsc_brace neg hn a'
    simpa using this
  · have ha := (categories_letters [c] hn).2
    obtain ⟨a', rfl, hq⟩ := cut_of_append z (u := [c]) (q := q) (by rw [List.mem_singleton]; rintro rfl; exact absurd ha (by decide)) (by simpa using hr)
    exact ⟨a', hq, unicodeEsc_one neg hn a'⟩

theorem escape_cut {c : Char} {a q : List Char} {e : Esc} (h : escape c (a ++ ')' :: z) = .ok (e, q)) :
    ∃ a', q = a' ++ ')' :: z ∧ escape c a = .ok (e, a') := by
  unfold escape at h ⊢
  split at h
  · exact hexEsc_cut z h
  · exact hexEsc_cut z h
  · exact hexEsc_cut z h
  · exact unicodeEsc_cut z h
  · exact unicodeEsc_cut z h
  · split at h
    · cases h; exact ⟨a, rfl, rfl⟩
    · cases h

theorem clsPrim_cut {a r : List Char} {i : CItem} (hne : a ≠ []) (h : clsPrim (a ++ ')' :: z) = .ok (i, r)) :
    (∃ a', r = a' ++ ')' :: z ∧ clsPrim a = .ok (i, a')) ∨ r = z := by
  cases a with
  | nil => exact absurd rfl hne
  | cons c a =>
    by_cases hc : c = '\\'
    · subst hc
      cases a with
      | nil => cases h; exact .inr rfl
      | cons d a =>
        have h' : clsPrim ('\\' :: d :: (a ++ ')' :: z)) = .ok (i, r) := h
        obtain ⟨e, he⟩ := clsPrim_esc h'
        obtain ⟨a', rfl, ha⟩ := escape_cut z he
        refine .inl ⟨a', rfl, ?_⟩
        rw [clsPrim] at h' ⊢
        rw [he] at h'
        rw [ha]
        cases e <;> simp at h' ⊢ <;> exact h'
    · rw [List.cons_append, clsPrim_other _ hc] at h
      cases h
      exact .inl ⟨a, rfl, clsPrim_other _ hc⟩

variable {z} (hz : Safe false (')' :: z))
include hz

theorem safe_rest : Safe false z := by
  cases hz with
  | plain _ _ _ h => exact h

theorem clsRange_cut {a r : List Char} {i : CItem} (hne : a ≠ []) (h : clsRange (a ++ ')' :: z) = .ok (i, r)) :
    (∃ a', r = a' ++ ')' :: z ∧ clsRange a = .ok (i, a')) ∨ ∃ d, Safe d r := by
  obtain ⟨b, q, hb, h1⟩ := clsRange_cases h
  rcases clsPrim_cut z hne hb with ⟨a', rfl, ha⟩ | rfl
  · cases a' with
    | nil => exact .inr (range_after hb hz h)
    | cons x a' =>
      rcases h1 with ⟨rfl, rfl, -, h2⟩ | ⟨d, t, b1, x', y, hq, hd1, hd2, hb1, rfl, rfl, hxy, rfl⟩
      · rcases h2 with h2 | ⟨d, t, hq, hd⟩
        · exact .inl ⟨x :: a', rfl, clsRange_single ha (by simp) (.inl (by simpa using h2))⟩
        · have hx := (List.cons.inj hq).1
          have ht := (List.cons.inj hq).2
          subst hx
          cases a' with
          | nil =>
            have := (List.cons.inj ht).1
            subst this
            exact absurd hd (by decide)
          | cons y a' =>
            have := (List.cons.inj ht).1
            subst this
            exact .inl ⟨_, rfl, clsRange_single ha (by simp) (.inr ⟨_, _, rfl, hd⟩)⟩
      · have hx := (List.cons.inj hq).1
        have ht := (List.cons.inj hq).2
        subst hx
        cases a' with
        | nil =>
          have hb1' : clsPrim (')' :: z) = .ok (.single y, r) := by rw [← ht] at hb1; exact hb1
          rw [clsPrim_other _ (by decide)] at hb1'
          cases hb1'
          exact .inr ⟨_, safe_rest hz⟩
        | cons y' a' =>
          have := (List.cons.inj ht).1
          subst this
          rw [← ht] at hb1
          rcases clsPrim_cut z (by simp) hb1 with ⟨a3, rfl, h3⟩ | rfl
          · exact .inl ⟨a3, rfl, clsRange_range ha hd1 hd2 h3 hxy⟩
          · exact .inr ⟨_, safe_rest hz⟩
  · exact .inr (range_after hb (safe_rest hz) h)

omit hz in
theorem asciiClass_cut {a r : List Char} {i : CItem} (h : asciiClass (a ++ ')' :: z) = some (i, r)) :
    ∃ a', r = a' ++ ')' :: z ∧ asciiClass a = some (i, a') := by
  obtain ⟨w, hw, he⟩ := asciiClass_some h
  have hn : ∀ x ∈ asciiTable, ')' ∉ x.1 := by decide
  rcases List.append_eq_append_iff.1 he with ⟨t, h1, h2⟩ | ⟨t, h1, h2⟩
  · cases t with
    | nil =>
      refine ⟨[], h2.symm, ?_⟩
      rw [List.append_nil] at h1
      have := asciiClass_table _ hw []
      rw [List.append_nil] at this
      rw [← h1]
      exact this
    | cons x t =>
      have := (List.cons.inj h2).1
      subst this
      exact absurd (by rw [h1]; simp) (hn _ hw)
  · exact ⟨t, h2, by rw [h1]; exact asciiClass_table _ hw t⟩

omit hz in
theorem clsDashes_cut : ∀ {a : List Char}, (clsDashes a).2 = [] → (clsDashes (a ++ ')' :: z)).2 = ')' :: z
  | [], _ => rfl
  | c :: a, h => by
    by_cases hc : c = '-'
    · subst hc
      rw [List.cons_append, clsDashes]
      exact clsDashes_cut (a := a) h
    · have : clsDashes (c :: a) = ([], c :: a) := by
        rw [clsDashes]; intro r h0; cases h0; exact hc rfl
      rw [this] at h
      cases h

omit hz in
theorem clsLead_cut {a : List Char} (h : (clsLead a).2 = []) : (clsLead (a ++ ')' :: z)).2 = ')' :: z := by
  by_cases hd : (clsDashes a).2 = []
  · have := clsDashes_cut (z := z) hd
    unfold clsLead
    split
    · next h0 => rw [h0] at this; cases this
    · exact this
  · have h1 := clsDashes_append a (')' :: z) hd
    unfold clsLead at h ⊢
    rw [h1]
    cases hx : clsDashes a with
    | mk is q =>
      rw [hx] at h hd
      cases q with
      | nil => exact absurd rfl hd
      | cons c q =>
        cases is with
        | cons x is => cases h
        | nil =>
          by_cases hc : c = ']'
          · subst hc
            have : q = [] := h
            subst this
            rfl
          · exfalso
            split at h
            · next h0 => cases h0; exact hc rfl
            · cases h

omit hz in
theorem clsHead_cut {a : List Char} (h : (clsHead a).2.2 = []) : (clsHead (a ++ ')' :: z)).2.2 = ')' :: z := by
  cases a with
  | nil => rfl
  | cons c a =>
    by_cases hc : c = '^'
    · subst hc
      exact clsLead_cut (a := a) h
    · have : ∀ t, clsHead (c :: t) = (false, clsLead (c :: t)) := by
        intro t; rw [clsHead]; intro r h0; cases h0; exact hc rfl
      rw [this] at h
      rw [List.cons_append, this]
      exact clsLead_cut (a := c :: a) h

/-- A class that is closed at all is closed before. -/
theorem clsItems_cut : ∀ (n : Nat) {a r : List Char} {ps : List CPiece}, clsItems n (a ++ ')' :: z) = .ok (ps, r) →
    ∃ a', r = a' ++ ')' :: z ∧ clsItems n a = .ok (ps, a')
  | 0, _, _, _, h => by cases h
  | n + 1, [], r, ps, h => absurd h (items_safe _ hz)
  | n + 1, c :: a, r, ps, h => by
    rw [List.cons_append] at h
    rcases clsItems_cases h with ⟨he, rfl⟩ | ⟨q, i, q', ps', he, ha, hy, rfl⟩ | ⟨q, ks, q', ps', he, ha, hk, hy, rfl⟩ |
      ⟨d, k, q, ps', hd, he, hy, rfl⟩ | ⟨i, q, ps', h1, h2, h3, hr, hy, rfl⟩
    · cases he
      exact ⟨a, rfl, rfl⟩
    · cases he
      obtain ⟨a1, rfl, h1⟩ := asciiClass_cut ha
      obtain ⟨a2, rfl, h2⟩ := clsItems_cut n hy
      refine ⟨a2, rfl, ?_⟩
      rw [clsItems]
      simp only [h1, h2]
      rfl
    · cases he
      have hn : asciiClass a = none := by
        cases hx : asciiClass a with
        | none => rfl
        | some x =>
          obtain ⟨i, r⟩ := x
          rw [asciiClass_append hx] at ha
          cases ha
      by_cases hh : (clsHead a).2.2 = []
      · rw [clsHead_cut hh] at hk
        exact absurd hk (items_safe _ hz)
      · have hc := clsHead_append a (')' :: z) hh
        rw [hc] at hk
        obtain ⟨a1, rfl, h1⟩ := clsItems_cut n hk
        obtain ⟨a2, rfl, h2⟩ := clsItems_cut n hy
        refine ⟨a2, rfl, ?_⟩
        rw [clsItems, hc]
        simp only [hn, h1, h2]
        rfl
    · have e1 := (List.cons.inj he).1
      have e2 := (List.cons.inj he).2
      subst e1
      cases a with
      | nil =>
        have := (List.cons.inj e2).1
        subst this
        simp at hd
      | cons d a =>
        have e3 := (List.cons.inj e2).1
        have e4 := (List.cons.inj e2).2
        subst e3
        rw [← e4] at hy
        obtain ⟨a2, rfl, h2⟩ := clsItems_cut n hy
        refine ⟨a2, rfl, ?_⟩
        simp only [List.mem_cons, Prod.mk.injEq, List.not_mem_nil, or_false] at hd
        rcases hd with ⟨rfl, rfl⟩ | ⟨rfl, rfl⟩ | ⟨rfl, rfl⟩ <;>
          (rw [clsItems]; simp only [h2]; rfl)
    · rcases clsRange_cut hz (a := c :: a) (by simp) hr with ⟨a1, rfl, hr'⟩ | ⟨d, hd⟩
      · obtain ⟨a2, rfl, h4⟩ := clsItems_cut n hy
        refine ⟨a2, rfl, clsItems_mk (fun e => h1 (by rw [e]; rfl)) (fun e => h2 (by rw [e]; rfl)) ?_ hr' h4⟩
        rintro d t rfl
        refine ⟨?_, ?_, ?_⟩ <;> rintro ⟨rfl, rfl⟩ <;> exact h3 _ (by simp) _ rfl
      · exact absurd hy (items_safe _ hd)

omit hz in
theorem clsItems_enough : ∀ (n : Nat) {m : Nat} {cs r : List Char} {ps : List CPiece}, clsItems n cs = .ok (ps, r) → cs.length < m →
    clsItems m cs = .ok (ps, r)
  | 0, _, _, _, _, h, _ => by cases h
  | n + 1, 0, _, _, _, _, hm => by omega
  | n + 1, m + 1, cs, r, ps, h, hm => by
    rcases clsItems_cases h with ⟨rfl, rfl⟩ | ⟨q, i, q', ps', rfl, ha, hy, rfl⟩ | ⟨q, ks, q', ps', rfl, ha, hk, hy, rfl⟩ |
      ⟨d, k, q, ps', hd, rfl, hy, rfl⟩ | ⟨i, q, ps', h1, h2, h3, hr, hy, rfl⟩
    · rfl
    · obtain ⟨w, _, hw⟩ := asciiClass_some ha
      have := clsItems_enough n (m := m) hy (by simp [hw] at hm; omega)
      rw [clsItems]
      simp only [ha, this]
      rfl
    · have l1 := (clsHead_suffix q).length_le
      have l2 := (clsItems_tail hk).2
      simp only [List.length_cons] at hm
      have e1 := clsItems_enough n (m := m) hk (by omega)
      have e2 := clsItems_enough n (m := m) hy (by omega)
      rw [clsItems]
      simp only [ha, e1, e2]
      rfl
    · simp only [List.length_cons] at hm
      have e2 := clsItems_enough n (m := m) hy (by omega)
      simp only [List.mem_cons, Prod.mk.injEq, List.not_mem_nil, or_false] at hd
      rcases hd with ⟨rfl, rfl⟩ | ⟨rfl, rfl⟩ | ⟨rfl, rfl⟩ <;>
        (rw [clsItems]; simp only [e2]; rfl)
    · have l1 := (clsRange_tail hr).2
      have e2 := clsItems_enough n (m := m) hy (by omega)
      cases cs with
      | nil => cases hr
      | cons c cs =>
        refine clsItems_mk (fun e => h1 (by rw [e]; rfl)) (fun e => h2 (by rw [e]; rfl)) ?_ hr e2
        rintro d t rfl
        refine ⟨?_, ?_, ?_⟩ <;> rintro ⟨rfl, rfl⟩ <;> exact h3 _ (by simp) _ rfl

theorem clsOpen_cut {a r : List Char} {k : Cls} (h : clsOpen (a ++ ')' :: z) = .ok (k, r)) : ∃ k' a', clsOpen a = .ok (k', a') := by
  obtain ⟨ps, hi, -⟩ := clsOpen_cases h
  by_cases hh : (clsHead a).2.2 = []
  · rw [clsHead_cut hh] at hi
    exact absurd hi (items_safe _ hz)
  · rw [clsHead_append a (')' :: z) hh] at hi
    obtain ⟨a', -, h1⟩ := clsItems_cut hz _ hi
    have h2 := clsItems_enough _ (m := (clsHead a).2.2.length + 1) h1 (by omega)
    refine ⟨⟨(clsHead a).1, assemble none (clsHead a).2.1 ps⟩, a', ?_⟩
    unfold clsOpen
    simp only [h2]

omit hz in
theorem decDigits_cut : ∀ a : List Char, decDigits (a ++ ')' :: z) = ((decDigits a).1, (decDigits a).2 ++ ')' :: z)
  | [] => rfl
  | c :: a => by
    rw [List.cons_append, decDigits, decDigits]
    by_cases hc : c.isDigit
    · simp only [hc, if_true, decDigits_cut a]
    · simp only [hc]
      rfl

omit hz in
theorem dropBlank_cut (a : List Char) : (a ++ ')' :: z).dropWhile isBlank = a.dropWhile isBlank ++ ')' :: z := by
  induction a with
  | nil => rfl
  | cons c a ih =>
    rw [List.cons_append, List.dropWhile_cons, List.dropWhile_cons]
    split
    · exact ih
    · rfl

omit hz in
theorem numeral_cut (a : List Char) : numeral (a ++ ')' :: z) = ((numeral a).1, (numeral a).2 ++ ')' :: z) := by
  unfold numeral
  rw [dropBlank_cut, decDigits_cut]
  simp only
  rw [dropBlank_cut]

omit hz in
theorem countTok_cut {a r : List Char} {t : Tok} (h : countTok (a ++ ')' :: z) = .ok (t, r)) : ∃ t' a', countTok a = .ok (t', a') := by
  unfold countTok at h ⊢
  rw [numeral_cut] at h
  generalize hx : numeral a = x at h ⊢
  obtain ⟨m, q⟩ := x
  simp only [] at h
  cases m with
  | nil =>
    cases q with
    | nil => cases h
    | cons c q => cases h
  | cons d m =>
    cases q with
    | nil => cases h
    | cons c q =>
      by_cases hc : c = '}'
      · subst hc; exact ⟨_, _, rfl⟩
      · by_cases hc' : c = ','
        · subst hc'
          cases q with
          | nil => cases h
          | cons c q =>
            by_cases hd : c = '}'
            · subst hd; exact ⟨_, _, rfl⟩
            · have key : ∀ q : List Char, (match (d :: m, ',' :: c :: q) with
                  | ([], _) => .error .invalid
                  | (m, '}' :: r) => .ok (.count (decVal m) (some (decVal m)), r)
                  | (m, ',' :: '}' :: r) => .ok (.count (decVal m) none, r)
                  | (m, ',' :: r) =>
                    match numeral r with
                    | ([], _) => .error .invalid
                    | (n, '}' :: r') => if decVal m ≤ decVal n then .ok (.count (decVal m) (some (decVal n)), r') else .error .invalid
                    | _ => .error .invalid
                  | _ => .error .invalid : Except RErr (Tok × List Char)) = countUpper (decVal (d :: m)) (numeral (c :: q)) := by
                intro q
                split <;> rename_i h0 <;> first | (cases h0; done) | skip
                · cases h0; exact absurd rfl hd
                · cases h0; rfl
                all_goals exact absurd rfl (h0 _ _)
              have h' : countUpper (decVal (d :: m)) (numeral (c :: (q ++ ')' :: z))) = .ok (t, r) := (key (q ++ ')' :: z)).symm.trans h
              rw [← List.cons_append, numeral_cut] at h'
              suffices hs : ∃ t' a', countUpper (decVal (d :: m)) (numeral (c :: q)) = .ok (t', a') by
                obtain ⟨t', a', hs⟩ := hs
                exact ⟨t', a', (key q).trans hs⟩
              generalize numeral (c :: q) = x at h'
              obtain ⟨n, b⟩ := x
              simp only at h'
              cases n with
              | nil => cases b <;> cases h'
              | cons d' n =>
                cases b with
                | nil => cases h'
                | cons c' b =>
                  by_cases h4 : c' = '}'
                  · subst h4
                    simp only [List.cons_append, countUpper] at h' ⊢
                    split at h'
                    · rename_i hle
                      rw [if_pos hle]; exact ⟨_, _, rfl⟩
                    · cases h'
                  · exfalso
                    simp [countUpper, h4] at h'
        · simp [hc, hc'] at h

/-! ## Tokens before a closing parenthesis -/

omit hz in
theorem lexOne_close {c : Char} {r r' : List Char} (h : lexOne c r = .ok (.close, r')) : c = ')' := by
  unfold lexOne at h
  split at h
  · exfalso
    unfold groupOpen at h
    split at h <;> try split at h
    all_goals first | cases h | (split at h <;> cases h)
  · rfl
  · cases h
  · split at h <;> cases h
  · cases h
  · cases h
  · cases h
  · obtain ⟨_, m, n, h⟩ := countTok_suffix h; cases h
  · cases h
  · cases h
  · cases h
  · split at h
    · cases h
    · split at h <;> cases h
  · cases h

omit hz in
theorem lex_error {c : Char} {r : List Char} {x : RErr} (hc : c ≠ '(') (h : lexOne c r = .error x) : ∃ y, lex (c :: r) = .error y := by
  have : rawOne c r = .error x := by
    unfold rawOne
    split
    · next hf =>
      obtain ⟨d, q, h1, _⟩ := atFlags_spec hf
      exact absurd h1 hc
    · rw [h]
  exact ⟨x, by simp only [lex, List.length_cons, lexF, this]⟩

/-- A token that is not complete is completed by a closing parenthesis only if it is a backslash. -/
theorem lexOne_cut {c : Char} {r : List Char} {x : RErr} (hc : c ≠ '(') (h : lexOne c r = .error x) :
    (∃ y, lexOne c (r ++ ')' :: z) = .error y) ∨ c = '\\' ∧ r = [] := by
  cases hl : lexOne c (r ++ ')' :: z) with
  | error y => exact .inl ⟨y, rfl⟩
  | ok tq =>
    obtain ⟨t, q⟩ := tq
    right
    unfold lexOne at h hl
    split at h
    · exact absurd rfl hc
    · cases h
    · cases h
    · exfalso
      simp only at hl
      split at hl
      · next hk =>
        obtain ⟨k', a', h1⟩ := clsOpen_cut hz hk
        rw [h1] at h
        cases h
      · cases hl
    · cases h
    · cases h
    · cases h
    · exfalso
      obtain ⟨t', a', h1⟩ := countTok_cut hl
      rw [h1] at h
      cases h
    · cases h
    · cases h
    · cases h
    · refine ⟨rfl, ?_⟩
      cases r with
      | nil => rfl
      | cons d r =>
        exfalso
        have : ∃ e q, escape d (r ++ ')' :: z) = .ok (e, q) := by
          simp only [List.cons_append] at hl
          split at hl <;> first | (next he => exact ⟨_, _, he⟩) | cases hl
        obtain ⟨e, q, he⟩ := this
        obtain ⟨a', -, h1⟩ := escape_cut z he
        simp only [h1] at h
        cases e <;> cases h
    · cases h

theorem lex_cut : ∀ (n : Nat) {v : List Char} {x : RErr}, v.length ≤ n → '(' ∉ v → lex v = .error x →
    (∃ y, lex (v ++ ')' :: z) = .error y) ∨ v.getLast? = some '\\' ∧ ∃ ts, (∀ t ∈ ts, t.opens = false ∧ (t = .close → ')' ∈ v)) ∧
      lex (v ++ ')' :: z) = prep (ts ++ [.lit ')']) (lex z)
  | _, [], _, _, _, h => by cases h
  | 0, _ :: _, _, hn, _, _ => by simp at hn
  | n + 1, c :: r, x, hn, hp, h => by
    have hc : c ≠ '(' := fun e => hp (by simp [e])
    cases hl : lexOne c r with
    | ok tq =>
      obtain ⟨t, q⟩ := tq
      obtain ⟨hs, ho⟩ := lexOne_closed hc hl
      rw [lex_cons hl] at h
      have h' : ∃ x, lex q = .error x := by
        cases hq : lex q with
        | error x => exact ⟨x, rfl⟩
        | ok ts => rw [hq] at h; cases h
      obtain ⟨x', h'⟩ := h'
      have e := lex_cons (lexOne_append hl (')' :: z) (by simp))
      rw [List.cons_append, e]
      rcases lex_cut n (v := q) (by have := hs.length_le; simp at hn; omega)
        (fun hm => hp (List.mem_cons_of_mem _ (hs.subset hm))) h' with ⟨y, h1⟩ | ⟨h1, ts, h2, h3⟩
      · exact .inl ⟨y, by rw [h1]; rfl⟩
      · refine .inr ⟨?_, t :: ts, ?_, ?_⟩
        · obtain ⟨w, rfl⟩ := hs
          cases q with
          | nil => cases h1
          | cons d q => rw [show c :: (w ++ d :: q) = (c :: w) ++ d :: q from rfl, List.getLast?_append, h1]; rfl
        · intro u hu
          rcases List.mem_cons.1 hu with rfl | hu
          · exact ⟨ho, fun he => by rw [he] at hl; simp [lexOne_close hl]⟩
          · exact ⟨(h2 u hu).1, fun he => List.mem_cons_of_mem _ (hs.subset ((h2 u hu).2 he))⟩
        · rw [h3, prep_prep]
          rfl
    | error y =>
      rcases lexOne_cut hz hc hl with ⟨y', h1⟩ | ⟨rfl, rfl⟩
      · exact .inl (lex_error hc h1)
      · exact .inr ⟨rfl, [], by simp, lex_cons (t := .lit ')') (r' := z) rfl⟩

end

/-- Tokens that open and close nothing leave the stack. -/
theorem build_flat : ∀ (ts : List Tok) (f : Frame) (st : List (Kind × Frame)), (∀ t ∈ ts, t.opens = false ∧ t ≠ .close) →
    (∃ x, ∀ rest, build st f (ts ++ rest) = .error x) ∨ ∃ f', ∀ rest, build st f (ts ++ rest) = build st f' rest
  | [], f, st, _ => .inr ⟨f, fun _ => rfl⟩
  | t :: ts, f, st, h => by
    have ih := fun f => build_flat ts f st (fun u hu => h u (by simp [hu]))
    have ht := h t (by simp)
    cases t with
    | capture n => cases ht.1
    | group => cases ht.1
    | close => exact absurd rfl ht.2
    | quest =>
      simp only [List.cons_append, build]
      cases f.quest with
      | error e => exact .inl ⟨e, fun _ => rfl⟩
      | ok f' => exact ih f'
    | star =>
      simp only [List.cons_append, build]
      cases f.repeated 0 none with
      | error e => exact .inl ⟨e, fun _ => rfl⟩
      | ok f' => exact ih f'
    | plus =>
      simp only [List.cons_append, build]
      cases f.repeated 1 none with
      | error e => exact .inl ⟨e, fun _ => rfl⟩
      | ok f' => exact ih f'
    | count m n =>
      simp only [List.cons_append, build]
      cases f.repeated m n with
      | error e => exact .inl ⟨e, fun _ => rfl⟩
      | ok f' => exact ih f'
    | _ => exact ih _

end CE.Regex
