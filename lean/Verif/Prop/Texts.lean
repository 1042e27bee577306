import Verif.Spec.Texts
import Verif.Prop.Cuts
import Verif.Prop.Language

/-!
# The texts of an expression with custom parameters: C82, C83
-/

namespace CE
open Spec Regex

/-! ## Regexes that do not look around -/

theorem repeats_free {P Q : Matches} (h : ∀ pre x post l, P pre x post l → ∀ pre' post', ∃ l', Q pre' x post' l') {m : Nat} {n : Option Nat}
    {pre x post : List Char} {l : List Cap} (hr : Repeats P m n pre x post l) : ∀ pre' post', ∃ l', Repeats Q m n pre' x post' l' := by
  induction hr with
  | done n pre post => exact fun pre' post' => ⟨[], .done n pre' post'⟩
  | more m n pre x y post l k hn h1 _ ih =>
    intro pre' post'
    obtain ⟨l', h2⟩ := h _ _ _ _ h1 pre' (y ++ post')
    obtain ⟨k', h3⟩ := ih (pre' ++ x) post'
    exact ⟨_, .more _ _ _ _ _ _ _ _ hn h2 h3⟩

theorem match_free {U : Classes} : ∀ (r : Re) (g g' : Nat) (pre x post : List Char) (l : List Cap), r.free = true → r.Match U g pre x post l →
    ∀ pre' post', ∃ l', r.Match U g' pre' x post' l'
  | .empty, _, _, _, _, _, _, _, h, _, _ => ⟨_, h⟩
  | .lit _, _, _, _, _, _, _, _, h, _, _ => ⟨_, h⟩
  | .dot, _, _, _, _, _, _, _, h, _, _ => ⟨_, h⟩
  | .cls _, _, _, _, _, _, _, _, h, _, _ => ⟨_, h⟩
  | .bol, _, _, _, _, _, _, hf, _, _, _ => by cases hf
  | .eol, _, _, _, _, _, _, hf, _, _, _ => by cases hf
  | .mark _, _, _, _, _, _, _, hf, _, _, _ => by cases hf
  | .cap _ r, g, g', pre, x, post, l, hf, ⟨k, h, _⟩, pre', post' => by
    obtain ⟨k', h⟩ := match_free r (g + 1) (g' + 1) _ _ _ _ hf h pre' post'
    exact ⟨_, k', h, rfl⟩
  | .cat a b, g, g', pre, x, post, l, hf, ⟨y, z, k, m, hx, _, h1, h2⟩, pre', post' => by
    have hf := (Bool.and_eq_true _ _ ▸ hf : a.free = true ∧ b.free = true)
    obtain ⟨k', h1⟩ := match_free a g g' _ _ _ _ hf.1 h1 pre' (z ++ post')
    obtain ⟨m', h2⟩ := match_free b (g + a.groups.length) (g' + a.groups.length) _ _ _ _ hf.2 h2 (pre' ++ y) post'
    exact ⟨_, y, z, k', m', hx, rfl, h1, h2⟩
  | .alt a b, g, g', pre, x, post, l, hf, h, pre', post' => by
    have hf := (Bool.and_eq_true _ _ ▸ hf : a.free = true ∧ b.free = true)
    rcases h with h | h
    · obtain ⟨l', h⟩ := match_free a g g' _ _ _ _ hf.1 h pre' post'; exact ⟨l', .inl h⟩
    · obtain ⟨l', h⟩ := match_free b (g + a.groups.length) (g' + a.groups.length) _ _ _ _ hf.2 h pre' post'; exact ⟨l', .inr h⟩
  | .rep r m n _, g, g', pre, x, post, l, hf, h, pre', post' =>
    repeats_free (fun pre x post l h => match_free r g g' pre x post l hf h) h pre' post'

theorem repeats_least {P : Matches} {k : Nat} (h : ∀ pre x post l, P pre x post l → k ≤ x.length) {m : Nat} {n : Option Nat}
    {pre x post : List Char} {l : List Cap} (hr : Repeats P m n pre x post l) : m * k ≤ x.length := by
  induction hr with
  | done n pre post => simp
  | more m n pre x y post l _ hn h1 _ ih =>
    have := h _ _ _ _ h1
    rw [List.length_append]
    cases m with
    | zero => simp
    | succ m =>
      simp only [Nat.add_sub_cancel] at ih
      rw [Nat.succ_mul]
      omega

theorem match_least {U : Classes} : ∀ (r : Re) (g : Nat) (pre x post : List Char) (l : List Cap), r.Match U g pre x post l → r.least ≤ x.length
  | .empty, _, _, _, _, _, _ => Nat.zero_le _
  | .lit _, _, _, _, _, _, ⟨h, _⟩ => by rw [h]; exact Nat.le_refl _
  | .dot, _, _, _, _, _, ⟨⟨_, _, h⟩, _⟩ => by rw [h]; exact Nat.le_refl _
  | .cls _, _, _, _, _, _, ⟨⟨_, _, h⟩, _⟩ => by rw [h]; exact Nat.le_refl _
  | .bol, _, _, _, _, _, _ => Nat.zero_le _
  | .eol, _, _, _, _, _, _ => Nat.zero_le _
  | .mark _, _, _, _, _, _, _ => Nat.zero_le _
  | .cap _ r, g, pre, x, post, l, ⟨k, h, _⟩ => match_least r (g + 1) _ _ _ _ h
  | .cat a b, g, pre, x, post, l, ⟨y, z, k, m, hx, _, h1, h2⟩ => by
    have := match_least a _ _ _ _ _ h1
    have := match_least b _ _ _ _ _ h2
    rw [hx, List.length_append, Re.least]
    omega
  | .alt a b, g, pre, x, post, l, h => by
    rcases h with h | h
    · exact Nat.le_trans (Nat.min_le_left _ _) (match_least a _ _ _ _ _ h)
    · exact Nat.le_trans (Nat.min_le_right _ _) (match_least b _ _ _ _ _ h)
  | .rep r m n _, g, pre, x, post, l, h => repeats_least (fun pre x post l h => match_least r g pre x post l h) h

variable (T : Tables)

/-- What a custom parameter takes in terms of its regex. -/
theorem takes_custom {pars : Provider} {p : Parameter} {v : List Char} {r : Re} (hv : pars p.input = some v) (hr : Regex.parse v = .ok r)
    (pre x post : List Char) : TakesParam T pars p pre x post ↔ ∃ g l, r.Match T.classes g pre x post l := by
  have ha : ∃ a, Ast.parse v = .ok a ∧ a.toRe = r := by
    rw [parse_toRe] at hr
    cases ha : Ast.parse v with
    | error x => rw [ha] at hr; cases hr
    | ok a => rw [ha] at hr; cases hr; exact ⟨a, rfl, rfl⟩
  obtain ⟨a, ha, rfl⟩ := ha
  constructor
  · rintro ⟨g, l, h⟩
    simp only [customMatch, hv] at h
    obtain ⟨a', ha', h⟩ := h
    cases ha.symm.trans ha'
    split at h
    · exact ⟨_, _, h⟩
    · obtain ⟨k, h, -⟩ := h; exact ⟨_, _, h⟩
  · rintro ⟨g, l, h⟩
    obtain ⟨l1, h1⟩ := match_anywhere _ _ 1 _ _ _ _ h
    obtain ⟨l2, h2⟩ := match_anywhere _ _ 2 _ _ _ _ h
    cases ho : a.outerGroup with
    | true => exact ⟨1, l1, by simp only [customMatch, hv]; exact ⟨a, ha, by rw [if_pos ho]; exact h1⟩⟩
    | false => exact ⟨1, _, by simp only [customMatch, hv]; exact ⟨a, ha, by rw [if_neg (by simp [ho])]; exact ⟨l2, h2, rfl⟩⟩⟩

theorem takes_free {pars : Provider} {p : Parameter} (hp : RegularParam pars p) (hf : FreeParam pars p) {pre x post : List Char}
    (h : TakesParam T pars p pre x post) (pre' post' : List Char) (g : Nat) : ∃ l, customMatch T pars p g pre' x post' l := by
  cases hv : pars p.input with
  | none =>
    obtain ⟨g', l, h⟩ := h
    simp only [customMatch, hv] at h ⊢
    obtain ⟨b, hb, h1, h2⟩ := h
    cases b with
    | string =>
      obtain ⟨i, ⟨e, -⟩ | ⟨e, -⟩⟩ := h2
      · exact ⟨_, _, hb, h1, i, .inl ⟨e, rfl⟩⟩
      · exact ⟨_, _, hb, h1, i, .inr ⟨e, rfl⟩⟩
    | _ => exact ⟨_, _, hb, h1, rfl⟩
  | some v =>
    simp only [RegularParam, hv] at hp
    obtain ⟨a, ha, -⟩ := hp
    have hr := parse_re ha
    obtain ⟨g', l, h⟩ := (takes_custom T hv hr pre x post).1 h
    obtain ⟨l', h⟩ := match_free _ _ g' _ _ _ _ (hf v _ hv hr) h pre' post'
    obtain ⟨g'', l'', h⟩ := (takes_custom T hv hr pre' x post').2 ⟨_, _, h⟩
    exact customMatch_anywhere T pars p _ g _ _ _ _ h

/-! ## C82 -/

theorem splits_text {pars : Provider} {e : Expression} {g : Nat} {pre w post : List Char} {l : List Cap}
    (h : SplitsWith (customMatch T pars) (customGroups pars) e g pre w post l) : e.Text T pars w := by
  induction h with
  | nil => rfl
  | cons e es g pre x y post k l h1 _ ih =>
    refine ⟨x, y, rfl, ?_, ih⟩
    cases e with
    | text t => exact h1.1
    | whitespaces t => exact h1.1
    | optional o => exact h1.1
    | alternation a => exact h1.1
    | parameter p => exact ⟨_, _, _, _, h1⟩

theorem text_splits {pars : Provider} {e : Expression} (hr : ∀ p ∈ params e, RegularParam pars p) (hf : ∀ p ∈ params e, FreeParam pars p)
    {w : List Char} (h : e.Text T pars w) (g : Nat) (pre post : List Char) :
    ∃ l, SplitsWith (customMatch T pars) (customGroups pars) e g pre w post l := by
  induction e generalizing g pre w with
  | nil => cases h; exact ⟨_, .nil _ _ _⟩
  | cons e es ih =>
    obtain ⟨x, y, rfl, hx, hy⟩ := h
    have hsub : ∀ p ∈ params es, p ∈ params (e :: es) := fun p hp => by rw [params_cons]; cases e <;> simp [hp]
    obtain ⟨l, ih⟩ := ih (fun p hp => hr p (hsub p hp)) (fun p hp => hf p (hsub p hp)) hy (g + e.groupCountWith (customGroups pars)) (pre ++ x)
    have : ∃ k, e.PieceWith (customMatch T pars) g pre x (y ++ post) k := by
      cases e with
      | text t => exact ⟨[], hx, rfl⟩
      | whitespaces t => exact ⟨[], hx, rfl⟩
      | optional o => exact ⟨[], hx, rfl⟩
      | alternation a => exact ⟨[], hx, rfl⟩
      | parameter p =>
        obtain ⟨pre', post', h⟩ := hx
        have hp : p ∈ params (.parameter p :: es) := by rw [params_cons]; simp
        exact takes_free T (hr p hp) (hf p hp) h _ _ _
    obtain ⟨k, hk⟩ := this
    exact ⟨_, .cons _ _ _ _ _ _ _ _ _ hk ih⟩

/-- C82: an expression matches nothing but texts of its elements one after the other; all of them, if no custom regex looks around. -/
theorem C82_texts (pars : Provider) (src : List Char) (e : Expression) (h : Expression.parse src = .ok e)
    (hr : ∀ p ∈ params e, RegularParam pars p) (hn : ((params e).map (customNames pars)).flatten.Nodup) :
    ∃ c, Expression.regexWithParameters (hirOf T) pars src = .ok c ∧ (∀ w, c.re.IsMatch T.classes w → e.Text T pars w) ∧
      ((∀ p ∈ params e, FreeParam pars p) → ∀ w, c.re.IsMatch T.classes w ↔ e.Text T pars w) := by
  obtain ⟨c, hc, -, -, hf⟩ := (C45_regular_partial T pars src e h hr).1 hn
  have h1 : ∀ w, c.re.IsMatch T.classes w → e.Text T pars w := by
    rintro w ⟨pre, x, post, l, hm⟩
    obtain ⟨rfl, rfl, rfl, hl⟩ := (hf ..).1 hm
    exact splits_text T hl
  refine ⟨c, hc, h1, fun hfree w => ⟨h1 w, fun hw => ?_⟩⟩
  obtain ⟨l, hl⟩ := text_splits T hr hfree hw 1 [] []
  exact ⟨[], w, [], l, (hf ..).2 ⟨rfl, rfl, rfl, hl⟩⟩

theorem shortest_text {pars : Provider} {m : Parameter → Nat} {e : Expression} (hne : NonemptyAlts e) :
    ((∀ p ∈ params e, ∀ x, ParamText T pars p x → m p ≤ x.length) → ∀ w, e.Text T pars w → e.shortestWith m ≤ w.length) ∧
    ((∀ p ∈ params e, Shortest (ParamText T pars p) (m p)) → Shortest (e.Text T pars) (e.shortestWith m)) := by
  have low : ∀ (e : Expression), NonemptyAlts e → (∀ p ∈ params e, ∀ x, ParamText T pars p x → m p ≤ x.length) → ∀ w, e.Text T pars w →
      e.shortestWith m ≤ w.length := by
    intro e
    induction e with
    | nil => exact fun _ _ w _ => Nat.zero_le _
    | cons e es ih =>
      rintro hne hm w ⟨x, y, rfl, hx, hy⟩
      have hsub : ∀ p ∈ params es, p ∈ params (e :: es) := fun p hp => by rw [params_cons]; cases e <;> simp [hp]
      have h1 := ih (fun h => hne (by simp [h])) (fun p hp => hm p (hsub p hp)) y hy
      have h2 : e.shortestWith m ≤ x.length := by
        cases e with
        | text t => cases hx; exact Nat.le_refl _
        | whitespaces t => cases hx; exact Nat.le_refl _
        | optional o => exact Nat.zero_le _
        | alternation a =>
          obtain ⟨b, hb, hx⟩ := hx
          obtain ⟨-, h2⟩ := min_getD (l := a.map branchShortest) (by simp; rintro rfl; exact hne (by simp))
          exact Nat.le_trans (h2 _ (List.mem_map_of_mem hb)) ((branch_shortest b).1 x hx)
        | parameter p => exact hm p (by rw [params_cons]; simp) x hx
      simp only [Expression.shortestWith, List.map_cons, List.sum_cons, List.length_append] at h1 ⊢
      omega
  refine ⟨low e hne, fun hm => ⟨low e hne fun p hp => (hm p hp).1, ?_⟩⟩
  clear low
  induction e with
  | nil => exact ⟨[], rfl, rfl⟩
  | cons e es ih =>
    have hsub : ∀ p ∈ params es, p ∈ params (e :: es) := fun p hp => by rw [params_cons]; cases e <;> simp [hp]
    obtain ⟨y, hy, h1⟩ := ih (fun h => hne (by simp [h])) (fun p hp => hm p (hsub p hp))
    have : ∃ x, e.Text T pars x ∧ x.length = e.shortestWith m := by
      cases e with
      | text t => exact ⟨_, rfl, rfl⟩
      | whitespaces t => exact ⟨_, rfl, rfl⟩
      | optional o => exact ⟨[], .inl rfl, rfl⟩
      | alternation a =>
        obtain ⟨h2, -⟩ := min_getD (l := a.map branchShortest) (by simp; rintro rfl; exact hne (by simp))
        obtain ⟨b, hb, h⟩ := List.mem_map.1 h2
        obtain ⟨x, hx, hl⟩ := (branch_shortest b).2
        exact ⟨x, ⟨b, hb, hx⟩, hl.trans h⟩
      | parameter p => exact (hm p (by rw [params_cons]; simp)).2
    obtain ⟨x, hx, h2⟩ := this
    exact ⟨x ++ y, ⟨x, y, rfl, hx, hy⟩, by simp [Expression.shortestWith, h2] at h1 ⊢; omega⟩

/-- C82: if no parameter matches a text shorter than `m p`, no match of the expression is shorter than their sum with the literal parts. If
no custom regex looks around and these are the lengths of the shortest texts of the parameters, then so is the sum for the expression. -/
theorem C82_shortest (pars : Provider) (src : List Char) (e : Expression) (h : Expression.parse src = .ok e)
    (hr : ∀ p ∈ params e, RegularParam pars p) (hn : ((params e).map (customNames pars)).flatten.Nodup) (m : Parameter → Nat) :
    ∃ c, Expression.regexWithParameters (hirOf T) pars src = .ok c ∧
      ((∀ p ∈ params e, ∀ x, ParamText T pars p x → m p ≤ x.length) → ∀ w, c.re.IsMatch T.classes w → e.shortestWith m ≤ w.length) ∧
      ((∀ p ∈ params e, FreeParam pars p) → (∀ p ∈ params e, Shortest (ParamText T pars p) (m p)) →
        Shortest (c.re.IsMatch T.classes) (e.shortestWith m)) := by
  obtain ⟨c, hc, h1, h2⟩ := C82_texts T pars src e h hr hn
  have h3 := shortest_text T (pars := pars) (m := m) (e := e) (parse_nonemptyAlts h)
  refine ⟨c, hc, fun hm w hw => h3.1 hm w (h1 w hw), fun hf hm => ?_⟩
  obtain ⟨h4, w, h5, h6⟩ := h3.2 hm
  exact ⟨fun w hw => h4 w (h1 w hw), w, (h2 hf w).2 h5, h6⟩

/-- C82: a bound for a custom regex can be read off its structure. -/
theorem C82_least (pars : Provider) (p : Parameter) (v : List Char) (r : Re) (hv : pars p.input = some v) (hr : Regex.parse v = .ok r)
    (x : List Char) (h : ParamText T pars p x) : r.least ≤ x.length := by
  obtain ⟨pre, post, h⟩ := h
  obtain ⟨g, l, h⟩ := (takes_custom T hv hr pre x post).1 h
  exact match_least _ _ _ _ _ _ h

/-- C82: if no custom regex looks around, the expression matches some text exactly if each of its parameters does. -/
theorem C82_some (pars : Provider) (src : List Char) (e : Expression) (h : Expression.parse src = .ok e)
    (hr : ∀ p ∈ params e, RegularParam pars p) (hn : ((params e).map (customNames pars)).flatten.Nodup)
    (hf : ∀ p ∈ params e, FreeParam pars p) :
    ∃ c, Expression.regexWithParameters (hirOf T) pars src = .ok c ∧
      ((∃ w, c.re.IsMatch T.classes w) ↔ ∀ p ∈ params e, ∃ x, ParamText T pars p x) := by
  obtain ⟨c, hc, h1, h2⟩ := C82_texts T pars src e h hr hn
  refine ⟨c, hc, ?_, ?_⟩
  · rintro ⟨w, hm⟩
    have hw := h1 w hm
    clear hm h hr hn hf h1 h2 hc
    induction e generalizing w with
    | nil => intro p hp; cases hp
    | cons e es ih =>
      obtain ⟨x, y, rfl, hx, hy⟩ := hw
      intro p hp
      rw [params_cons] at hp
      cases e with
      | parameter q =>
        rcases List.mem_cons.1 hp with rfl | hp
        · exact ⟨x, hx⟩
        · exact ih y hy p hp
      | _ => exact ih y hy p hp
  · intro hx
    have : ∀ es : Expression, (∀ x ∈ es, x ∈ e) → (∀ p ∈ params es, ∃ x, ParamText T pars p x) → ∃ w, es.Text T pars w := by
      intro es
      induction es with
      | nil => exact fun _ _ => ⟨[], rfl⟩
      | cons e' es ih =>
        intro hs hx
        have hsub : ∀ p ∈ params es, p ∈ params (e' :: es) := fun p hp => by rw [params_cons]; cases e' <;> simp [hp]
        obtain ⟨y, hy⟩ := ih (fun x hx => hs x (by simp [hx])) fun p hp => hx p (hsub p hp)
        have : ∃ x, e'.Text T pars x := by
          cases e' with
          | text t => exact ⟨_, rfl⟩
          | whitespaces t => exact ⟨_, rfl⟩
          | optional o => exact ⟨[], .inl rfl⟩
          | alternation a =>
            cases a with
            | nil => exact absurd (hs _ (by simp)) (parse_nonemptyAlts h)
            | cons b a =>
              obtain ⟨x, hx, -⟩ := (branch_shortest b).2
              exact ⟨x, b, by simp, hx⟩
          | parameter p => exact hx p (by rw [params_cons]; simp)
        obtain ⟨x, hx⟩ := this
        exact ⟨x ++ y, x, y, rfl, hx, hy⟩
    obtain ⟨w, hw⟩ := this e (fun _ h => h) hx
    exact ⟨w, (h2 hf w).2 hw⟩

/-! ## C83 -/

theorem literal_text {pars : Provider} {l : Expression} {u : List Char} (h : literalText l = some u) : ∀ w, l.Text T pars w ↔ w = u := by
  induction l generalizing u with
  | nil => intro w; cases h; rfl
  | cons e es ih =>
    intro w
    have key : ∀ t v, literalText es = some v → t ++ v = u → (∀ x, e.Text T pars x ↔ x = t) → ((Expression.Text T pars (e :: es) w) ↔ w = u) := by
      rintro t v hv rfl ht
      constructor
      · rintro ⟨x, y, rfl, hx, hy⟩; rw [(ht x).1 hx, (ih hv y).1 hy]
      · rintro rfl; exact ⟨_, _, rfl, (ht _).2 rfl, (ih hv _).2 rfl⟩
    cases e with
    | text t =>
      obtain ⟨v, hv, rfl⟩ := Option.map_eq_some_iff.1 h
      exact key _ v hv rfl fun x => Iff.rfl
    | whitespaces t =>
      obtain ⟨v, hv, rfl⟩ := Option.map_eq_some_iff.1 h
      exact key _ v hv rfl fun x => Iff.rfl
    | optional o => cases h
    | alternation a => cases h
    | parameter p => cases h

theorem literal_params {e : Expression} {u : List Char} (hu : literalText e = some u) : params e = [] := by
  induction e generalizing u with
  | nil => rfl
  | cons x es ih =>
    rw [params_cons]
    cases x with
    | text t => obtain ⟨v, hv, -⟩ := Option.map_eq_some_iff.1 hu; exact ih hv
    | whitespaces t => obtain ⟨v, hv, -⟩ := Option.map_eq_some_iff.1 hu; exact ih hv
    | optional o => cases hu
    | alternation a => cases hu
    | parameter p => cases hu

theorem text_append {pars : Provider} {l r : Expression} {w : List Char} :
    Expression.Text T pars (l ++ r) w ↔ ∃ x y, w = x ++ y ∧ l.Text T pars x ∧ r.Text T pars y := by
  induction l generalizing w with
  | nil =>
    constructor
    · exact fun h => ⟨[], w, rfl, rfl, h⟩
    · rintro ⟨x, y, rfl, rfl, h⟩; exact h
  | cons e es ih =>
    constructor
    · rintro ⟨x, y, rfl, hx, hy⟩
      obtain ⟨z, y, rfl, hz, hy⟩ := ih.1 hy
      exact ⟨x ++ z, y, by simp, ⟨x, z, rfl, hx, hz⟩, hy⟩
    · rintro ⟨_, y, rfl, ⟨x, z, rfl, hx, hz⟩, hy⟩
      exact ⟨x, z ++ y, by simp, hx, ih.2 ⟨z, y, rfl, hz, hy⟩⟩

/-- C83: two expressions whose literal beginnings differ, or whose literal ends differ, never match the same text, whatever custom
regexes there are. -/
theorem C83_disjoint (pars pars' : Provider) (src src' : List Char) (e e' : Expression) (h : Expression.parse src = .ok e)
    (h' : Expression.parse src' = .ok e') (hr : ∀ p ∈ params e, RegularParam pars p) (hr' : ∀ p ∈ params e', RegularParam pars' p)
    (hn : ((params e).map (customNames pars)).flatten.Nodup) (hn' : ((params e').map (customNames pars')).flatten.Nodup)
    (l r l' r' : Expression) (he : e = l ++ r) (he' : e' = l' ++ r') (u u' : List Char)
    (hd : (literalText l = some u ∧ literalText l' = some u' ∧ ¬ u <+: u' ∧ ¬ u' <+: u) ∨
      (literalText r = some u ∧ literalText r' = some u' ∧ ¬ u <:+ u' ∧ ¬ u' <:+ u)) :
    ∃ c c', Expression.regexWithParameters (hirOf T) pars src = .ok c ∧ Expression.regexWithParameters (hirOf T) pars' src' = .ok c' ∧
      ∀ w, ¬ (c.re.IsMatch T.classes w ∧ c'.re.IsMatch T.classes w) := by
  obtain ⟨c, hc, h1, -⟩ := C82_texts T pars src e h hr hn
  obtain ⟨c', hc', h1', -⟩ := C82_texts T pars' src' e' h' hr' hn'
  refine ⟨c, c', hc, hc', fun w ⟨hw, hw'⟩ => ?_⟩
  have hw := h1 w hw
  have hw' := h1' w hw'
  rw [he, text_append] at hw
  rw [he', text_append] at hw'
  obtain ⟨x, y, rfl, hx, hy⟩ := hw
  obtain ⟨x', y', hxy, hx', hy'⟩ := hw'
  rcases hd with ⟨hl, hl', h2, h3⟩ | ⟨hl, hl', h2, h3⟩
  · have hp : x' <+: x ++ y := hxy ▸ List.prefix_append _ _
    obtain rfl := (literal_text T hl x).1 hx
    obtain rfl := (literal_text T hl' x').1 hx'
    rcases Nat.le_total x.length x'.length with hle | hle
    · exact h2 (List.prefix_of_prefix_length_le (List.prefix_append _ _) hp hle)
    · exact h3 (List.prefix_of_prefix_length_le hp (List.prefix_append _ _) hle)
  · have hp : y' <:+ x ++ y := hxy ▸ List.suffix_append _ _
    obtain rfl := (literal_text T hl y).1 hy
    obtain rfl := (literal_text T hl' y').1 hy'
    rcases Nat.le_total y.length y'.length with hle | hle
    · exact h2 (List.suffix_of_suffix_length_le (List.suffix_append _ _) hp hle)
    · exact h3 (List.suffix_of_suffix_length_le hp (List.suffix_append _ _) hle)

/-- C83: literal expressions match the same text exactly if they are the same but for escapes; a literal expression and any other one match
the same text exactly if the other one matches it. -/
theorem C83_literal (pars pars' : Provider) (src src' : List Char) (e e' : Expression) (h : Expression.parse src = .ok e)
    (h' : Expression.parse src' = .ok e') (hr' : ∀ p ∈ params e', RegularParam pars' p)
    (hn' : ((params e').map (customNames pars')).flatten.Nodup) (u : List Char) (hu : literalText e = some u) :
    ∃ c c', Expression.regexWithParameters (hirOf T) pars src = .ok c ∧ Expression.regexWithParameters (hirOf T) pars' src' = .ok c' ∧
      ((∃ w, c.re.IsMatch T.classes w ∧ c'.re.IsMatch T.classes w) ↔ c'.re.IsMatch T.classes u) ∧
      ∀ u', literalText e' = some u' → ((∃ w, c.re.IsMatch T.classes w ∧ c'.re.IsMatch T.classes w) ↔ u = u') := by
  have nop : ∀ {e : Expression} {u : List Char}, literalText e = some u → params e = [] := literal_params
  have np := nop hu
  obtain ⟨c, hc, -, h1⟩ := C82_texts T pars src e h (by rw [np]; simp) (by rw [np]; simp)
  have h1 : ∀ w, c.re.IsMatch T.classes w ↔ w = u := fun w => (h1 (by rw [np]; simp) w).trans (literal_text T hu w)
  obtain ⟨c', hc', -, h2⟩ := C82_texts T pars' src' e' h' hr' hn'
  have key : (∃ w, c.re.IsMatch T.classes w ∧ c'.re.IsMatch T.classes w) ↔ c'.re.IsMatch T.classes u :=
    ⟨by rintro ⟨w, hw, hw'⟩; rw [← (h1 w).1 hw]; exact hw', fun hw => ⟨u, (h1 u).2 rfl, hw⟩⟩
  refine ⟨c, c', hc, hc', key, fun u' hu' => key.trans ?_⟩
  rw [h2 (by rw [nop hu']; simp), literal_text T hu']

/-! ## Examples -/

/-- Non-vacuity of C82: the shortest text of `in {year}{unit}` is nine characters long; one of them is `in 2024kg`. -/
example : ∃ e c, Expression.parse (chars! "in {year}{unit}") = .ok e ∧
    Expression.regexWithParameters (hirOf asciiTables) (hashMapProvider [(chars! "year", chars! "[12]\\d{3}"), (chars! "unit", chars! "kg|gram")])
      (chars! "in {year}{unit}") = .ok c ∧
    (∀ p ∈ params e, FreeParam (hashMapProvider [(chars! "year", chars! "[12]\\d{3}"), (chars! "unit", chars! "kg|gram")]) p) ∧
    c.re.IsMatch asciiTables.classes (chars! "in 2024kg") ∧ Shortest (c.re.IsMatch asciiTables.classes) 9 := by
  let pars := hashMapProvider [(chars! "year", chars! "[12]\\d{3}"), (chars! "unit", chars! "kg|gram")]
  let y : Parameter := ⟨⟨4, 1, chars! "year"⟩, 0⟩
  let u : Parameter := ⟨⟨10, 1, chars! "unit"⟩, 1⟩
  let e : Expression := [.text ⟨0, 1, chars! "in"⟩, .whitespaces ⟨2, 1, [' ']⟩, .parameter y, .parameter u]
  have hp : Expression.parse (chars! "in {year}{unit}") = .ok e := rfl
  have two : ∀ p ∈ params e, p = y ∨ p = u := by decide
  have hr : ∀ p ∈ params e, RegularParam pars p := by
    intro p hp
    rcases two p hp with rfl | rfl
    · exact ⟨_, rfl, fun h => absurd rfl h⟩
    · exact ⟨_, rfl, fun h => absurd rfl h⟩
  have hf : ∀ p ∈ params e, FreeParam pars p := by
    intro p hp v r hv h
    rcases two p hp with rfl | rfl
    · cases hv; cases h; rfl
    · cases hv; cases h; rfl
  have ty : ParamText asciiTables pars y (chars! "2024") := by
    refine ⟨[], [], (takes_custom asciiTables (pars := pars) (p := y) rfl rfl [] _ []).2 ⟨1, [], ?_⟩⟩
    have dig : ∀ c, asciiTables.tests.digit c = true → Cls.mem asciiTables.classes ⟨false, [.perl false .digit]⟩ c := fun c h =>
      ⟨_, List.mem_singleton.2 rfl, h⟩
    refine ⟨['2'], chars! "024", [], [], rfl, rfl, ⟨⟨'2', ⟨.single '2', by decide +kernel, rfl⟩, rfl⟩, rfl⟩, ?_⟩
    exact .more _ _ _ ['0'] (chars! "24") _ [] [] (by decide) ⟨⟨'0', dig _ rfl, rfl⟩, rfl⟩
      (.more _ _ _ ['2'] ['4'] _ [] [] (by decide) ⟨⟨'2', dig _ rfl, rfl⟩, rfl⟩
        (.more _ _ _ ['4'] [] _ [] [] (by decide) ⟨⟨'4', dig _ rfl, rfl⟩, rfl⟩ (.done _ _ _)))
  have tu : ParamText asciiTables pars u (chars! "kg") := by
    refine ⟨[], [], (takes_custom asciiTables (pars := pars) (p := u) rfl rfl [] _ []).2 ⟨1, [], .inl ?_⟩⟩
    exact ⟨['k'], ['g'], [], [], rfl, rfl, ⟨rfl, rfl⟩, ⟨rfl, rfl⟩⟩
  let m : Parameter → Nat := fun p => if p = y then 4 else 2
  obtain ⟨c, hc, -, h1⟩ := C82_texts asciiTables pars _ e hp hr (by decide +kernel)
  obtain ⟨c', hc', -, h2⟩ := C82_shortest asciiTables pars _ e hp hr (by decide +kernel) m
  cases hc.symm.trans hc'
  refine ⟨e, c, hp, hc, hf, (h1 hf _).2 ?_, h2 hf ?_⟩
  · exact ⟨chars! "in", _, rfl, rfl, [' '], _, rfl, rfl, chars! "2024", _, rfl, ty, chars! "kg", [], rfl, tu, rfl⟩
  · intro p hp
    rcases two p hp with rfl | rfl
    · exact ⟨fun x hx => C82_least asciiTables pars y _ _ rfl rfl x hx, _, ty, rfl⟩
    · exact ⟨fun x hx => C82_least asciiTables pars u _ _ rfl rfl x hx, _, tu, rfl⟩

/-- It is needed that no custom regex looks around: `a$` matches `a`, but `{x}b` does not match `ab`. -/
example : ∃ e c, Expression.parse (chars! "{x}b") = .ok e ∧
    Expression.regexWithParameters (hirOf asciiTables) (hashMapProvider [(['x'], chars! "a$")]) (chars! "{x}b") = .ok c ∧
    e.Text asciiTables (hashMapProvider [(['x'], chars! "a$")]) (chars! "ab") ∧ ¬ c.re.IsMatch asciiTables.classes (chars! "ab") := by
  let pars := hashMapProvider [(['x'], chars! "a$")]
  let p : Parameter := ⟨⟨1, 1, ['x']⟩, 0⟩
  let e : Expression := [.parameter p, .text ⟨3, 1, ['b']⟩]
  have hp : Expression.parse (chars! "{x}b") = .ok e := rfl
  have one : ∀ q ∈ params e, q = p := by decide
  have hr : ∀ q ∈ params e, RegularParam pars q := by
    intro q hq
    rcases one q hq with rfl
    exact ⟨_, rfl, fun h => absurd rfl h⟩
  obtain ⟨c, hc, -, -, hf⟩ := (C45_regular_partial asciiTables pars _ e hp hr).1 (by decide +kernel)
  refine ⟨e, c, hp, hc, ⟨['a'], ['b'], rfl, ?_, ['b'], [], rfl, rfl, rfl⟩, ?_⟩
  · refine ⟨[], [], (takes_custom asciiTables (pars := pars) (p := p) rfl rfl [] _ []).2 ⟨1, [], ?_⟩⟩
    exact ⟨['a'], [], [], [], rfl, rfl, ⟨rfl, rfl⟩, rfl, rfl, rfl⟩
  · rintro ⟨pre, x, post, l, hm⟩
    obtain ⟨rfl, hx, rfl, hl⟩ := (hf ..).1 hm
    have key : ∀ w l, ¬ SplitsWith (customMatch asciiTables pars) (customGroups pars) [.parameter p, .text ⟨3, 1, ['b']⟩] 1 [] w [] l := by
      intro w l h
      cases h with
      | cons _ _ _ _ x y _ k l h1 h2 =>
        cases h2 with
        | cons _ _ _ _ x' y' _ k' l' h3 h4 =>
          obtain ⟨rfl, -⟩ := h3
          obtain ⟨a, ha, h1⟩ := h1
          cases ha
          obtain ⟨m, ⟨u, v, m1, m2, -, -, -, h5⟩, -⟩ := h1
          have h6 := h5.1
          simp [unescape] at h6
    exact key _ _ hl

/-- Non-vacuity of C83: the beginnings `I eat ` and `I ate ` differ, and so do the ends ` eggs` and ` egg`. -/
example : ∃ e e', Expression.parse (chars! "I eat {any}") = .ok e ∧ Expression.parse (chars! "I ate {int}") = .ok e' ∧
    ∃ l r l' r' u u', e = l ++ r ∧ e' = l' ++ r' ∧ literalText l = some u ∧ literalText l' = some u' ∧ ¬ u <+: u' ∧ ¬ u' <+: u ∧
    (∀ p ∈ params e, RegularParam (hashMapProvider [(chars! "any", chars! ".*")]) p) ∧
    (∀ p ∈ params e', RegularParam (hashMapProvider [(chars! "any", chars! ".*")]) p) := by
  let a : Parameter := ⟨⟨7, 1, chars! "any"⟩, 0⟩
  let i : Parameter := ⟨⟨7, 1, chars! "int"⟩, 0⟩
  let l : List Char → Expression := fun v => [.text ⟨0, 1, ['I']⟩, .whitespaces ⟨1, 1, [' ']⟩, .text ⟨2, 1, v⟩, .whitespaces ⟨5, 1, [' ']⟩]
  have h1 : ∀ p ∈ params (l (chars! "eat") ++ [.parameter a]), p = a := by decide
  have h2 : ∀ p ∈ params (l (chars! "ate") ++ [.parameter i]), p = i := by decide
  refine ⟨l (chars! "eat") ++ [.parameter a], l (chars! "ate") ++ [.parameter i], rfl, rfl, l (chars! "eat"), [.parameter a], l (chars! "ate"),
    [.parameter i], _, _, rfl, rfl, rfl, rfl, by decide, by decide, fun p hp => ?_, fun p hp => ?_⟩
  · rcases h1 p hp with rfl
    exact ⟨_, rfl, fun h => absurd rfl h⟩
  · rcases h2 p hp with rfl
    exact ⟨.int, rfl⟩

end CE
