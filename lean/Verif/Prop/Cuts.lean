import Verif.Spec.Cuts
import Verif.Prop.Separable
import Verif.Prop.Adequate
import Verif.Prop.Attribute

/-! # C79, C80: the arguments of an expression with custom parameters -/

namespace CE
open Spec Spec.Values
open Regex Hir

section
variable {R R' : Parameter → Nat → Matches} {n n' : Parameter → Nat}

theorem params_cons (e : SingleExpression) (es : Expression) :
    params (e :: es) = (match e with | .parameter p => p :: params es | _ => params es) := by
  cases e <;> rfl

theorem begins_with {c : Char} {es : Expression} {g : Nat} {pre w post : List Char} {l : List Cap}
    (hb : Spec.Begins c es) (h : SplitsWith R n es g pre w post l) : ∃ r, w = c :: r := by
  cases h with
  | nil => exact absurd hb (by simp [Spec.Begins])
  | cons e es g pre x y post k l h1 h2 =>
    cases e with
    | text t =>
      obtain ⟨rfl, -⟩ := h1
      simp only [Spec.Begins] at hb
      cases hx : unescape t.frag with
      | nil => rw [hx] at hb; simp at hb
      | cons d r => rw [hx] at hb; simp at hb; exact ⟨r ++ y, by rw [hb]; rfl⟩
    | whitespaces t =>
      obtain ⟨rfl, -⟩ := h1
      simp only [Spec.Begins] at hb
      cases hx : t.frag with
      | nil => rw [hx] at hb; simp at hb
      | cons d r => rw [hx] at hb; simp at hb; exact ⟨r ++ y, by rw [hb]; rfl⟩
    | _ => simp [Spec.Begins] at hb

/-- Cuts and splits are the same but for what is recorded. -/
theorem cuts_splits {es : Expression} {g : Nat} {pre w post : List Char} :
    (∃ l, SplitsWith R n es g pre w post l) ↔ ∃ xs, Cuts R n es g pre w post xs := by
  constructor
  · rintro ⟨l, h⟩
    induction h with
    | nil g pre post => exact ⟨[], .nil ..⟩
    | cons e es g pre x y post k l h1 h2 ih =>
      obtain ⟨xs, ih⟩ := ih
      cases e with
      | parameter p => exact ⟨_, .argument _ _ _ _ _ _ _ _ _ h1 ih⟩
      | _ => exact ⟨_, .other _ _ _ _ _ _ _ _ _ nofun h1 ih⟩
  · rintro ⟨xs, h⟩
    induction h with
    | nil g pre post => exact ⟨[], .nil ..⟩
    | argument p es g pre x y post k xs h1 h2 ih =>
      obtain ⟨l, ih⟩ := ih
      exact ⟨_, .cons (.parameter p) _ _ _ _ _ _ _ _ h1 ih⟩
    | other e es g pre x y post k xs hp h1 h2 ih =>
      obtain ⟨l, ih⟩ := ih
      refine ⟨k ++ l, .cons e _ _ _ _ _ _ _ _ h1 ?_⟩
      cases e with
      | parameter p => exact absurd rfl (hp p)
      | _ => exact ih

/-- Where an element ends is determined. -/
theorem piece_end {e : SingleExpression} {es : Expression} (hk : EndKnownWith R e es) {g g' : Nat} {pre post : List Char}
    {x x' y y' q q' : List Char} {k k' : List Cap} (h1 : e.PieceWith R g pre x q k) (h1' : e.PieceWith R g pre x' q' k')
    {u u' : List Char} (h2 : ∃ l, SplitsWith R n es g' u y post l) (h2' : ∃ l, SplitsWith R n es g' u' y' post l) (hw : x ++ y = x' ++ y') : x = x' := by
  obtain ⟨l, h2⟩ := h2
  obtain ⟨l', h2'⟩ := h2'
  rcases hk with rfl | hk | ⟨c, hc, hx⟩
  · cases h2; cases h2'; simpa using hw
  · have m : e.MatchesWith R x := ⟨_, _, _, _, h1⟩
    have m' : e.MatchesWith R x' := ⟨_, _, _, _, h1'⟩
    rcases List.append_eq_append_iff.1 hw with ⟨t, h, -⟩ | ⟨t, h, -⟩
    · exact hk x x' m m' ⟨t, h.symm⟩
    · exact (hk x' x m' m ⟨t, h.symm⟩).symm
  · obtain ⟨r, rfl⟩ := begins_with hc h2
    obtain ⟨r', rfl⟩ := begins_with hc h2'
    exact append_mark (hx x ⟨_, _, _, _, h1⟩) (hx x' ⟨_, _, _, _, h1'⟩) hw

theorem cuts_none {es : Expression} (hn : params es = []) {g : Nat} {pre w post : List Char} {xs : List (List Char)}
    (h : Cuts R n es g pre w post xs) : xs = [] := by
  induction h with
  | nil => rfl
  | argument p es g pre x y post k xs h1 h2 ih => cases hn
  | other e es g pre x y post k xs hp h1 h2 ih =>
    refine ih ?_
    rw [params_cons] at hn
    cases e with
    | parameter p => exact absurd rfl (hp p)
    | _ => exact hn

/-- The arguments are unique. -/
theorem cuts_unique {es : Expression} (hs : SeparableWith R es) {g : Nat} {pre w post : List Char} {xs xs' : List (List Char)}
    (h : Cuts R n es g pre w post xs) (h' : Cuts R n es g pre w post xs') : xs = xs' := by
  induction es generalizing g pre w xs xs' with
  | nil => cases h; cases h'; rfl
  | cons e es ih =>
    rcases hs with hn | ⟨hk, hs⟩
    · rw [cuts_none hn h, cuts_none hn h']
    generalize hw : w = w' at h'
    cases h with
    | argument p _ _ _ x y _ k xs h1 h2 =>
      cases h' with
      | argument _ _ _ _ x' y' _ k' xs' h1' h2' =>
        obtain rfl := piece_end (e := .parameter p) hk h1 h1' (cuts_splits.2 ⟨_, h2⟩) (cuts_splits.2 ⟨_, h2'⟩) hw
        obtain rfl := List.append_cancel_left hw
        rw [ih hs h2 h2']
      | other _ _ _ _ _ _ _ _ _ hp => exact absurd rfl (hp p)
    | other _ _ _ _ x y _ k xs hp h1 h2 =>
      cases h' with
      | argument p => exact absurd rfl (hp p)
      | other _ _ _ _ x' y' _ k' xs' hp' h1' h2' =>
        obtain rfl := piece_end hk h1 h1' (cuts_splits.2 ⟨_, h2⟩) (cuts_splits.2 ⟨_, h2'⟩) hw
        obtain rfl := List.append_cancel_left hw
        exact ih hs h2 h2'

theorem splitsWith_none {es : Expression} (hn : params es = []) {g : Nat} {pre w post : List Char} {l : List Cap}
    (h : SplitsWith R n es g pre w post l) : l = [] := by
  induction h with
  | nil => rfl
  | cons e es g pre x y post k l h1 h2 ih =>
    rw [params_cons] at hn
    cases e with
    | parameter p => cases hn
    | _ => rw [ih hn, h1.2]; rfl

/-- The captures are unique. -/
theorem splitsWith_unique {es : Expression} (hs : SeparableWith R es) (hd : ∀ p ∈ params es, Determined R p) {g : Nat}
    {pre w post : List Char} {l l' : List Cap}
    (h : SplitsWith R n es g pre w post l) (h' : SplitsWith R n es g pre w post l') : l = l' := by
  induction es generalizing g pre w l l' with
  | nil => cases h; cases h'; rfl
  | cons e es ih =>
    rcases hs with hn | ⟨hk, hs⟩
    · rw [splitsWith_none hn h, splitsWith_none hn h']
    generalize hw : w = w' at h'
    cases h with
    | cons _ _ _ _ x y _ k l h1 h2 =>
    cases h' with
    | cons _ _ _ _ x' y' _ k' l' h1' h2' =>
    obtain rfl := piece_end hk h1 h1' ⟨_, h2⟩ ⟨_, h2'⟩ hw
    obtain rfl := List.append_cancel_left hw
    have hd' : ∀ p ∈ params es, Determined R p := fun p hp => hd p (by rw [params_cons]; cases e <;> simp [hp])
    have hkk : k = k' := by
      cases e with
      | parameter p => exact hd p (by rw [params_cons]; simp) _ _ _ _ _ _ h1 h1'
      | _ => rw [h1.2, h1'.2]
    rw [hkk, ih hs hd' h2 h2']

/-- Parameters that match more make the expression match more. -/
theorem splitsWith_mono {es : Expression} (hm : ∀ p ∈ params es, ∀ g g' pre x post l, R p g pre x post l → ∃ l', R' p g' pre x post l')
    {g g' : Nat} {pre w post : List Char} {l : List Cap} (h : SplitsWith R n es g pre w post l) : ∃ l', SplitsWith R' n' es g' pre w post l' := by
  induction h generalizing g' with
  | nil => exact ⟨_, .nil ..⟩
  | cons e es g pre x y post k l h1 h2 ih =>
    obtain ⟨l', ih⟩ := ih (fun p hp => hm p (by rw [params_cons]; cases e <;> simp [hp])) (g' := g' + e.groupCountWith n')
    have : ∃ k', e.PieceWith R' g' pre x (y ++ post) k' := by
      cases e with
      | parameter p => exact hm p (by rw [params_cons]; simp) _ _ _ _ _ _ h1
      | _ => exact ⟨_, h1⟩
    obtain ⟨k', hk'⟩ := this
    exact ⟨_, .cons _ _ _ _ _ _ _ _ _ hk' ih⟩
end

/-! ## Where groups are numbered from does not matter -/

theorem repeats_mono {P Q : Matches} (h : ∀ pre x post l, P pre x post l → ∃ l', Q pre x post l') {m : Nat} {n : Option Nat}
    {pre x post : List Char} {l : List Cap} (hr : Repeats P m n pre x post l) : ∃ l', Repeats Q m n pre x post l' := by
  induction hr with
  | done n pre post => exact ⟨_, .done ..⟩
  | more m n pre x y post l k hn h1 h2 ih =>
    obtain ⟨l', h1⟩ := h _ _ _ _ h1
    obtain ⟨k', ih⟩ := ih
    exact ⟨_, .more _ _ _ _ _ _ _ _ hn h1 ih⟩

theorem match_anywhere {U : Classes} : ∀ (r : Re) (g g' : Nat) (pre x post : List Char) (l : List Cap), r.Match U g pre x post l →
    ∃ l', r.Match U g' pre x post l'
  | .empty, _, _, _, _, _, _, h => ⟨_, h⟩
  | .lit _, _, _, _, _, _, _, h => ⟨_, h⟩
  | .dot, _, _, _, _, _, _, h => ⟨_, h⟩
  | .cls _, _, _, _, _, _, _, h => ⟨_, h⟩
  | .bol, _, _, _, _, _, _, h => ⟨_, h⟩
  | .eol, _, _, _, _, _, _, h => ⟨_, h⟩
  | .mark _, _, _, _, _, _, _, h => ⟨_, h⟩
  | .cap _ r, g, g', pre, x, post, l, ⟨k, h, _⟩ => by
    obtain ⟨k', h⟩ := match_anywhere r (g + 1) (g' + 1) _ _ _ _ h
    exact ⟨_, k', h, rfl⟩
  | .cat a b, g, g', pre, x, post, l, ⟨y, z, k, m, hx, _, h1, h2⟩ => by
    obtain ⟨k', h1⟩ := match_anywhere a g g' _ _ _ _ h1
    obtain ⟨m', h2⟩ := match_anywhere b (g + a.groups.length) (g' + a.groups.length) _ _ _ _ h2
    exact ⟨_, y, z, k', m', hx, rfl, h1, h2⟩
  | .alt a b, g, g', pre, x, post, l, h => by
    rcases h with h | h
    · obtain ⟨l', h⟩ := match_anywhere a g g' _ _ _ _ h; exact ⟨l', .inl h⟩
    · obtain ⟨l', h⟩ := match_anywhere b (g + a.groups.length) (g' + a.groups.length) _ _ _ _ h; exact ⟨l', .inr h⟩
  | .rep r m n _, g, g', pre, x, post, l, h => repeats_mono (fun pre x post l h => match_anywhere r g g' pre x post l h) h

theorem captures_anywhere {b : Builtin} {g p : Nat} (g' : Nat) {x : List Char} {l : List Cap} (h : b.Captures g p x l) :
    ∃ l', b.Captures g' p x l' := by
  cases b with
  | string =>
    obtain ⟨i, ⟨rfl, -⟩ | ⟨rfl, -⟩⟩ := h
    · exact ⟨_, i, .inl ⟨rfl, rfl⟩⟩
    · exact ⟨_, i, .inr ⟨rfl, rfl⟩⟩
  | _ => exact ⟨_, rfl⟩

variable (T : Tables)

theorem customMatch_anywhere (pars : Provider) (p : Parameter) (g g' : Nat) (pre x post : List Char) (l : List Cap)
    (h : customMatch T pars p g pre x post l) : ∃ l', customMatch T pars p g' pre x post l' := by
  unfold customMatch at h ⊢
  cases hp : pars p.input with
  | none =>
    rw [hp] at h
    obtain ⟨b, hb, h1, h2⟩ := h
    obtain ⟨l', h2⟩ := captures_anywhere g' h2
    exact ⟨l', b, hb, h1, h2⟩
  | some v =>
    rw [hp] at h
    obtain ⟨a, ha, h⟩ := h
    simp only [ha]
    cases ho : a.outerGroup with
    | true =>
      rw [ho, if_pos rfl] at h
      obtain ⟨l', h⟩ := match_anywhere _ _ g' _ _ _ _ h
      exact ⟨l', a, rfl, by rw [ho, if_pos rfl]; exact h⟩
    | false =>
      rw [ho, if_neg (by simp)] at h
      obtain ⟨k, h, -⟩ := h
      obtain ⟨k', h⟩ := match_anywhere _ _ (g' + 1) _ _ _ _ h
      exact ⟨_, a, rfl, by rw [ho, if_neg (by simp)]; exact ⟨k', h, rfl⟩⟩

theorem match_groupless {U : Classes} : ∀ (r : Re) (g : Nat) (pre x post : List Char) (l : List Cap), r.groups = [] →
    r.Match U g pre x post l → l = []
  | .empty, _, _, _, _, _, _, h => h.2
  | .lit _, _, _, _, _, _, _, h => h.2
  | .dot, _, _, _, _, _, _, h => h.2
  | .cls _, _, _, _, _, _, _, h => h.2
  | .bol, _, _, _, _, _, _, h => h.2.2
  | .eol, _, _, _, _, _, _, h => h.2.2
  | .mark _, _, _, _, _, _, _, h => h.2.2
  | .cap _ r, _, _, _, _, _, hg, _ => by simp [Re.groups] at hg
  | .cat a b, g, pre, x, post, l, hg, ⟨y, z, k, m, _, hl, h1, h2⟩ => by
    simp only [Re.groups, List.append_eq_nil_iff] at hg
    rw [hl, match_groupless a _ _ _ _ _ hg.1 h1, match_groupless b _ _ _ _ _ hg.2 h2]; rfl
  | .alt a b, g, pre, x, post, l, hg, h => by
    simp only [Re.groups, List.append_eq_nil_iff] at hg
    rcases h with h | h
    · exact match_groupless a _ _ _ _ _ hg.1 h
    · exact match_groupless b _ _ _ _ _ hg.2 h
  | .rep r m n _, g, pre, x, post, l, hg, h => by
    have hg' : r.groups = [] := by simpa [Re.groups] using hg
    have key : ∀ m n pre x post l, Repeats (r.Match U g) m n pre x post l → l = [] := by
      intro m n pre x post l h
      induction h with
      | done => rfl
      | more m n pre x y post l k hn h1 h2 ih => rw [ih, match_groupless r _ _ _ _ _ hg' h1]; rfl
    exact key _ _ _ _ _ _ h

/-- C79: what a parameter captures is determined by its text if it is built in or its regex has no groups. -/
theorem C79_determined (pars : Provider) (p : Parameter) (h : ∀ v a, pars p.input = some v → Ast.parse v = .ok a → a.toRe.groups = []) :
    Determined (customMatch T pars) p := by
  intro g pre x post l l' h1 h2
  unfold customMatch at h1 h2
  cases hp : pars p.input with
  | none =>
    rw [hp] at h1 h2
    obtain ⟨b, hb, -, h1⟩ := h1
    obtain ⟨b', hb', -, h2⟩ := h2
    obtain rfl := name_inj (hb.symm.trans hb')
    exact captures_unique h1 h2
  | some v =>
    rw [hp] at h1 h2
    obtain ⟨a, ha, h1⟩ := h1
    obtain ⟨a', ha', h2⟩ := h2
    rw [ha] at ha'
    cases ha'
    have hg := h v a hp ha
    split at h1
    · rw [if_pos (by assumption)] at h2
      rw [match_groupless _ _ _ _ _ _ hg h1, match_groupless _ _ _ _ _ _ hg h2]
    · rw [if_neg (by assumption)] at h2
      obtain ⟨k, h1, rfl⟩ := h1
      obtain ⟨k', h2, rfl⟩ := h2
      rw [match_groupless _ _ _ _ _ _ hg h1, match_groupless _ _ _ _ _ _ hg h2]

theorem match_width {U : Classes} : ∀ (r : Re) (k g : Nat) (pre x post : List Char) (l : List Cap), r.width = some k →
    r.Match U g pre x post l → x.length = k
  | .empty, _, _, _, _, _, _, hk, h => by cases hk; rw [h.1]; rfl
  | .lit _, _, _, _, _, _, _, hk, h => by cases hk; rw [h.1]; rfl
  | .dot, _, _, _, _, _, _, hk, ⟨⟨c, _, hx⟩, _⟩ => by cases hk; rw [hx]; rfl
  | .cls _, _, _, _, _, _, _, hk, ⟨⟨c, _, hx⟩, _⟩ => by cases hk; rw [hx]; rfl
  | .bol, _, _, _, _, _, _, hk, h => by cases hk; rw [h.2.1]; rfl
  | .eol, _, _, _, _, _, _, hk, h => by cases hk; rw [h.2.1]; rfl
  | .mark _, _, _, _, _, _, _, hk, h => by cases hk; rw [h.2.1]; rfl
  | .cap _ r, k, g, pre, x, post, l, hk, ⟨_, h, _⟩ => match_width r k _ _ _ _ _ hk h
  | .cat a b, k, g, pre, x, post, l, hk, ⟨y, z, _, _, hx, _, h1, h2⟩ => by
    rw [Re.width] at hk
    split at hk
    · rename_i i j hi hj
      cases hk
      rw [hx, List.length_append, match_width a i _ _ _ _ _ hi h1, match_width b j _ _ _ _ _ hj h2]
    · cases hk
  | .alt a b, k, g, pre, x, post, l, hk, h => by
    rw [Re.width] at hk
    split at hk
    · rename_i he
      rcases h with h | h
      · exact match_width a k _ _ _ _ _ hk h
      · exact match_width b k _ _ _ _ _ (he ▸ hk) h
    · cases hk
  | .rep r m n _, k, g, pre, x, post, l, hk, h => by
    rw [Re.width] at hk
    split at hk
    · rename_i hn
      subst hn
      cases hw : r.width with
      | none => rw [hw] at hk; cases hk
      | some i =>
        rw [hw] at hk
        cases hk
        have key : ∀ m n pre x post l, Repeats (r.Match U g) m n pre x post l → n = some m → x.length = m * i := by
          intro m n pre x post l h
          induction h with
          | done => intro _; simp
          | more m n pre x y post l k hn h1 h2 ih =>
            rintro rfl
            have hm : m ≠ 0 := fun h0 => hn (by rw [h0])
            rw [List.length_append, match_width r i _ _ _ _ _ hw h1, ih rfl]
            obtain ⟨m, rfl⟩ := Nat.exists_eq_succ_of_ne_zero hm
            rw [Nat.succ_sub_one, Nat.succ_mul, Nat.add_comm]
        exact key _ _ _ _ _ _ h rfl
    · cases hk

/-- C79: the end of a custom parameter is known, whatever follows, if all texts of its regex have the same length. -/
theorem C79_width (pars : Provider) (p : Parameter) (v : List Char) (r : Re) (k : Nat) (hv : pars p.input = some v) (hr : Regex.parse v = .ok r)
    (hk : r.width = some k) (es : Expression) : EndKnownWith (customMatch T pars) (.parameter p) es := by
  have key : ∀ x, (SingleExpression.parameter p).MatchesWith (customMatch T pars) x → x.length = k := by
    rintro x ⟨g, pre, post, l, h⟩
    simp only [SingleExpression.PieceWith, customMatch, hv] at h
    obtain ⟨a, ha, h⟩ := h
    have := parse_re ha
    rw [hr] at this
    cases this
    split at h
    · exact match_width _ _ _ _ _ _ _ hk h
    · obtain ⟨_, h, _⟩ := h
      exact match_width _ _ _ _ _ _ _ hk h
  refine .inr (.inl fun x x' hx hx' hp => ?_)
  exact hp.eq_of_length (by rw [key x hx, key x' hx'])

/-- C79: literal text has a known end. -/
theorem C79_literal {R : Parameter → Nat → Matches} (t : Span) (es : Expression) :
    EndKnownWith R (.text t) es ∧ EndKnownWith R (.whitespaces t) es :=
  ⟨.inr (.inl fun _ _ hx hx' _ => by obtain ⟨_, _, _, _, rfl, _⟩ := hx; obtain ⟨_, _, _, _, rfl, _⟩ := hx'; rfl),
    .inr (.inl fun _ _ hx hx' _ => by obtain ⟨_, _, _, _, rfl, _⟩ := hx; obtain ⟨_, _, _, _, rfl, _⟩ := hx'; rfl)⟩

/-- C79: `{string}`, unless it is custom, has a known end. -/
theorem C79_string (pars : Provider) (p : Parameter) (hp : pars p.input = none) (hs : p.input.frag = Builtin.string.name) (es : Expression) :
    EndKnownWith (customMatch T pars) (.parameter p) es := by
  refine .inr (.inl ?_)
  rintro x x' ⟨g, pre, post, l, h⟩ ⟨g', pre', post', l', h'⟩ ⟨t, ht⟩
  simp only [SingleExpression.PieceWith, customMatch, hp] at h h'
  obtain ⟨b, hb, h, -⟩ := h
  obtain ⟨b', hb', h', -⟩ := h'
  obtain rfl := name_inj (hb.symm.trans hs)
  obtain rfl := name_inj (hb'.symm.trans hs)
  exact string_end (y := t) (y' := []) h h' (by simpa using ht)

/-- C79: if the ends of the elements can be told, the texts of the parameters are unique. -/
theorem C79_arguments (pars : Provider) (src : List Char) (e : Expression) (h : Expression.parse src = .ok e)
    (hr : ∀ p ∈ params e, RegularParam pars p) (hn : ((params e).map (customNames pars)).flatten.Nodup)
    (hs : SeparableWith (customMatch T pars) e) :
    ∃ c, Expression.regexWithParameters (hirOf T) pars src = .ok c ∧ ∀ w : List Char,
      (c.re.IsMatch T.classes w → ∃ xs, Cuts (customMatch T pars) (customGroups pars) e 1 [] w [] xs ∧
        ∀ xs', Cuts (customMatch T pars) (customGroups pars) e 1 [] w [] xs' → xs' = xs) ∧
      ((∃ xs, Cuts (customMatch T pars) (customGroups pars) e 1 [] w [] xs) → c.re.IsMatch T.classes w) := by
  obtain ⟨c, hc, -, -, hf⟩ := (C45_regular_partial T pars src e h hr).1 hn
  refine ⟨c, hc, fun w => ⟨?_, ?_⟩⟩
  · rintro ⟨pre, x, post, l, hm⟩
    obtain ⟨rfl, rfl, rfl, hl⟩ := (hf ..).1 hm
    obtain ⟨xs, hx⟩ := cuts_splits.1 ⟨l, hl⟩
    exact ⟨xs, hx, fun xs' hx' => cuts_unique hs hx' hx⟩
  · intro hx
    obtain ⟨l, hl⟩ := cuts_splits.2 hx
    exact ⟨[], w, [], l, (hf w [] w [] l).2 ⟨rfl, rfl, rfl, hl⟩⟩

/-- C79: if furthermore what the parameters capture is determined by their texts, there is one match only, and it is found. -/
theorem C79_unique (pars : Provider) (src : List Char) (e : Expression) (h : Expression.parse src = .ok e)
    (hr : ∀ p ∈ params e, RegularParam pars p) (hn : ((params e).map (customNames pars)).flatten.Nodup)
    (hs : SeparableWith (customMatch T pars) e) (hd : ∀ p ∈ params e, Determined (customMatch T pars) p) :
    ∃ c hir, Expression.regexWithParameters (hirOf T) pars src = .ok c ∧ hirOf T c.pattern = some hir ∧ ∀ (w : List Char) (l : List Cap),
      SplitsWith (customMatch T pars) (customGroups pars) e 1 [] w [] l →
        (∀ pre' x' post' l', c.re.Finds T.classes w pre' x' post' l' ↔ pre' = [] ∧ x' = w ∧ post' = [] ∧ l' = l) ∧
        ∃ k, hir.find w = some (0, w, k) ∧ Agree k l := by
  obtain ⟨c, hc, -, -, hf⟩ := (C45_regular_partial T pars src e h hr).1 hn
  obtain ⟨c', hc', hir, hh, hfind⟩ := C73_split T pars src e h hr hn
  rw [hc] at hc'
  cases hc'
  refine ⟨c, hir, hc, hh, fun w l hl => ⟨fun pre' x' post' l' => ?_, ?_⟩⟩
  · rw [hf]
    constructor
    · rintro ⟨rfl, rfl, rfl, h'⟩
      exact ⟨rfl, rfl, rfl, splitsWith_unique hs hd h' hl⟩
    · rintro ⟨rfl, rfl, rfl, rfl⟩
      exact ⟨rfl, rfl, rfl, hl⟩
  · obtain ⟨f1, f2⟩ := hfind w
    cases hfw : hir.find w with
    | none => exact absurd ⟨l, hl⟩ (f1.1 hfw)
    | some r =>
      obtain ⟨i, x, k⟩ := r
      obtain ⟨rfl, rfl, k', hk', hag⟩ := f2 i x k hfw
      rw [splitsWith_unique hs hd hk' hl] at hag
      exact ⟨k, rfl, hag⟩

/-- C80: a provider whose regexes match more makes the expression match more. -/
theorem C80_wider (pars pars' : Provider) (src : List Char) (e : Expression) (h : Expression.parse src = .ok e)
    (hr : ∀ p ∈ params e, RegularParam pars p) (hn : ((params e).map (customNames pars)).flatten.Nodup)
    (hr' : ∀ p ∈ params e, RegularParam pars' p) (hn' : ((params e).map (customNames pars')).flatten.Nodup)
    (hw : ∀ p ∈ params e, ∀ pre x post, TakesParam T pars p pre x post → TakesParam T pars' p pre x post) :
    ∃ c c', Expression.regexWithParameters (hirOf T) pars src = .ok c ∧ Expression.regexWithParameters (hirOf T) pars' src = .ok c' ∧
      ∀ w, c.re.IsMatch T.classes w → c'.re.IsMatch T.classes w := by
  obtain ⟨c, hc, -, -, hf⟩ := (C45_regular_partial T pars src e h hr).1 hn
  obtain ⟨c', hc', -, -, hf'⟩ := (C45_regular_partial T pars' src e h hr').1 hn'
  refine ⟨c, c', hc, hc', ?_⟩
  rintro w ⟨pre, x, post, l, hm⟩
  obtain ⟨rfl, rfl, rfl, hl⟩ := (hf ..).1 hm
  obtain ⟨l', hl'⟩ := splitsWith_mono (R' := customMatch T pars') (n' := customGroups pars') (g' := 1) (fun p hp g g' pre x post l hm => by
    obtain ⟨g2, l2, h2⟩ := hw p hp pre x post ⟨g, l, hm⟩
    exact customMatch_anywhere T pars' p g2 g' pre x post l2 h2) hl
  exact ⟨[], x, [], l', (hf' ..).2 ⟨rfl, rfl, rfl, hl'⟩⟩

/-- C80: equivalent regexes give equivalent expressions. -/
theorem C80_equivalent (pars pars' : Provider) (src : List Char) (e : Expression) (h : Expression.parse src = .ok e)
    (hr : ∀ p ∈ params e, RegularParam pars p) (hn : ((params e).map (customNames pars)).flatten.Nodup)
    (hr' : ∀ p ∈ params e, RegularParam pars' p) (hn' : ((params e).map (customNames pars')).flatten.Nodup)
    (hw : ∀ p ∈ params e, ∀ pre x post, TakesParam T pars p pre x post ↔ TakesParam T pars' p pre x post) :
    ∃ c c', Expression.regexWithParameters (hirOf T) pars src = .ok c ∧ Expression.regexWithParameters (hirOf T) pars' src = .ok c' ∧
      ∀ w, c.re.IsMatch T.classes w ↔ c'.re.IsMatch T.classes w := by
  obtain ⟨c, c', h1, h2, h3⟩ := C80_wider T pars pars' src e h hr hn hr' hn' fun p hp pre x post => (hw p hp pre x post).1
  obtain ⟨d', d, h1', h2', h3'⟩ := C80_wider T pars' pars src e h hr' hn' hr hn fun p hp pre x post => (hw p hp pre x post).2
  rw [h1] at h2'
  rw [h2] at h1'
  cases h2'; cases h1'
  exact ⟨c, c', h1, h2, fun w => ⟨h3 w, h3' w⟩⟩

/-- C80: a parameter that never matches makes the expression match nothing. -/
theorem C80_never (pars : Provider) (src : List Char) (e : Expression) (h : Expression.parse src = .ok e)
    (hr : ∀ p ∈ params e, RegularParam pars p) (hn : ((params e).map (customNames pars)).flatten.Nodup)
    (p : Parameter) (hp : p ∈ params e) (hx : ∀ pre x post, ¬ TakesParam T pars p pre x post) :
    ∃ c, Expression.regexWithParameters (hirOf T) pars src = .ok c ∧ ∀ w, ¬ c.re.IsMatch T.classes w := by
  obtain ⟨c, hc, -, -, hf⟩ := (C45_regular_partial T pars src e h hr).1 hn
  refine ⟨c, hc, ?_⟩
  rintro w ⟨pre, x, post, l, hm⟩
  obtain ⟨rfl, rfl, rfl, hl⟩ := (hf ..).1 hm
  have key : ∀ (es : Expression) g pre w post l, SplitsWith (customMatch T pars) (customGroups pars) es g pre w post l → p ∉ params es := by
    intro es g pre w post l hl
    induction hl with
    | nil => simp [params]
    | cons e es g pre x y post k l h1 h2 ih =>
      rw [params_cons]
      cases e with
      | parameter q =>
        intro hp
        rcases List.mem_cons.1 hp with rfl | hp
        · exact hx pre x (y ++ post) ⟨g, k, h1⟩
        · exact ih hp
      | _ => exact ih
  exact key _ _ _ _ _ _ hl hp

/-! ## Examples -/

/-- Non-vacuity of C79: nothing between `{year}` and `{month}`, whose texts have a fixed length. -/
example : ∃ e c hir, Expression.parse (chars! "{year}{month} {word}") = .ok e ∧
    (∀ p ∈ params e, RegularParam (hashMapProvider [(chars! "year", chars! "[12]\\d{3}"), (chars! "month", chars! "(?:0|1)\\d")]) p) ∧
    SeparableWith (customMatch asciiTables (hashMapProvider [(chars! "year", chars! "[12]\\d{3}"), (chars! "month", chars! "(?:0|1)\\d")])) e ∧
    (∀ p ∈ params e, Determined (customMatch asciiTables (hashMapProvider [(chars! "year", chars! "[12]\\d{3}"), (chars! "month", chars! "(?:0|1)\\d")])) p) ∧
    Expression.regexWithParameters (hirOf asciiTables) (hashMapProvider [(chars! "year", chars! "[12]\\d{3}"), (chars! "month", chars! "(?:0|1)\\d")])
      (chars! "{year}{month} {word}") = .ok c ∧
    hirOf asciiTables c.pattern = some hir ∧
    hir.find (chars! "202411 x") = some (0, chars! "202411 x", [⟨1, 0, chars! "2024"⟩, ⟨2, 4, chars! "11"⟩, ⟨3, 7, ['x']⟩]) := by
  let pars := hashMapProvider [(chars! "year", chars! "[12]\\d{3}"), (chars! "month", chars! "(?:0|1)\\d")]
  let y : Parameter := ⟨⟨1, 1, chars! "year"⟩, 0⟩
  let m : Parameter := ⟨⟨7, 1, chars! "month"⟩, 1⟩
  let wd : Parameter := ⟨⟨15, 1, chars! "word"⟩, 2⟩
  have three : ∀ p ∈ params [.parameter y, .parameter m, .whitespaces ⟨13, 1, [' ']⟩, .parameter wd], p = y ∨ p = m ∨ p = wd := by decide
  refine ⟨[.parameter y, .parameter m, .whitespaces ⟨13, 1, [' ']⟩, .parameter wd], _, _, rfl, ?_, ?_, ?_, rfl, rfl, by decide +kernel⟩
  · intro p hp
    rcases three p hp with rfl | rfl | rfl
    · exact ⟨_, rfl, fun h => absurd rfl h⟩
    · exact ⟨_, rfl, fun h => absurd rfl h⟩
    · exact ⟨.word, rfl⟩
  · exact .inr ⟨C79_width _ pars y _ _ 4 rfl rfl rfl _, .inr ⟨C79_width _ pars m _ _ 2 rfl rfl rfl _, .inr ⟨(C79_literal _ _).2, .inr ⟨.inl rfl, trivial⟩⟩⟩⟩
  · intro p hp
    refine C79_determined _ pars p fun v a hv ha => ?_
    rcases three p hp with rfl | rfl | rfl
    · cases hv; cases ha; rfl
    · cases hv; cases ha; rfl
    · cases hv

/-- Non-vacuity of C80: `ab|\d+` instead of `ab`. -/
example : ∃ e c c' hir hir', Expression.parse (chars! "x {p}") = .ok e ∧
    (∀ p ∈ params e, RegularParam (hashMapProvider [(['p'], chars! "ab")]) p ∧ RegularParam (hashMapProvider [(['p'], chars! "ab|\\d+")]) p ∧
      ∀ pre x post, TakesParam asciiTables (hashMapProvider [(['p'], chars! "ab")]) p pre x post →
        TakesParam asciiTables (hashMapProvider [(['p'], chars! "ab|\\d+")]) p pre x post) ∧
    Expression.regexWithParameters (hirOf asciiTables) (hashMapProvider [(['p'], chars! "ab")]) (chars! "x {p}") = .ok c ∧
    Expression.regexWithParameters (hirOf asciiTables) (hashMapProvider [(['p'], chars! "ab|\\d+")]) (chars! "x {p}") = .ok c' ∧
    hirOf asciiTables c.pattern = some hir ∧ hirOf asciiTables c'.pattern = some hir' ∧
    (hir.find (chars! "x ab")).isSome = true ∧ (hir'.find (chars! "x ab")).isSome = true ∧ (hir.find (chars! "x 12")).isSome = false ∧
    (hir'.find (chars! "x 12")).isSome = true := by
  have one : ∀ p ∈ params [.text ⟨0, 1, ['x']⟩, .whitespaces ⟨1, 1, [' ']⟩, .parameter ⟨⟨3, 1, ['p']⟩, 0⟩], p = ⟨⟨3, 1, ['p']⟩, 0⟩ := by decide
  refine ⟨_, _, _, _, _, rfl, ?_, rfl, rfl, rfl, rfl, by decide +kernel, by decide +kernel, by decide +kernel, by decide +kernel⟩
  intro p hp
  obtain rfl := one p hp
  refine ⟨⟨_, rfl, fun h => absurd rfl h⟩, ⟨_, rfl, fun h => absurd rfl h⟩, ?_⟩
  rintro pre x post ⟨g, l, a, ha, h⟩
  cases ha
  obtain ⟨k, h, rfl⟩ := h
  exact ⟨g, _, _, rfl, k, .inl h, rfl⟩

end CE
