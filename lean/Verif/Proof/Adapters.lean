import Verif.Spec.Lookups
import Verif.Proof.Iter
import Verif.Proof.ExpandBuiltin
import Verif.Proof.Expand
import Verif.Proof.Custom

/-! # Lemmas on the adapters of iterators -/

namespace CE.Iter
open Spec

variable {S σ τ α β : Type}

/-! ## Iterators without effects -/

/-- The iterator stays at its end. -/
def Ended (nx : Next σ α) (s : σ) : Prop := ∃ D : σ → Prop, D s ∧ ∀ t, D t → ∃ t', nx t = some (none, t') ∧ D t'

/-- It yields the items, and `None` forever after. -/
inductive Fused (nx : Next σ α) : σ → List α → Prop
  | done (s s') : nx s = some (none, s') → Ended nx s' → Fused nx s []
  | item (s s' a l) : nx s = some (some a, s') → Fused nx s' l → Fused nx s (a :: l)

theorem Ended.next {nx : Next σ α} {s : σ} (h : Ended nx s) : ∃ s', nx s = some (none, s') ∧ Ended nx s' := by
  obtain ⟨D, h1, h2⟩ := h
  obtain ⟨s', h3, h4⟩ := h2 s h1
  exact ⟨s', h3, D, h4, h2⟩

theorem Exhausted.next {nx : NextS S σ α} {s : σ} (h : Exhausted nx s) (e : S) :
    ∃ s', nx s e = some ((none, s'), e) ∧ Exhausted nx s' := by
  obtain ⟨D, h1, h2⟩ := h
  obtain ⟨s', h3, h4⟩ := h2 s h1 e
  exact ⟨s', h3, D, h4, h2⟩

theorem exhausted_lift {nx : Next σ α} {s : σ} (h : Ended nx s) : Exhausted (lift nx : NextS S σ α) s := by
  obtain ⟨D, h1, h2⟩ := h
  refine ⟨D, h1, fun t ht e => ?_⟩
  obtain ⟨t', h3, h4⟩ := h2 t ht
  exact ⟨t', by simp [lift, h3], h4⟩

theorem emits_lift {nx : Next σ α} {s : σ} {l : List α} (h : Fused nx s l) : Emits (lift nx : NextS S σ α) s l := by
  intro e
  induction h with
  | done s s' h1 h2 => exact .done _ s' _ _ (by simp [lift, h1]) (exhausted_lift h2)
  | item s s' a l h1 _ ih => exact .item _ s' _ _ _ _ _ (by simp [lift, h1]) ih

theorem ended_run {nx : NextS Unit σ α} {s : σ} (h : Exhausted nx s) : Ended (run nx) s := by
  obtain ⟨D, h1, h2⟩ := h
  refine ⟨D, h1, fun t ht => ?_⟩
  obtain ⟨t', h3, h4⟩ := h2 t ht ()
  exact ⟨t', by simp [run, h3], h4⟩

theorem fused_run {nx : NextS Unit σ α} {s : σ} {e e' : Unit} {t : List (α × Unit)} (h : Traces nx s e t e') :
    Fused (run nx) s (t.map (·.1)) := by
  induction h with
  | done s s' e e' h1 h2 => exact .done _ s' (by simp [run, h1]) (ended_run h2)
  | item s s' e e₁ e' a l h1 _ ih => exact .item _ s' _ _ (by simp [run, h1]) ih

theorem fused_of_emits {nx : NextS Unit σ α} {s : σ} {l : List α} (h : Emits nx s l) : Fused (run nx) s l := by
  have := fused_run (h ())
  simpa [List.map_map, Function.comp_def] using this

theorem fused_chars (t : List Char) : Fused charsNext t t := by
  induction t with
  | nil => exact .done _ [] rfl ⟨(· = []), rfl, fun t h => by subst h; exact ⟨[], rfl, rfl⟩⟩
  | cons c t ih => exact .item _ t _ _ rfl ih

theorem fused_owned (str : List Char) : Fused OwnedChars.next (OwnedChars.new str) str := by
  suffices h : ∀ n k, str.length - k = n → Fused OwnedChars.next ⟨str, k⟩ (str.drop k) by
    simpa [OwnedChars.new] using h _ 0 rfl
  intro n
  induction n with
  | zero =>
    intro k hk
    have h : str[k]? = none := by simp; omega
    rw [show str.drop k = [] by simp; omega]
    refine .done _ ⟨str, k⟩ (by simp [OwnedChars.next, h]) ⟨(· = ⟨str, k⟩), rfl, fun t ht => ⟨⟨str, k⟩, ?_, rfl⟩⟩
    subst ht; simp [OwnedChars.next, h]
  | succ n ih =>
    intro k hk
    have hk : k < str.length := by omega
    rw [List.drop_eq_getElem_cons hk]
    exact .item _ ⟨str, k + 1⟩ _ _ (by simp [OwnedChars.next, hk]) (ih (k + 1) (by omega))

theorem fused_skipLast {nx : Next σ α} {s : σ} {xs : List α} (hx : Fused nx s xs) :
    Fused (SkipLast.next nx) (SkipLast.new s) xs.dropLast := by
  have hend : ∀ s, Ended nx s → Ended (SkipLast.next nx) ⟨some none, s⟩ := fun s hs => by
    refine ⟨fun st => st.peeked = some none ∧ Ended nx st.iter, ⟨rfl, hs⟩, fun st ⟨h1, h2⟩ => ?_⟩
    obtain ⟨s', h3, h4⟩ := h2.next
    obtain ⟨p, it⟩ := st
    subst h1
    exact ⟨⟨some none, s'⟩, by simp [SkipLast.next, Peekable.next, Peekable.peek, h3], rfl, h4⟩
  have hpeeked : ∀ {s xs}, Fused nx s xs → ∀ a, Fused (SkipLast.next nx) ⟨some (some a), s⟩ (a :: xs).dropLast := by
    intro s xs hx
    induction hx with
    | done s s' h h2 =>
      intro a
      exact .done _ ⟨some none, s'⟩ (by simp [SkipLast.next, Peekable.next, Peekable.peek, h]) (hend _ h2)
    | item s s' b xs h _ ih =>
      intro a
      exact .item _ ⟨some (some b), s'⟩ _ _ (by simp [SkipLast.next, Peekable.next, Peekable.peek, h]) (ih b)
  cases hx with
  | done s s' h h2 =>
    obtain ⟨s'', h3, h4⟩ := h2.next
    exact .done _ ⟨some none, s''⟩
      (by simp [SkipLast.next, SkipLast.new, Peekable.next, Peekable.peek, h, h3]) (hend _ h4)
  | item s s' a xs h hx =>
    cases hx with
    | done _ s'' h2 h3 =>
      exact .done _ ⟨some none, s''⟩
        (by simp [SkipLast.next, SkipLast.new, Peekable.next, Peekable.peek, h, h2]) (hend _ h3)
    | item _ s'' b xs h2 hx =>
      exact .item _ ⟨some (some b), s''⟩ _ _
        (by simp [SkipLast.next, SkipLast.new, Peekable.next, Peekable.peek, h, h2]) (hpeeked hx b)

theorem ended_escape {it : Peekable (List Char) Char} (h : Stands it []) :
    Ended (EscapeForRegex.next charsNext 2) ⟨it, none⟩ := by
  refine ⟨fun s => s.wasEscaped = none ∧ Stands s.iter [], ⟨rfl, h⟩, fun s ⟨h1, h2⟩ => ?_⟩
  obtain ⟨it', h3, h4⟩ := h2.next
  exact ⟨⟨it', none⟩, by simp [EscapeForRegex.next, EscapeForRegex.loop, h1, h3], rfl, h4⟩

theorem fused_escape : ∀ (n : Nat) (t : List Char), t.length ≤ n → ∀ it, Stands it t →
    Fused (EscapeForRegex.next charsNext 2) ⟨it, none⟩ (quoteAll (unescape t)) := by
  intro n
  induction n with
  | zero =>
    intro t ht it hit
    have : t = [] := by cases t <;> simp_all
    subst this
    obtain ⟨it', h1, h2⟩ := hit.next
    exact .done _ ⟨it', none⟩ (by simp [EscapeForRegex.next, EscapeForRegex.loop, h1]) (ended_escape h2)
  | succ n ih =>
    intro t ht it hit
    obtain ⟨it1, h1, h2⟩ := hit.next
    cases t with
    | nil => exact .done _ ⟨it1, none⟩ (by simp [EscapeForRegex.next, EscapeForRegex.loop, h1]) (ended_escape h2)
    | cons c t =>
      simp only [List.head?_cons, List.tail_cons] at h1 h2
      simp only [List.length_cons] at ht
      by_cases hc : c = '\\'
      · subst hc
        obtain ⟨it2, h3, h4⟩ := h2.peek
        cases t with
        | nil =>
          simp only [List.head?_nil] at h3
          exact .done _ ⟨it2, none⟩ (by simp [EscapeForRegex.next, EscapeForRegex.loop, h1, h3]) (ended_escape h4)
        | cons d t =>
          simp only [List.head?_cons] at h3
          simp only [List.length_cons] at ht
          obtain ⟨it3, h5, h6⟩ := h4.next
          simp only [List.head?_cons, List.tail_cons] at h5 h6
          cases hd : shouldBeEscaped d with
          | true =>
            simp only [unescape, quoteAll_cons, quote_special hd, List.cons_append, List.nil_append]
            refine .item _ ⟨it3, some d⟩ _ _ (by simp [EscapeForRegex.next, EscapeForRegex.loop, h1, h3, hd, h5]) ?_
            refine .item _ ⟨it3, none⟩ _ _ (by simp [EscapeForRegex.next]) ?_
            exact ih t (by omega) it3 h6
          | false =>
            have hne : d ≠ '\\' := by
              intro h; subst h; rw [shouldBeEscaped_backslash] at hd; simp at hd
            simp only [unescape, quoteAll_cons, quote_plain hd, List.cons_append, List.nil_append]
            refine .item _ ⟨it3, none⟩ _ _ (by simp [EscapeForRegex.next, EscapeForRegex.loop, h1, h3, hd, h5, hne]) ?_
            exact ih t (by omega) it3 h6
      · have hu : unescape (c :: t) = c :: unescape t := by
          cases t <;> simp [unescape, hc]
        rw [hu]
        cases hd : shouldBeEscaped c with
        | true =>
          simp only [quoteAll_cons, quote_special hd, List.cons_append, List.nil_append]
          refine .item _ ⟨it1, some c⟩ _ _ (by simp [EscapeForRegex.next, EscapeForRegex.loop, h1, hd, hc]) ?_
          refine .item _ ⟨it1, none⟩ _ _ (by simp [EscapeForRegex.next]) ?_
          exact ih t (by omega) it1 h2
        | false =>
          simp only [quoteAll_cons, quote_plain hd, List.cons_append, List.nil_append]
          refine .item _ ⟨it1, none⟩ _ _ (by simp [EscapeForRegex.next, EscapeForRegex.loop, h1, hd, hc]) ?_
          exact ih t (by omega) it1 h2

/-! ## Adapters -/

theorem emits_once (a : α) : Emits (onceNext : NextS S (Option α) α) (some a) [a] := fun e =>
  .item _ none _ _ _ _ _ rfl (.done _ none _ _ rfl ⟨(· = none), rfl, fun t h e => by subst h; exact ⟨none, rfl, rfl⟩⟩)

theorem traces_map {f : α → β} {nx : NextS S σ α} {s : σ} {e e' : S} {l : List (α × S)} (h : Traces nx s e l e') :
    Traces (mapNext f nx) s e (l.map fun x => (f x.1, x.2)) e' := by
  induction h with
  | done s s' e e' h1 h2 =>
    refine .done _ s' _ _ (by simp [mapNext, h1]) ?_
    obtain ⟨D, h3, h4⟩ := h2
    refine ⟨D, h3, fun t ht e => ?_⟩
    obtain ⟨t', h5, h6⟩ := h4 t ht e
    exact ⟨t', by simp [mapNext, h5], h6⟩
  | item s s' e e₁ e' a l h1 _ ih => exact .item _ s' _ _ _ _ _ (by simp [mapNext, h1]) ih

theorem emits_map {f : α → β} {nx : NextS S σ α} {s : σ} {l : List α} (h : Emits nx s l) :
    Emits (mapNext f nx) s (l.map f) := fun e => by
  have := traces_map (f := f) (h e)
  simpa [List.map_map, Function.comp_def] using this

theorem traces_inl {nxl : NextS S σ α} {nxr : NextS S τ α} {s : σ} {e e' : S} {l : List (α × S)}
    (h : Traces nxl s e l e') : Traces (eitherNext nxl nxr) (.inl s) e l e' := by
  induction h with
  | done s s' e e' h1 h2 =>
    refine .done _ (.inl s') _ _ (by simp [eitherNext, h1]) ?_
    obtain ⟨D, h3, h4⟩ := h2
    refine ⟨fun t => ∃ u, t = .inl u ∧ D u, ⟨s', rfl, h3⟩, fun t ⟨u, ht, hu⟩ e => ?_⟩
    obtain ⟨t', h5, h6⟩ := h4 u hu e
    subst ht
    exact ⟨.inl t', by simp [eitherNext, h5], t', rfl, h6⟩
  | item s s' e e₁ e' a l h1 _ ih => exact .item _ (.inl s') _ _ _ _ _ (by simp [eitherNext, h1]) ih

theorem traces_inr {nxl : NextS S σ α} {nxr : NextS S τ α} {s : τ} {e e' : S} {l : List (α × S)}
    (h : Traces nxr s e l e') : Traces (eitherNext nxl nxr) (.inr s) e l e' := by
  induction h with
  | done s s' e e' h1 h2 =>
    refine .done _ (.inr s') _ _ (by simp [eitherNext, h1]) ?_
    obtain ⟨D, h3, h4⟩ := h2
    refine ⟨fun t => ∃ u, t = .inr u ∧ D u, ⟨s', rfl, h3⟩, fun t ⟨u, ht, hu⟩ e => ?_⟩
    obtain ⟨t', h5, h6⟩ := h4 u hu e
    subst ht
    exact ⟨.inr t', by simp [eitherNext, h5], t', rfl, h6⟩
  | item s s' e e₁ e' a l h1 _ ih => exact .item _ (.inr s') _ _ _ _ _ (by simp [eitherNext, h1]) ih

theorem emits_inl {nxl : NextS S σ α} {nxr : NextS S τ α} {s : σ} {l : List α}
    (h : Emits nxl s l) : Emits (eitherNext nxl nxr) (.inl s) l := fun e => traces_inl (h e)

theorem emits_inr {nxl : NextS S σ α} {nxr : NextS S τ α} {s : τ} {l : List α}
    (h : Emits nxr s l) : Emits (eitherNext nxl nxr) (.inr s) l := fun e => traces_inr (h e)

/-- The second part of a chain, after the first one has ended. -/
theorem traces_chainB {nxa : NextS S σ α} {nxb : NextS S τ α} {b : τ} {e e' : S} {m : List (α × S)}
    (h : Traces nxb b e m e') : Traces (Chain.next nxa nxb) ⟨none, some b⟩ e m e' := by
  induction h with
  | done s s' e e' h1 h2 =>
    refine .done _ ⟨none, some s'⟩ _ _ (by simp [Chain.next, Chain.nextB, h1]) ?_
    obtain ⟨D, h3, h4⟩ := h2
    refine ⟨fun t => ∃ u, t = ⟨none, some u⟩ ∧ D u, ⟨s', rfl, h3⟩, fun t ⟨u, ht, hu⟩ e => ?_⟩
    obtain ⟨t', h5, h6⟩ := h4 u hu e
    subst ht
    exact ⟨⟨none, some t'⟩, by simp [Chain.next, Chain.nextB, h5], t', rfl, h6⟩
  | item s s' e e₁ e' a l h1 _ ih => exact .item _ ⟨none, some s'⟩ _ _ _ _ _ (by simp [Chain.next, Chain.nextB, h1]) ih

/-- The first call of a chain whose first part has just returned `None`. -/
theorem traces_chain_end {nxa : NextS S σ α} {nxb : NextS S τ α} {a a' : σ} {b : τ} {e e₁ e' : S} {m : List (α × S)}
    (ha : nxa a e = some ((none, a'), e₁)) (h : Traces nxb b e₁ m e') :
    Traces (Chain.next nxa nxb) ⟨some a, some b⟩ e m e' := by
  have hb := traces_chainB (nxa := nxa) h
  have heq : Chain.next nxa nxb ⟨some a, some b⟩ e = Chain.next nxa nxb ⟨none, some b⟩ e₁ := by
    simp [Chain.next, ha]
  cases hb with
  | done _ s' _ _ h1 h2 => exact .done _ s' _ _ (by rw [heq]; exact h1) h2
  | item _ s' _ _ _ _ _ h1 h2 => exact .item _ s' _ _ _ _ _ (by rw [heq]; exact h1) h2

theorem traces_chain {nxa : NextS S σ α} {nxb : NextS S τ α} {a : σ} {b : τ} {e e₁ e' : S} {l m : List (α × S)}
    (h1 : Traces nxa a e l e₁) (h2 : Traces nxb b e₁ m e') :
    Traces (Chain.next nxa nxb) (Chain.new a b) e (l ++ m) e' := by
  unfold Chain.new
  induction h1 with
  | done s s' e e₁ h3 _ => exact traces_chain_end h3 h2
  | item s s' e e₂ e₁ a l h3 _ ih => exact .item _ ⟨some s', some b⟩ _ _ _ _ _ (by simp [Chain.next, h3]) (ih h2)

theorem emits_chain {nxa : NextS S σ α} {nxb : NextS S τ α} {a : σ} {b : τ} {l m : List α}
    (h1 : Emits nxa a l) (h2 : Emits nxb b m) : Emits (Chain.next nxa nxb) (Chain.new a b) (l ++ m) := fun e => by
  have := traces_chain (h1 e) (h2 e)
  simpa using this

/-! ## `flat_map` -/

/-- The parts that an iterator without effects hands out. -/
inductive Feeds (nx : NextS S σ β) : σ → List β → Prop
  | done (s s') : (∀ e, nx s e = some ((none, s'), e)) → Feeds nx s []
  | item (s s' b l) : (∀ e, nx s e = some ((some b, s'), e)) → Feeds nx s' l → Feeds nx s (b :: l)

theorem feeds_vec (l : List β) : Feeds (vecNext : NextS S _ β) l l := by
  induction l with
  | nil => exact .done _ [] fun e => rfl
  | cons b l ih => exact .item _ l _ _ (fun e => rfl) ih

theorem feeds_vec_eq [Inhabited S] {s l : List β} (h : Feeds (vecNext : NextS S _ β) s l) : s = l := by
  induction h with
  | done s s' h => cases s with
    | nil => rfl
    | cons b s => simpa [vecNext] using h default
  | item s s' b l h _ ih => cases s with
    | nil => simpa [vecNext] using h default
    | cons c s => have := h default; simp [vecNext] at this; rw [← ih, this.1, this.2]

/-- The traces of the parts, one after the other. -/
inductive FlatRun (f : β → S → τ × S) (nxi : NextS S τ α) : List β → S → List (α × S) → S → Prop
  | nil (e) : FlatRun f nxi [] e [] e
  | cons (b bs t e e₁ e₂ e₃ l m) : f b e = (t, e₁) → Traces nxi t e₁ l e₂ → FlatRun f nxi bs e₂ m e₃ →
      FlatRun f nxi (b :: bs) e (l ++ m) e₃

/-- What a call of `FlatMap::next` returns when the trace `l` is left. -/
def Returns (f : β → S → τ × S) (nx : NextS S σ β) (nxi : NextS S τ α) (n : Nat)
    (call : Option ((Option α × FlatMap σ τ) × S)) (l : List (α × S)) (e' : S) : Prop :=
  (l = [] ∧ call = some ((none, ⟨none, none⟩), e')) ∨
  ∃ a l0 l1 it t bs e₁ e₂, l = (a, e₁) :: (l0 ++ l1) ∧ call = some ((some a, ⟨some it, some t⟩), e₁) ∧
    Traces nxi t e₁ l0 e₂ ∧ Feeds nx it bs ∧ FlatRun f nxi bs e₂ l1 e' ∧ bs.length ≤ n

theorem returns_advance {f : β → S → τ × S} {nx : NextS S σ β} {nxi : NextS S τ α} {bs : List β} :
    ∀ {it : σ} {e e' : S} {l : List (α × S)} {rounds : Nat}, Feeds nx it bs → FlatRun f nxi bs e l e' →
      bs.length ≤ rounds →
      Returns f nx nxi bs.length (FlatMap.advance f nx (FlatMap.next f nx nxi rounds) ⟨some it, none⟩ e) l e' := by
  induction bs with
  | nil =>
    intro it e e' l rounds h1 h2 _
    cases h1 with
    | done _ s' h =>
      cases h2
      exact .inl ⟨rfl, by simp [FlatMap.advance, h]⟩
  | cons b bs ih =>
    intro it e e' l rounds h1 h2 h3
    cases h1 with
    | item _ it' _ _ hb h1 =>
      cases h2 with
      | cons _ _ t _ e₁ e₂ _ l m hf ht h2 =>
        obtain ⟨r, rfl⟩ : ∃ r, rounds = r + 1 := ⟨rounds - 1, by simp at h3; omega⟩
        simp only [List.length_cons] at h3
        cases ht with
        | done _ t' _ _ ht _ =>
          have heq : FlatMap.advance f nx (FlatMap.next f nx nxi (r + 1)) ⟨some it, none⟩ e =
              FlatMap.advance f nx (FlatMap.next f nx nxi r) ⟨some it', none⟩ e₂ := by
            have : FlatMap.advance f nx (FlatMap.next f nx nxi (r + 1)) ⟨some it, none⟩ e =
                FlatMap.next f nx nxi (r + 1) ⟨some it', some t⟩ e₁ := by simp only [FlatMap.advance, hb, hf]
            rw [this]
            simp only [FlatMap.next, ht]
          rw [heq]
          rcases ih (rounds := r) h1 h2 (by omega) with h | ⟨a, l0, l1, it2, t2, bs2, e3, e4, h4, h5, h6, h7, h8, h9⟩
          · exact .inl h
          · exact .inr ⟨a, l0, l1, it2, t2, bs2, e3, e4, h4, h5, h6, h7, h8, by simp; omega⟩
        | item _ t' _ e₃ _ a l ht htr =>
          refine .inr ⟨a, l, m, it', t', bs, e₃, e₂, rfl, ?_, htr, h1, h2, by simp⟩
          simp [FlatMap.advance, hb, hf, FlatMap.next, ht]

theorem traces_flatMap {f : β → S → τ × S} {nx : NextS S σ β} {nxi : NextS S τ α} {r : FlatMap σ τ → Nat}
    (hr : ∀ it bs t, Feeds nx it bs → bs.length < r ⟨some it, t⟩) (hr0 : 0 < r ⟨none, none⟩)
    {it : σ} {bs : List β} {e e' : S} {l : List (α × S)} (h1 : Feeds nx it bs) (h2 : FlatRun f nxi bs e l e') :
    Traces (fun s => FlatMap.next f nx nxi (r s) s) (FlatMap.new it) e l e' := by
  have hend : Exhausted (fun s => FlatMap.next f nx nxi (r s) s) ⟨none, none⟩ := by
    refine ⟨(· = ⟨none, none⟩), rfl, fun t ht e => ⟨⟨none, none⟩, ?_, rfl⟩⟩
    subst ht
    obtain ⟨k, hk⟩ : ∃ k, r ⟨none, none⟩ = k + 1 := ⟨r ⟨none, none⟩ - 1, by omega⟩
    simp only [hk]
    simp [FlatMap.next, FlatMap.advance]
  have key : ∀ n (l0 l1 : List (α × S)) (it : σ) (t : τ) bs e e₂ e', (l0 ++ l1).length ≤ n → Traces nxi t e l0 e₂ →
      Feeds nx it bs → FlatRun f nxi bs e₂ l1 e' →
      Traces (fun s => FlatMap.next f nx nxi (r s) s) ⟨some it, some t⟩ e (l0 ++ l1) e' := by
    intro n
    induction n with
    | zero =>
      intro l0 l1 it t bs e e₂ e' hn ht hf hb
      have h0 : l0 = [] ∧ l1 = [] := by simpa using hn
      obtain ⟨rfl, rfl⟩ := h0
      cases ht with
      | done _ t' _ _ ht _ =>
        obtain ⟨k, hk⟩ : ∃ k, r ⟨some it, some t⟩ = k + 1 := ⟨r ⟨some it, some t⟩ - 1, by have := hr it bs (some t) hf; omega⟩
        have hk2 : bs.length ≤ k := by have := hr it bs (some t) hf; omega
        rcases returns_advance hf hb hk2 with ⟨_, h⟩ | ⟨_, _, _, _, _, _, _, _, h, _⟩
        · exact .done _ _ _ _ (by simp only [hk, FlatMap.next, ht]; exact h) hend
        · simp at h
    | succ n ih =>
      intro l0 l1 it t bs e e₂ e' hn ht hf hb
      obtain ⟨k, hk⟩ : ∃ k, r ⟨some it, some t⟩ = k + 1 := ⟨r ⟨some it, some t⟩ - 1, by have := hr it bs (some t) hf; omega⟩
      have hk2 : bs.length ≤ k := by have := hr it bs (some t) hf; omega
      cases ht with
      | done _ t' _ _ ht _ =>
        rcases returns_advance hf hb hk2 with ⟨h0, h⟩ | ⟨a, m0, m1, it2, t2, bs2, e3, e4, h4, h5, h6, h7, h8, h9⟩
        · subst h0
          exact .done _ _ _ _ (by simp only [hk, FlatMap.next, ht]; exact h) hend
        · subst h4
          refine .item _ _ _ _ _ _ _ (by simp only [hk, FlatMap.next, ht]; exact h5) ?_
          exact ih _ _ _ _ _ _ _ _ (by simp at hn ⊢; omega) h6 h7 h8
      | item _ t' _ e₃ _ a l0 ht htr =>
        refine .item _ ⟨some it, some t'⟩ _ _ _ _ _ (by simp only [hk, FlatMap.next, ht]) ?_
        exact ih _ _ _ _ _ _ _ _ (by simp at hn ⊢; omega) htr hf hb
  obtain ⟨k, hk⟩ : ∃ k, r ⟨some it, none⟩ = k + 1 := ⟨r ⟨some it, none⟩ - 1, by have := hr it bs none h1; omega⟩
  have hk2 : bs.length ≤ k := by have := hr it bs none h1; omega
  unfold FlatMap.new
  rcases returns_advance h1 h2 hk2 with ⟨h0, h⟩ | ⟨a, m0, m1, it2, t2, bs2, e3, e4, h4, h5, h6, h7, h8, h9⟩
  · subst h0
    exact .done _ _ _ _ (by simp only [hk, FlatMap.next]; exact h) hend
  · subst h4
    refine .item _ _ _ _ _ _ _ (by simp only [hk, FlatMap.next]; exact h5) ?_
    exact key _ _ _ _ _ _ _ _ _ (Nat.le_refl _) h6 h7 h8

theorem flatRun_pure {f : β → τ} {nxi : NextS S τ α} {g : β → List α} (bs : List β)
    (h : ∀ b ∈ bs, Emits nxi (f b) (g b)) (e : S) :
    FlatRun (fun b e => (f b, e)) nxi bs e ((bs.flatMap g).map (·, e)) e := by
  induction bs with
  | nil => exact .nil e
  | cons b bs ih =>
    have h1 := h b (by simp) e
    have h2 := ih (fun c hc => h c (by simp [hc]))
    have := FlatRun.cons (f := fun b e => (f b, e)) b bs (f b) e e e e _ _ rfl h1 h2
    simpa [List.flatMap_cons] using this

theorem emits_flatMapVec {f : β → τ} {nxi : NextS S τ α} {g : β → List α} (bs : List β)
    (h : ∀ b ∈ bs, Emits nxi (f b) (g b)) : Emits (FlatMap.nextVec f nxi) (FlatMap.new bs) (bs.flatMap g) := fun e => by
  letI : Inhabited S := ⟨e⟩
  refine traces_flatMap (r := fun s => (s.iter.getD []).length + 2) ?_ (by simp) (feeds_vec bs) (flatRun_pure bs h e)
  intro it bs t hf
  rw [feeds_vec_eq hf]
  simp

/-! ## `/repo/src/expand/mod.rs` -/

theorem emits_chars (t : List Char) : Emits (lift charsNext : NextS S _ Char) t t := emits_lift (fused_chars t)

theorem emits_esc (t : List Char) : Emits (escNext : NextS S _ Char) (EscapeForRegex.new t) (literal t) := by
  have := fused_escape _ t (Nat.le_refl _) _ (.fresh t)
  have h : quoteAll (unescape t) = literal t := by simp [quoteAll, literal, List.flatMap_def]
  rw [h] at this
  exact emits_lift this

theorem emits_escOk (t : List Char) : Emits (mapNext ok escNext : NextS S _ Item) (EscapeForRegex.new t) (oks (literal t)) :=
  emits_map (emits_esc t)

theorem emits_opt (o : Optional) :
    Emits (optNext : NextS S _ Item) (optNew o) (oks (enclosed (literal o.input.frag) ++ ['?'])) := by
  have := emits_map (f := ok) (emits_chain (emits_chain (emits_chars (S := S) "(?:".toList) (emits_esc o.input.frag))
    (emits_chars ")?".toList))
  have h : (("(?:".toList ++ literal o.input.frag) ++ ")?".toList).map ok = oks (enclosed (literal o.input.frag) ++ ['?']) := by
    have : ok = (Except.ok : Char → Item) := rfl
    simp [oks, enclosed, this]
  rw [h] at this
  exact this

theorem emits_altv (a : Alternative) : Emits (altvNext : NextS S _ Item) (altvNew a) (oks (alternativePattern a)) := by
  cases a with
  | optional o => exact emits_inl (emits_opt o)
  | text t => exact emits_inr (emits_escOk t.frag)

theorem emits_inner (b : SingleAlternation) :
    Emits (innerNext : NextS S _ Item) (innerNew b) (oks (b.flatMap alternativePattern ++ ['|'])) := by
  have := emits_chain (emits_flatMapVec (S := S) (f := altvNew) (g := fun a => oks (alternativePattern a)) b
    (fun a _ => emits_altv a)) (emits_once (.ok '|' : Item))
  have h : (b.flatMap fun a => oks (alternativePattern a)) ++ [.ok '|'] = oks (b.flatMap alternativePattern ++ ['|']) := by
    simp [oks, List.map_flatMap]
  rw [h] at this
  exact this

theorem emits_alt (a : Alternation) :
    Emits (altNext : NextS S _ Item) (altNew a) (oks (enclosed (['|'].intercalate (a.map (·.flatMap alternativePattern))))) := by
  have h1 := emits_flatMapVec (S := Unit) (f := innerNew)
    (g := fun (b : SingleAlternation) => oks (b.flatMap alternativePattern ++ ['|'])) a (fun b _ => emits_inner b)
  have h2 := fused_skipLast (fused_of_emits h1)
  have h3 := emits_chain (emits_chain (emits_map (f := ok) (emits_chars (S := S) "(?:".toList)) (emits_lift h2))
    (emits_once (.ok ')' : Item))
  have h4 : (a.flatMap fun b => oks (b.flatMap alternativePattern ++ ['|'])).dropLast =
      oks (['|'].intercalate (a.map (·.flatMap alternativePattern))) := by
    have : (a.flatMap fun b => oks (b.flatMap alternativePattern ++ ['|'])) =
        oks (((a.map (·.flatMap alternativePattern)).map (· ++ ['|'])).flatten) := by
      simp [oks, List.flatMap_def, List.map_flatten, Function.comp_def]
    rw [this]
    unfold oks
    rw [← List.map_dropLast, dropLast_bars, joinBars_eq]
  rw [h4] at h3
  have h5 : "(?:".toList.map ok ++ oks (['|'].intercalate (a.map (·.flatMap alternativePattern))) ++ [.ok ')'] =
      oks (enclosed (['|'].intercalate (a.map (·.flatMap alternativePattern)))) := by
    have : ok = (Except.ok : Char → Item) := rfl
    simp [oks, enclosed, this]
  rw [h5] at h3
  exact h3

theorem builtin?_eq (n : List Char) : builtin? n = builtinNamed n := by
  unfold builtin? builtinNamed
  congr 1
  funext b
  rw [Bool.eq_iff_iff]
  simp

theorem emits_static (t : List Char) : Emits (mapNext ok (lift charsNext) : NextS S _ Item) t (oks t) :=
  emits_map (emits_chars t)

theorem emits_ownedOk (t : List Char) : Emits (mapNext ok (lift OwnedChars.next) : NextS S _ Item) (OwnedChars.new t) (oks t) :=
  emits_map (emits_lift (fused_owned t))

theorem emits_par (parseHir : List Char → Option Hir) (p : Parameter) :
    Emits (parNext : NextS S _ Item) (parNew p) (answered parseHir p none) := by
  simp only [answered, builtin?_eq]
  cases hb : builtinNamed p.input.frag with
  | some b =>
    have h := builtinNamed_some.1 hb
    have e1 : "int".toList = Builtin.int.name := by decide
    have e2 : "float".toList = Builtin.float.name := by decide
    have e3 : "word".toList = Builtin.word.name := by decide
    have e4 : "string".toList = Builtin.string.name := by decide
    have e5 : "".toList = Builtin.anonymous.name := by decide
    unfold parNew
    rw [e1, e2, e3, e4, e5, h]
    cases b
    · rw [if_pos rfl]; exact emits_inl (emits_inl (emits_static _))
    · rw [if_neg (by decide), if_pos rfl]; exact emits_inl (emits_inl (emits_static _))
    · rw [if_neg (by decide), if_neg (by decide), if_pos rfl]; exact emits_inl (emits_inl (emits_static _))
    · rw [if_neg (by decide), if_neg (by decide), if_neg (by decide), if_pos rfl]
      have hp : stringPattern p.id = Builtin.string.pattern p.id := builtinPat_eq .string p.id
      simp only
      rw [← hp]
      exact emits_inl (emits_inr (emits_ownedOk _))
    · rw [if_neg (by decide), if_neg (by decide), if_neg (by decide), if_neg (by decide), if_pos rfl]
      exact emits_inl (emits_inl (emits_static _))
  | none =>
    have h := builtinNamed_none.1 hb
    have h1 := h .int; have h2 := h .float; have h3 := h .word; have h4 := h .string; have h5 := h .anonymous
    simp only [Builtin.name] at h1 h2 h3 h4 h5
    have : parNew p = .inr (some (.error (.notFound p.input))) := by simp [parNew, h1, h2, h3, h4, h5]
    rw [this]
    exact emits_inr (emits_once _)

theorem emits_single (el : SingleExpression) (h : ∀ p, el ≠ .parameter p) :
    Emits (singleNext : NextS S _ Item) (singleNew el) (oks (plainPattern el)) := by
  cases el with
  | alternation a => exact emits_inl (emits_alt a)
  | optional o => exact emits_inr (emits_inl (emits_opt o))
  | parameter p => exact absurd rfl (h p)
  | text t => exact emits_inr (emits_inr (emits_inr (emits_escOk t.frag)))
  | whitespaces t => exact emits_inr (emits_inr (emits_inr (emits_escOk t.frag)))

theorem emits_singlePar (parseHir : List Char → Option Hir) (p : Parameter) :
    Emits (singleNext : NextS S _ Item) (singleNew (.parameter p)) (answered parseHir p none) :=
  emits_inr (emits_inr (emits_inl (emits_par parseHir p)))

/-! ## `/repo/src/expand/parameters.rs` -/

theorem emits_withPar (parseHir : List Char → Option Hir) (p : Parameter) (v : Option (List Char)) :
    Emits (withParNext : NextS S _ Item) (withParValue parseHir p v) (answered parseHir p v) := by
  cases v with
  | none => exact emits_inr (emits_inl (emits_par parseHir p))
  | some v =>
    have hplain : Emits (withParNext : NextS S _ Item)
        (.inr (.inr (.inr (.new (.new (some (.ok '(')) v) (some (.ok ')')))))) (oks ('(' :: v ++ [')'])) := by
      have := emits_chain (emits_chain (emits_once (S := S) (.ok '(' : Item)) (emits_static v)) (emits_once (.ok ')'))
      have h : [.ok '('] ++ oks v ++ [.ok ')'] = oks ('(' :: v ++ [')']) := by simp [oks]
      rw [h] at this
      exact emits_inr (emits_inr (emits_inr this))
    simp only [withParValue, answered]
    by_cases hp : '(' ∈ v
    · rw [if_pos hp, if_pos ((any_paren v).2 hp)]
      cases hh : parseHir v with
      | none => exact emits_inl (emits_once _)
      | some h =>
        simp only
        by_cases hc : h.hasCaptureGroups = true
        · rw [if_pos hc, if_pos hc]
          have := emits_chain (emits_chain (emits_static (S := S) "(?:".toList)
            (emits_ownedOk (h.renameCaptureGroups p.id).print)) (emits_once (.ok ')'))
          have h' : oks "(?:".toList ++ oks (h.renameCaptureGroups p.id).print ++ [.ok ')'] =
              oks (enclosed (h.renameCaptureGroups p.id).print) := by simp [oks, enclosed]
          rw [h'] at this
          exact emits_inr (emits_inr (emits_inl this))
        · rw [if_neg hc, if_neg hc]; exact hplain
    · rw [if_neg hp, if_neg (fun h => hp ((any_paren v).1 h))]; exact hplain

variable {P : Type} (parseHir : List Char → Option Hir) (get : Get P S) (pars : P)

theorem flatRun_trace (e : List SingleExpression) : ∀ st : S,
    FlatRun (singleWithNew parseHir get) singleWithNext (e.map (·, pars)) st (trace parseHir get pars e st).1
      (trace parseHir get pars e st).2 := by
  induction e with
  | nil => exact fun st => .nil st
  | cons el r ih =>
    intro st
    by_cases hp : ∃ p, el = .parameter p
    · obtain ⟨p, rfl⟩ := hp
      have h := ih (get pars p.input st).2
      exact FlatRun.cons (f := singleWithNew parseHir get) (SingleExpression.parameter p, pars) _ _ _ _ _ _ _ _ rfl
        (traces_inl (emits_withPar parseHir p (get pars p.input st).1 _)) h
    · have h := ih st
      have hnp : ∀ p, el ≠ .parameter p := fun p hp' => hp ⟨p, hp'⟩
      have ht : trace parseHir get pars (el :: r) st =
          ((oks (plainPattern el)).map (·, st) ++ (trace parseHir get pars r st).1, (trace parseHir get pars r st).2) := by
        cases el with
        | parameter p => exact absurd rfl (hnp p)
        | _ => rfl
      have hs : singleWithNew parseHir get (el, pars) st = (.inr (singleNew el), st) := by
        cases el with
        | parameter p => exact absurd rfl (hnp p)
        | _ => rfl
      rw [ht]
      exact FlatRun.cons (el, pars) _ _ _ _ _ _ _ _ hs (traces_inr (emits_single el hnp st)) h

theorem feeds_zip (e : List SingleExpression) :
    Feeds (mapNext id (zipNext vecNext repeatNext) : NextS S (List SingleExpression × P) _) (e, pars) (e.map (·, pars)) := by
  induction e with
  | nil => exact .done _ ([], pars) fun _ => rfl
  | cons el e ih => exact .item _ (e, pars) _ _ (fun _ => rfl) ih

theorem feeds_zip_length [Inhabited S] {it : List SingleExpression × P} {bs : List (SingleExpression × P)}
    (h : Feeds (mapNext id (zipNext vecNext repeatNext) : NextS S _ _) it bs) : it.1.length = bs.length := by
  induction h with
  | done s s' h =>
    obtain ⟨l, p⟩ := s
    cases l with
    | nil => rfl
    | cons b s => simpa [mapNext, zipNext, vecNext, repeatNext] using h default
  | item s s' b l h _ ih =>
    obtain ⟨k, p⟩ := s
    cases k with
    | nil => simpa [mapNext, zipNext, vecNext, repeatNext] using h default
    | cons c s =>
      have := h default
      simp [mapNext, zipNext, vecNext, repeatNext] at this
      rw [← this.2] at ih
      simpa using ih

theorem traces_exprWith (e : Expression) (st : S) :
    Traces (exprWithNext parseHir get) (exprWithNew e pars) st
      (((.ok '^', st) :: (trace parseHir get pars e st).1) ++ [(.ok '$', (trace parseHir get pars e st).2)])
      (trace parseHir get pars e st).2 := by
  letI : Inhabited S := ⟨st⟩
  have h := traces_flatMap (r := fun s => (s.iter.map (·.1.length)).getD 0 + 2) (fun it bs t hf => by
    rw [← feeds_zip_length hf]; simp) (by simp) (feeds_zip (S := S) pars e) (flatRun_trace parseHir get pars e st)
  exact traces_chain (l := (.ok '^', st) :: (trace parseHir get pars e st).1)
    (traces_chain (emits_once (.ok '^' : Item) st) h) (emits_once (.ok '$' : Item) _)

/-- The outcome of collecting a trace. -/
def traceResult : List (Item × S) → S → Except ParameterError (List Char) × S
  | [], e => (.ok [], e)
  | (.error x, e₁) :: _, _ => (.error x, e₁)
  | (.ok c, _) :: r, e =>
    match traceResult r e with
    | (.error x, e') => (.error x, e')
    | (.ok cs, e') => (.ok (c :: cs), e')

theorem collectRes_of_traces {nx : NextS S σ Item} {s : σ} {e e' : S} {l : List (Item × S)} (h : Traces nx s e l e') :
    ∀ fuel, l.length < fuel → collectRes nx fuel s e = some (traceResult l e') := by
  induction h with
  | done s s' e e' h1 _ =>
    intro fuel hf
    obtain ⟨k, rfl⟩ : ∃ k, fuel = k + 1 := ⟨fuel - 1, by omega⟩
    simp [collectRes, h1, traceResult]
  | item s s' e e₁ e' a l h1 _ ih =>
    intro fuel hf
    obtain ⟨k, rfl⟩ : ∃ k, fuel = k + 1 := ⟨fuel - 1, by omega⟩
    simp only [List.length_cons] at hf
    cases a with
    | error x => simp [collectRes, h1, traceResult]
    | ok c =>
      simp only [collectRes, h1, traceResult, ih k (by omega)]
      rcases traceResult l e' with ⟨_ | _, _⟩ <;> rfl

theorem traceResult_append (l m : List (Item × S)) (e : S) : traceResult (l ++ m) e =
    match traceResult l e with
    | (.error x, e') => (.error x, e')
    | (.ok cs, _) =>
      match traceResult m e with
      | (.error x, e') => (.error x, e')
      | (.ok ds, e') => (.ok (cs ++ ds), e') := by
  induction l with
  | nil => rcases h : traceResult m e with ⟨_ | _, _⟩ <;> simp [traceResult, h]
  | cons a l ih =>
    obtain ⟨_ | c, s⟩ := a
    · rfl
    · simp only [List.cons_append, traceResult, ih]
      rcases traceResult l e with ⟨_ | _, _⟩ <;> rcases traceResult m e with ⟨_ | _, _⟩ <;> simp

theorem traceResult_const (l : List Item) (st e : S) : traceResult (l.map (·, st)) e =
    match collectResult l with
    | .error x => (.error x, st)
    | .ok cs => (.ok cs, e) := by
  induction l with
  | nil => rfl
  | cons a l ih =>
    cases a with
    | error x => rfl
    | ok c =>
      simp only [List.map_cons, traceResult, ih, collectResult]
      cases collectResult l <;> rfl

theorem collectResult_oks (cs : List Char) : collectResult (oks cs) = .ok cs := collectResult_ok cs

theorem askAll_other {el : SingleExpression} (h : ∀ p, el ≠ .parameter p) (r : List SingleExpression) (st : S) :
    askAll parseHir get pars (el :: r) st =
      match askAll parseHir get pars r st with
      | (.error x, e') => (.error x, e')
      | (.ok ds, e') => (.ok (plainPattern el ++ ds), e') := by
  cases el with
  | parameter p => exact absurd rfl (h p)
  | _ => rcases ha : askAll parseHir get pars r st with ⟨_ | _, _⟩ <;> simp [askAll, ha]

theorem traceResult_trace (e : List SingleExpression) : ∀ st : S,
    traceResult (trace parseHir get pars e st).1 (trace parseHir get pars e st).2 = askAll parseHir get pars e st := by
  induction e with
  | nil => intro st; rfl
  | cons el r ih =>
    intro st
    by_cases hp : ∃ p, el = .parameter p
    · obtain ⟨p, rfl⟩ := hp
      have h := ih (get pars p.input st).2
      simp only [trace, askAll, traceResult_append, traceResult_const]
      cases collectResult (answered parseHir p (get pars p.input st).1) with
      | error x => rfl
      | ok cs => simp only [h]; rfl
    · have hnp : ∀ p, el ≠ .parameter p := fun p hp' => hp ⟨p, hp'⟩
      have ht : trace parseHir get pars (el :: r) st =
          ((oks (plainPattern el)).map (·, st) ++ (trace parseHir get pars r st).1, (trace parseHir get pars r st).2) := by
        cases el with
        | parameter p => exact absurd rfl (hnp p)
        | _ => rfl
      rw [ht, askAll_other parseHir get pars hnp]
      simp only [traceResult_append, traceResult_const, collectResult_oks, ih st]

/-! ## The model with lists -/

theorem chars_oks {el : SingleExpression} (h : ∀ p, el ≠ .parameter p) : el.chars = some (oks (plainPattern el)) := by
  rw [chars_eq_charsWith, charsWith_ok (fun _ => []) el (fun p hp => absurd hp (h p))]
  congr 1
  cases el with
  | parameter p => exact absurd rfl (h p)
  | text t => simp [elemPat, plainPattern, elementPattern, literal, quoteAll, List.flatMap, oks, okChars]
  | whitespaces t => simp [elemPat, plainPattern, literal, quoteAll, List.flatMap, oks, okChars]
  | optional o => simp only [elemPat, plainPattern, elementPattern, altPat_eq]; rfl
  | alternation a =>
    simp only [elemPat, plainPattern, elementPattern, enclosed, joinBars_eq]
    have : a.map branchPat = a.map (·.flatMap alternativePattern) := List.map_congr_left fun b _ => by
      unfold branchPat List.flatMap
      rw [List.map_congr_left fun a _ => altPat_eq a]
    rw [this]; rfl

theorem chars_answered (p : Parameter) : p.chars = some (answered parseHir p none) := by
  simp only [answered, builtin?_eq]
  cases hb : builtinNamed p.input.frag with
  | some b => rw [chars_builtin b p (builtinNamed_some.1 hb), builtinPat_eq]; rfl
  | none => rw [chars_unknown p (builtinNamed_none.1 hb)]

theorem parameterChars_answered (pr : Provider) (p : Parameter) :
    WithCustom.parameterChars parseHir pr p = some (answered parseHir p (pr p.input)) := by
  unfold WithCustom.parameterChars
  cases hv : pr p.input with
  | none => exact chars_answered parseHir p
  | some v =>
    have hw : ([.ok '('] ++ okChars v ++ [.ok ')'] : List Item) = oks ('(' :: v ++ [')']) := by simp [okChars, oks]
    simp only [answered]
    by_cases hp : '(' ∈ v
    · rw [if_pos hp, if_pos ((any_paren v).2 hp)]
      cases hh : parseHir v with
      | none => rfl
      | some h =>
        simp only
        by_cases hc : h.hasCaptureGroups = true
        · rw [if_pos hc, if_pos hc]
          simp only [ownedChars_eq, Option.map_some]
          congr 1
          simp [okChars, oks, enclosed]
        · rw [if_neg hc, if_neg hc]; exact congrArg some hw
    · rw [if_neg hp, if_neg (fun h => hp ((any_paren v).1 h))]; exact congrArg some hw

theorem itemsOf_other (pr : Provider) {el : SingleExpression} (h : ∀ p, el ≠ .parameter p) :
    itemsOf parseHir pr el = oks (plainPattern el) := by
  cases el with
  | parameter p => exact absurd rfl (h p)
  | _ => rfl

theorem singleChars_itemsOf (pr : Provider) (el : SingleExpression) :
    WithCustom.singleChars parseHir pr el = some (itemsOf parseHir pr el) := by
  by_cases hp : ∃ p, el = .parameter p
  · obtain ⟨p, rfl⟩ := hp; exact parameterChars_answered parseHir pr p
  · have h : ∀ p, el ≠ .parameter p := fun p hp' => hp ⟨p, hp'⟩
    rw [itemsOf_other parseHir pr h, ← chars_oks h]
    cases el with
    | parameter p => exact absurd rfl (h p)
    | _ => rfl

theorem flatItems_of {γ : Type} {f : γ → Option (List Item)} {g : γ → List Item} (h : ∀ a, f a = some (g a)) (as : List γ) :
    flatItems f as = some (as.flatMap g) := by
  induction as with
  | nil => rfl
  | cons a as ih => simp [flatItems, h, ih]

theorem withChars_eq (pr : Provider) (e : Expression) :
    WithCustom.chars parseHir pr e = some ([.ok '^'] ++ e.flatMap (itemsOf parseHir pr) ++ [.ok '$']) := by
  simp [WithCustom.chars, flatItems_of (singleChars_itemsOf parseHir pr)]

theorem chars_itemsOf (e : Expression) :
    e.chars = some ([.ok '^'] ++ e.flatMap (itemsOf parseHir fun _ => none) ++ [.ok '$']) := by
  have h : ∀ el : SingleExpression, el.chars = some (itemsOf parseHir (fun _ => none) el) := fun el => by
    by_cases hp : ∃ p, el = .parameter p
    · obtain ⟨p, rfl⟩ := hp; exact chars_answered parseHir p
    · have h : ∀ p, el ≠ .parameter p := fun p hp' => hp ⟨p, hp'⟩
      rw [itemsOf_other parseHir _ h, ← chars_oks h]
  simp [Expression.chars, flatItems_of h]

theorem emits_expr (e : Expression) : Emits (exprNext : NextS S _ Item) (exprNew e)
    ([.ok '^'] ++ e.flatMap (itemsOf parseHir fun _ => none) ++ [.ok '$']) := by
  refine emits_chain (emits_chain (emits_once _) (emits_flatMapVec e fun el _ => ?_)) (emits_once _)
  by_cases hp : ∃ p, el = .parameter p
  · obtain ⟨p, rfl⟩ := hp; exact emits_singlePar parseHir p
  · have h : ∀ p, el ≠ .parameter p := fun p hp' => hp ⟨p, hp'⟩
    rw [itemsOf_other parseHir _ h]
    exact emits_single el h

/-- A provider whose answers do not depend on its state. -/
theorem trace_stateless (pr : Provider) (hg : ∀ sp st, (get pars sp st).1 = pr sp) (e : List SingleExpression) : ∀ st : S,
    (trace parseHir get pars e st).1.map (·.1) = e.flatMap (itemsOf parseHir pr) := by
  induction e with
  | nil => exact fun _ => rfl
  | cons el r ih =>
    intro st
    by_cases hp : ∃ p, el = .parameter p
    · obtain ⟨p, rfl⟩ := hp
      simp [trace, itemsOf, hg, ih, Function.comp_def]
    · have hnp : ∀ p, el ≠ .parameter p := fun p hp' => hp ⟨p, hp'⟩
      have ht : trace parseHir get pars (el :: r) st =
          ((oks (plainPattern el)).map (·, st) ++ (trace parseHir get pars r st).1, (trace parseHir get pars r st).2) := by
        cases el with
        | parameter p => exact absurd rfl (hnp p)
        | _ => rfl
      rw [ht, List.flatMap_cons, itemsOf_other parseHir pr hnp, ← ih st]
      simp [Function.comp_def]

theorem traceResult_fst (l : List (Item × S)) (e : S) : (traceResult l e).1 = collectResult (l.map (·.1)) := by
  induction l with
  | nil => rfl
  | cons a l ih =>
    obtain ⟨_ | c, s⟩ := a
    · rfl
    · simp only [traceResult, List.map_cons, collectResult, ← ih]
      rcases traceResult l e with ⟨_ | _, _⟩ <;> rfl

theorem traceResult_snd_ok {l : List (Item × S)} {e e' : S} {cs : List Char} (h : traceResult l e = (.ok cs, e')) : e' = e := by
  induction l generalizing cs with
  | nil => simp [traceResult] at h; exact h.2.symm
  | cons a l ih =>
    obtain ⟨_ | c, s⟩ := a
    · simp [traceResult] at h
    · rcases hr : traceResult l e with ⟨_ | _, _⟩
      · simp [traceResult, hr] at h
      · simp only [traceResult, hr, Prod.mk.injEq, Except.ok.injEq] at h
        rw [← h.2]
        rw [h.2] at hr
        exact h.2 ▸ ih hr

/-- The compiled pattern of the items between `^` and `$`. -/
theorem compile_items (l : List Item) : compile (some ([.ok '^'] ++ l ++ [.ok '$'])) =
    match collectResult l with
    | .error x => .err (.expansion x)
    | .ok cs =>
      match Regex.parse ('^' :: cs ++ ['$']) with
      | .error x => .err (.regex x)
      | .ok r => .ok ⟨'^' :: cs ++ ['$'], r⟩ := by
  have h : collectResult ([.ok '^'] ++ l ++ [.ok '$']) =
      match collectResult l with
      | .error x => .error x
      | .ok cs => .ok ('^' :: cs ++ ['$']) := by
    rw [List.append_assoc, List.singleton_append, collectResult, collectResult_append]
    cases collectResult l <;> simp [collectResult]
  unfold compile
  simp only [h]
  cases collectResult l <;> rfl

theorem collectResult_answered (pr : Provider) (p : Parameter) :
    (∃ x, collectResult (answered parseHir p (pr p.input)) = .error x) ↔ fails parseHir pr p = true := by
  unfold fails
  cases hv : pr p.input with
  | none =>
    simp only [answered]
    cases hb : builtin? p.input.frag with
    | none => simp [collectResult]
    | some b => simp [collectResult_oks]
  | some v =>
    simp only [answered]
    by_cases hp : '(' ∈ v
    · cases hh : parseHir v with
      | none => simp [hp, collectResult]
      | some h => by_cases hc : h.hasCaptureGroups = true <;> simp [hp, hc, collectResult_oks]
    · simp [hp, collectResult_oks]

theorem askAll_log (pr : Provider) (e : List SingleExpression) : ∀ log : List Span,
    (askAll parseHir (logging pr) () e log).2 = log ++ (upToFirst (fails parseHir pr) (params e)).map (·.input) := by
  induction e with
  | nil => intro log; simp [askAll, params, upToFirst]
  | cons el r ih =>
    intro log
    by_cases hp : ∃ p, el = .parameter p
    · obtain ⟨p, rfl⟩ := hp
      rw [params_cons_parameter]
      simp only [askAll, logging, upToFirst]
      cases hc : collectResult (answered parseHir p (pr p.input)) with
      | error x =>
        have := (collectResult_answered parseHir pr p).1 ⟨x, hc⟩
        simp [this]
      | ok cs =>
        have : ¬ fails parseHir pr p = true := fun h => by
          obtain ⟨x, hx⟩ := (collectResult_answered parseHir pr p).2 h
          rw [hc] at hx; cases hx
        have h2 := ih (log ++ [p.input])
        simp only [this, if_false, Bool.false_eq_true]
        rcases ha : askAll parseHir (logging pr) () r (log ++ [p.input]) with ⟨_ | _, _⟩ <;>
          · rw [ha] at h2; simpa using h2
    · have hnp : ∀ p, el ≠ .parameter p := fun p hp' => hp ⟨p, hp'⟩
      rw [params_cons_other hnp]
      rw [askAll_other parseHir (logging pr) () hnp, ← ih log]
      rcases askAll parseHir (logging pr) () r log with ⟨_ | _, _⟩ <;> rfl

end CE.Iter
