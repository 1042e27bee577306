import Verif.Spec.Iter

/-! # Lemmas on iterators -/

namespace CE
open Spec

variable {σ α : Type}

theorem collect_of_yields {next : Next σ α} {s : σ} {xs : List α} (h : Yields next s xs) :
    ∀ n, xs.length < n → collect next n s = some xs := by
  induction h with
  | nil s s' h =>
    intro n hn
    cases n with
    | zero => simp at hn
    | succ n => simp [collect, h]
  | cons s s' a xs h _ ih =>
    intro n hn
    cases n with
    | zero => simp at hn
    | succ n =>
      simp only [List.length_cons] at hn
      simp [collect, h, ih n (by omega)]

theorem yields_of_collect {next : Next σ α} : ∀ {n : Nat} {s : σ} {xs : List α},
    collect next n s = some xs → Yields next s xs
  | 0, _, _, h => by simp [collect] at h
  | n + 1, s, xs, h => by
    unfold collect at h
    split at h
    · simp at h
    · next hn => simp at h; subst h; exact .nil _ _ hn
    · next hn =>
      simp only [Option.map_eq_some_iff] at h
      obtain ⟨ys, h1, rfl⟩ := h
      exact .cons _ _ _ _ hn (yields_of_collect h1)

theorem yields_unique {next : Next σ α} {s : σ} {xs ys : List α} (h : Yields next s xs) (h' : Yields next s ys) :
    xs = ys := by
  have a := collect_of_yields h (max xs.length ys.length + 1) (by omega)
  have b := collect_of_yields h' (max xs.length ys.length + 1) (by omega)
  rw [a] at b
  simpa using b

/-! ## `SkipLast` -/

/-- With an item already peeked. -/
theorem skipLast_peeked {nx : Next σ α} {s : σ} {xs : List α} (hx : Yields nx s xs) :
    ∀ a, Yields (SkipLast.next nx) ⟨some (some a), s⟩ (a :: xs).dropLast := by
  induction hx with
  | nil s s' h =>
    intro a
    exact .nil _ ⟨some none, s'⟩ (by simp [SkipLast.next, Peekable.next, Peekable.peek, h])
  | cons s s' b xs h _ ih =>
    intro a
    exact .cons _ ⟨some (some b), s'⟩ _ _ (by simp [SkipLast.next, Peekable.next, Peekable.peek, h]) (ih b)

theorem skipLast_yields {nx : Next σ α} {s : σ} {xs : List α} (hx : Yields nx s xs) (htot : ∀ s, nx s ≠ none) :
    Yields (SkipLast.next nx) (SkipLast.new s) xs.dropLast := by
  cases hx with
  | nil s s' h =>
    cases h2 : nx s' with
    | none => exact absurd h2 (htot s')
    | some r =>
      obtain ⟨v, s''⟩ := r
      refine .nil _ ⟨some v, s''⟩ ?_
      cases v <;> simp [SkipLast.next, SkipLast.new, Peekable.next, Peekable.peek, h, h2]
  | cons s s' a xs h hx =>
    cases hx with
    | nil _ s'' h2 =>
      exact .nil _ ⟨some none, s''⟩ (by simp [SkipLast.next, SkipLast.new, Peekable.next, Peekable.peek, h, h2])
    | cons _ s'' b xs h2 hx =>
      exact .cons _ ⟨some (some b), s''⟩ _ _
        (by simp [SkipLast.next, SkipLast.new, Peekable.next, Peekable.peek, h, h2]) (skipLast_peeked hx b)

theorem yields_items (l : List Item) : Yields itemsNext l l := by
  induction l with
  | nil => exact .nil _ [] rfl
  | cons a l ih => exact .cons _ l _ _ rfl ih

theorem skipLast_eq (l : List Item) : skipLast l = some l.dropLast := by
  refine collect_of_yields (skipLast_yields (yields_items l) ?_) _ ?_
  · intro s; cases s <;> simp [itemsNext]
  · simp; omega

/-! ## `OwnedChars` -/

theorem owned_yields (str : List Char) : ∀ k, Yields OwnedChars.next ⟨str, k⟩ (str.drop k) := by
  intro k
  generalize hn : str.length - k = n
  induction n generalizing k with
  | zero =>
    have h : str[k]? = none := by simp; omega
    rw [show str.drop k = [] by simp; omega]
    exact .nil _ ⟨str, k⟩ (by simp [OwnedChars.next, h])
  | succ n ih =>
    have hk : k < str.length := by omega
    rw [List.drop_eq_getElem_cons hk]
    exact .cons _ ⟨str, k + 1⟩ _ _ (by simp [OwnedChars.next, hk]) (ih (k + 1) (by omega))

theorem ownedChars_eq (s : List Char) : ownedChars s = some s :=
  collect_of_yields (owned_yields s 0) _ (by simp)

/-! ## `EscapeForRegex` -/

/-- What `EscapeForRegex` yields. -/
def quoteAll (u : List Char) : List Char := (u.map quote).flatten

@[simp] theorem quoteAll_nil : quoteAll [] = [] := rfl
@[simp] theorem quoteAll_cons (c) (u : List Char) : quoteAll (c :: u) = quote c ++ quoteAll u := rfl
theorem quoteAll_append (u v : List Char) : quoteAll (u ++ v) = quoteAll u ++ quoteAll v := by simp [quoteAll]

theorem shouldBeEscaped_iff (c : Char) : shouldBeEscaped c = true ↔ c ∈ "^$[]()\\{}.|?*+".toList := by
  simp [shouldBeEscaped]

theorem quote_special {c : Char} (h : shouldBeEscaped c = true) : quote c = ['\\', c] := by
  rw [quote, if_pos ((shouldBeEscaped_iff c).1 h)]

theorem quote_plain {c : Char} (h : shouldBeEscaped c = false) : quote c = [c] := by
  rw [quote, if_neg]
  intro h'
  rw [(shouldBeEscaped_iff c).2 h'] at h
  simp at h

/-- A peekable state that stands for the remaining characters `t`. -/
inductive Stands : Peekable (List Char) Char → List Char → Prop
  | fresh (t) : Stands ⟨none, t⟩ t
  | peeked (c t) : Stands ⟨some (some c), t⟩ (c :: t)
  | ended (t) : t = [] → Stands ⟨some none, t⟩ []

theorem Stands.next {it : Peekable (List Char) Char} {t : List Char} (h : Stands it t) :
    ∃ it', it.next charsNext = some (t.head?, it') ∧ Stands it' t.tail := by
  cases h with
  | fresh =>
    cases t with
    | nil => exact ⟨_, rfl, .fresh []⟩
    | cons c t => exact ⟨_, rfl, .fresh t⟩
  | peeked c t => exact ⟨_, rfl, .fresh t⟩
  | ended t h => subst h; exact ⟨_, rfl, .fresh []⟩

theorem Stands.peek {it : Peekable (List Char) Char} {t : List Char} (h : Stands it t) :
    ∃ it', it.peek charsNext = some (t.head?, it') ∧ Stands it' t := by
  cases h with
  | fresh =>
    cases t with
    | nil => exact ⟨_, rfl, .ended [] rfl⟩
    | cons c t => exact ⟨_, rfl, .peeked c t⟩
  | peeked c t => exact ⟨_, rfl, .peeked c t⟩
  | ended t h => subst h; exact ⟨_, rfl, .ended [] rfl⟩

theorem shouldBeEscaped_backslash : shouldBeEscaped '\\' = true := by decide

theorem escape_yields (m : Nat) : ∀ (n : Nat) (t : List Char), t.length ≤ n → ∀ it, Stands it t →
    Yields (EscapeForRegex.next charsNext (m + 2)) ⟨it, none⟩ (quoteAll (unescape t)) := by
  intro n
  induction n with
  | zero =>
    intro t ht it hit
    have : t = [] := by cases t <;> simp_all
    subst this
    obtain ⟨it', h1, h2⟩ := hit.next
    exact .nil _ ⟨it', none⟩ (by simp [EscapeForRegex.next, EscapeForRegex.loop, h1])
  | succ n ih =>
    intro t ht it hit
    obtain ⟨it1, h1, h2⟩ := hit.next
    cases t with
    | nil => exact .nil _ ⟨it1, none⟩ (by simp [EscapeForRegex.next, EscapeForRegex.loop, h1])
    | cons c t =>
      simp only [List.head?_cons, List.tail_cons] at h1 h2
      simp only [List.length_cons] at ht
      by_cases hc : c = '\\'
      · subst hc
        obtain ⟨it2, h3, h4⟩ := h2.peek
        cases t with
        | nil =>
          simp only [List.head?_nil] at h3
          exact .nil _ ⟨it2, none⟩ (by simp [EscapeForRegex.next, EscapeForRegex.loop, h1, h3])
        | cons d t =>
          simp only [List.head?_cons] at h3
          simp only [List.length_cons] at ht
          obtain ⟨it3, h5, h6⟩ := h4.next
          simp only [List.head?_cons, List.tail_cons] at h5 h6
          cases hd : shouldBeEscaped d with
          | true =>
            simp only [unescape, quoteAll_cons, quote_special hd, List.cons_append, List.nil_append]
            refine .cons _ ⟨it3, some d⟩ _ _ (by simp [EscapeForRegex.next, EscapeForRegex.loop, h1, h3, hd, h5]) ?_
            refine .cons _ ⟨it3, none⟩ _ _ (by simp [EscapeForRegex.next]) ?_
            exact ih t (by omega) it3 h6
          | false =>
            have hne : d ≠ '\\' := by
              intro h; subst h; rw [shouldBeEscaped_backslash] at hd; simp at hd
            simp only [unescape, quoteAll_cons, quote_plain hd, List.cons_append, List.nil_append]
            refine .cons _ ⟨it3, none⟩ _ _ (by simp [EscapeForRegex.next, EscapeForRegex.loop, h1, h3, hd, h5, hne]) ?_
            exact ih t (by omega) it3 h6
      · have hu : unescape (c :: t) = c :: unescape t := by
          cases t <;> simp [unescape, hc]
        rw [hu]
        cases hd : shouldBeEscaped c with
        | true =>
          simp only [quoteAll_cons, quote_special hd, List.cons_append, List.nil_append]
          refine .cons _ ⟨it1, some c⟩ _ _ (by simp [EscapeForRegex.next, EscapeForRegex.loop, h1, hd, hc]) ?_
          refine .cons _ ⟨it1, none⟩ _ _ (by simp [EscapeForRegex.next]) ?_
          exact ih t (by omega) it1 h2
        | false =>
          simp only [quoteAll_cons, quote_plain hd, List.cons_append, List.nil_append]
          refine .cons _ ⟨it1, none⟩ _ _ (by simp [EscapeForRegex.next, EscapeForRegex.loop, h1, hd, hc]) ?_
          exact ih t (by omega) it1 h2

theorem quote_length_le (c : Char) : (quote c).length ≤ 2 := by
  unfold quote; split <;> simp

theorem quoteAll_length_le (u : List Char) : (quoteAll u).length ≤ 2 * u.length := by
  induction u with
  | nil => simp
  | cons c u ih => have := quote_length_le c; simp; omega

theorem unescape_length_le : ∀ t : List Char, (unescape t).length ≤ t.length
  | [] => by simp [unescape]
  | [c] => by by_cases h : c = '\\' <;> simp [unescape, h]
  | c :: d :: r => by
    by_cases h : c = '\\'
    · subst h; simp only [unescape]; have := unescape_length_le r; simp; omega
    · rw [show unescape (c :: d :: r) = c :: unescape (d :: r) by simp [unescape, h]]
      have := unescape_length_le (d :: r); simp at this ⊢; omega

theorem escapeForRegex_eq (t : List Char) : escapeForRegex t = some (quoteAll (unescape t)) := by
  cases t with
  | nil => rfl
  | cons c t =>
    refine collect_of_yields (s := EscapeForRegex.new (c :: t)) ?_ _ ?_
    · exact escape_yields t.length _ (c :: t) (Nat.le_refl _) _ (.fresh _)
    · have := quoteAll_length_le (unescape (c :: t))
      have := unescape_length_le (c :: t)
      omega

end CE
