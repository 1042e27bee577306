import Verif.Model.RegexSearch

/-!
# An empty group at the beginning of a regex or of a group changes nothing
-/

namespace CE.Regex

/-- The same groups, matches and preferences. -/
structure Re.Same (r s : Re) : Prop where
  groups : r.groups = s.groups
  isMatch : ∀ U : Classes, r.Match U = s.Match U
  tries : ∀ T : Tests, r.tries T = s.tries T

namespace Re.Same

theorem refl (r : Re) : r.Same r := ⟨rfl, fun _ => rfl, fun _ => rfl⟩

theorem trans {r s t : Re} (h : r.Same s) (k : s.Same t) : r.Same t :=
  ⟨h.1.trans k.1, fun U => (h.2 U).trans (k.2 U), fun T => (h.3 T).trans (k.3 T)⟩

theorem cap {r s : Re} (n : Option (List Char)) (h : r.Same s) : (Re.cap n r).Same (.cap n s) :=
  ⟨by simp only [Re.groups, h.1], fun U => by funext g pre x post l; simp only [Re.Match, h.2],
    fun T => by funext g pre rest; simp only [Re.tries, h.3]⟩

theorem cat {a b c d : Re} (h : a.Same c) (k : b.Same d) : (Re.cat a b).Same (.cat c d) :=
  ⟨by simp only [Re.groups, h.1, k.1], fun U => by funext g pre x post l; simp only [Re.Match, h.1, h.2, k.2],
    fun T => by funext g pre rest; simp only [Re.tries, h.1, h.3, k.3]⟩

theorem alt {a b c d : Re} (h : a.Same c) (k : b.Same d) : (Re.alt a b).Same (.alt c d) :=
  ⟨by simp only [Re.groups, h.1, k.1], fun U => by funext g pre x post l; simp only [Re.Match, h.1, h.2, k.2],
    fun T => by funext g pre rest; simp only [Re.tries, h.1, h.3, k.3]⟩

theorem rep {r s : Re} (m : Nat) (n : Option Nat) (g : Bool) (h : r.Same s) : (Re.rep r m n g).Same (.rep s m n g) :=
  ⟨by simp only [Re.groups, h.1], fun U => by funext g pre x post l; simp only [Re.Match, h.2],
    fun T => by funext g pre rest; simp only [Re.tries, h.3]⟩

/-- Nothing, and then something. -/
theorem empty_cat (r : Re) : r.Same (.cat .empty r) :=
  ⟨by simp [Re.groups], fun U => by
      funext g pre x post l
      simp only [Re.Match, Re.groups, List.length_nil, Nat.add_zero]
      refine propext ⟨fun h => ⟨[], x, [], l, rfl, rfl, ⟨rfl, rfl⟩, by simpa using h⟩, ?_⟩
      rintro ⟨y, z, k, m, rfl, rfl, ⟨rfl, rfl⟩, h⟩
      simpa using h,
    fun T => by
      funext g pre rest
      simp [Re.tries, andThen, Re.groups]⟩

end Re.Same

/-- One by one. -/
inductive All : List Re → List Re → Prop
  | nil : All [] []
  | cons {a b as bs} : a.Same b → All as bs → All (a :: as) (b :: bs)

theorem All.refl : ∀ l, All l l
  | [] => .nil
  | a :: l => .cons (.refl a) (All.refl l)

theorem All.append {a b c d : List Re} (h : All a b) (k : All c d) : All (a ++ c) (b ++ d) := by
  induction h with
  | nil => exact k
  | cons h _ ih => exact .cons h ih

theorem All.reverse {a b : List Re} (h : All a b) : All a.reverse b.reverse := by
  induction h with
  | nil => exact .nil
  | cons h _ ih => rw [List.reverse_cons, List.reverse_cons]; exact ih.append (.cons h .nil)

theorem All.catL {a b : List Re} (h : All a b) : (catL a).Same (catL b) := by
  induction h with
  | nil => exact .refl _
  | @cons a b as bs h t ih =>
    cases t with
    | nil => exact h
    | cons h' t' => exact .cat h ih

theorem All.altL {a b : List Re} (h : All a b) : (altL a).Same (altL b) := by
  induction h with
  | nil => exact .refl _
  | @cons a b as bs h t ih =>
    cases t with
    | nil => exact h
    | cons h' t' => exact .alt h ih

/-- The same, but for an empty group at the beginning of the branch. -/
structure Frame.Same (f f' : Frame) : Prop where
  fresh : f.fresh = f'.fresh
  branches : All f.branches f'.branches
  items : ∃ is, All f.items is ∧ (f'.items = is ∨ f'.items = is ++ [.empty])
  latest : f.fresh = true → ∃ r r' m n g rs rs', f.items = .rep r m n g :: rs ∧ f'.items = .rep r' m n g :: rs' ∧ r.Same r'

theorem Frame.Same.refl (f : Frame) (h : f.fresh = true → ∃ r m n g rs, f.items = .rep r m n g :: rs) : f.Same f :=
  ⟨rfl, .refl _, ⟨_, .refl _, .inl rfl⟩, fun e => by
    obtain ⟨r, m, n, g, rs, h⟩ := h e
    exact ⟨r, r, m, n, g, rs, rs, h, h, .refl r⟩⟩

theorem Frame.Same.branch {f f' : Frame} (h : f.Same f') : (catL f.items.reverse).Same (catL f'.items.reverse) := by
  obtain ⟨is, h1, h2 | h2⟩ := h.items
  · rw [h2]; exact h1.reverse.catL
  · rw [h2, List.reverse_append]
    refine h1.reverse.catL.trans ?_
    cases e : is.reverse with
    | nil => exact .refl _
    | cons a as => exact .empty_cat _

theorem Frame.Same.finish {f f' : Frame} (h : f.Same f') : f.finish.Same f'.finish :=
  (All.cons h.branch h.branches).reverse.altL

theorem Frame.Same.push {f f' : Frame} (h : f.Same f') {r r' : Re} (hr : r.Same r') : (f.push r).Same (f'.push r') := by
  obtain ⟨is, h1, h2⟩ := h.items
  refine ⟨rfl, h.branches, ⟨r' :: is, .cons hr h1, ?_⟩, fun e => by cases e⟩
  exact h2.imp (congrArg _) (congrArg _)

theorem Frame.Same.repeated {f f' g : Frame} (h : f.Same f') {m : Nat} {n : Option Nat} (hg : f.repeated m n = .ok g) :
    ∃ g', f'.repeated m n = .ok g' ∧ g.Same g' := by
  obtain ⟨is, h1, h2⟩ := h.items
  unfold Frame.repeated at hg ⊢
  cases hi : f.items with
  | nil => rw [hi] at hg; cases hg
  | cons r rs =>
    rw [hi] at hg h1
    cases hg
    cases h1 with
    | @cons _ r' _ rs' h3 h4 =>
      rcases h2 with h2 | h2
      · rw [h2]
        exact ⟨_, rfl, rfl, h.branches, ⟨_, .cons (.rep m n true h3) h4, .inl rfl⟩, fun _ => ⟨_, _, _, _, _, _, _, rfl, rfl, h3⟩⟩
      · rw [h2]
        exact ⟨_, rfl, rfl, h.branches, ⟨_, .cons (.rep m n true h3) h4, .inr rfl⟩, fun _ => ⟨_, _, _, _, _, _, _, rfl, rfl, h3⟩⟩

theorem Frame.Same.quest {f f' g : Frame} (h : f.Same f') (hg : f.quest = .ok g) : ∃ g', f'.quest = .ok g' ∧ g.Same g' := by
  cases hf : f.fresh with
  | false =>
    have hf' := h.fresh.symm.trans hf
    have e : ∀ f : Frame, f.fresh = false → f.quest = f.repeated 0 (some 1) := fun f hf => by simp [Frame.quest, hf]
    rw [e _ hf] at hg
    rw [e _ hf']
    exact h.repeated hg
  | true =>
    have hf' := h.fresh.symm.trans hf
    obtain ⟨r, r', m, n, gr, rs, rs', h1, h2, h3⟩ := h.latest hf
    obtain ⟨is, h4, h5⟩ := h.items
    simp only [Frame.quest, hf, h1] at hg
    simp only [Frame.quest, hf', h2]
    cases hg
    refine ⟨_, rfl, rfl, h.branches, ?_, fun e => by cases e⟩
    rw [h1] at h4
    cases h4 with
    | @cons _ q _ qs h6 h7 =>
      rcases h5 with h5 | h5
      · rw [h2] at h5
        cases h5
        exact ⟨_, .cons (.rep m n false h3) h7, .inl rfl⟩
      · rw [h2] at h5
        cases h5
        exact ⟨_, .cons (.rep m n false h3) h7, .inr rfl⟩

/-- `Inserted ts us`: `us` has an additional empty group at the beginning of a group. -/
inductive Inserted : List Tok → List Tok → Prop
  | cons (t : Tok) {ts us} : Inserted ts us → Inserted (t :: ts) (t :: us)
  | here (n : Option (List Char)) (ts) : Inserted (.capture n :: ts) (.capture n :: .group :: .close :: ts)

theorem Inserted.append (as : List Tok) {ts us : List Tok} (h : Inserted ts us) : Inserted (as ++ ts) (as ++ us) := by
  induction as with
  | nil => exact h
  | cons a as ih => exact .cons a ih

inductive Stack : List (Kind × Frame) → List (Kind × Frame) → Prop
  | nil : Stack [] []
  | cons (k : Kind) {f f' st st'} : f.Same f' → Stack st st' → Stack ((k, f) :: st) ((k, f') :: st')

theorem Kind.wrap_same (k : Kind) {r s : Re} (h : r.Same s) : (k.wrap r).Same (k.wrap s) := by
  cases k with
  | capture n => exact h.cap n
  | group => exact h

theorem start_same : Frame.start.Same .start := .refl _ fun e => by cases e

theorem start_empty : Frame.start.Same (Frame.start.push .empty) :=
  ⟨rfl, .nil, ⟨[], .nil, .inr rfl⟩, fun e => by cases e⟩

/-- The same tokens (`eq`) or with an empty group inserted, in similar states: similar regexes. -/
theorem build_similar : ∀ (ts us : List Tok), ts = us ∨ Inserted ts us → ∀ (st st' : List (Kind × Frame)) (f f' : Frame) (r : Re),
    Stack st st' → f.Same f' → build st f ts = .ok r → ∃ r', build st' f' us = .ok r' ∧ r.Same r'
  | [], us, hi, st, st', f, f', r, hs, hf, h => by
    rcases hi with rfl | hi
    · cases hs with
      | nil => cases h; exact ⟨_, rfl, hf.finish⟩
      | cons => cases h
    · cases hi
  | t :: ts, us, hi, st, st', f, f', r, hs, hf, h => by
    have hus : (∃ vs, us = t :: vs ∧ (ts = vs ∨ Inserted ts vs)) ∨ ∃ n, t = .capture n ∧ us = .capture n :: .group :: .close :: ts := by
      rcases hi with rfl | hi
      · exact .inl ⟨_, rfl, .inl rfl⟩
      · cases hi with
        | cons _ hi => exact .inl ⟨_, rfl, .inr hi⟩
        | here n _ => exact .inr ⟨n, rfl, rfl⟩
    rcases hus with ⟨vs, rfl, hv⟩ | ⟨n, rfl, rfl⟩
    · have ih := build_similar ts vs hv
      cases t with
      | lit c => exact ih _ _ _ _ _ hs (hf.push (.refl _)) h
      | dot => exact ih _ _ _ _ _ hs (hf.push (.refl _)) h
      | cls k => exact ih _ _ _ _ _ hs (hf.push (.refl _)) h
      | bol => exact ih _ _ _ _ _ hs (hf.push (.refl _)) h
      | eol => exact ih _ _ _ _ _ hs (hf.push (.refl _)) h
      | mark k => exact ih _ _ _ _ _ hs (hf.push (.refl _)) h
      | capture n => exact ih _ _ _ _ _ (.cons _ hf hs) start_same h
      | group => exact ih _ _ _ _ _ (.cons _ hf hs) start_same h
      | close =>
        cases hs with
        | nil => cases h
        | cons k hg hs => exact ih _ _ _ _ _ hs (hg.push (k.wrap_same hf.finish)) h
      | bar => exact ih st st' ⟨catL f.items.reverse :: f.branches, [], false⟩ ⟨catL f'.items.reverse :: f'.branches, [], false⟩ r hs ⟨rfl, .cons hf.branch hf.branches, ⟨[], .nil, .inl rfl⟩, fun e => by cases e⟩ h
      | quest =>
        rw [build] at h ⊢
        cases hq : f.quest with
        | error e => rw [hq] at h; cases h
        | ok g =>
          obtain ⟨g', h1, h2⟩ := hf.quest hq
          rw [hq] at h
          rw [h1]
          exact ih _ _ _ _ _ hs h2 h
      | star =>
        rw [build] at h ⊢
        cases hq : f.repeated 0 none with
        | error e => rw [hq] at h; cases h
        | ok g =>
          obtain ⟨g', h1, h2⟩ := hf.repeated hq
          rw [hq] at h
          rw [h1]
          exact ih _ _ _ _ _ hs h2 h
      | plus =>
        rw [build] at h ⊢
        cases hq : f.repeated 1 none with
        | error e => rw [hq] at h; cases h
        | ok g =>
          obtain ⟨g', h1, h2⟩ := hf.repeated hq
          rw [hq] at h
          rw [h1]
          exact ih _ _ _ _ _ hs h2 h
      | count m n =>
        rw [build] at h ⊢
        cases hq : f.repeated m n with
        | error e => rw [hq] at h; cases h
        | ok g =>
          obtain ⟨g', h1, h2⟩ := hf.repeated hq
          rw [hq] at h
          rw [h1]
          exact ih _ _ _ _ _ hs h2 h
    · exact build_similar ts ts (.inl rfl) _ _ _ _ _ (.cons _ hf hs) start_empty h

theorem build_inserted {ts us : List Tok} (h : Inserted ts us) {r : Re} (hr : build [] .start ts = .ok r) :
    ∃ r', build [] .start us = .ok r' ∧ r.Same r' := build_similar ts us (.inr h) _ _ _ _ _ .nil start_same hr

theorem build_front {ts : List Tok} {r : Re} (hr : build [] .start ts = .ok r) :
    ∃ r', build [] .start (.group :: .close :: ts) = .ok r' ∧ r.Same r' :=
  build_similar ts ts (.inl rfl) [] [] .start (Frame.start.push .empty) r .nil start_empty hr

end CE.Regex
