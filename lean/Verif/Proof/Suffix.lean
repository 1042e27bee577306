import Verif.Proof.RegexParse

/-! # Lexing consumes a beginning of the pattern; only `(` yields an opening token -/

namespace CE.Regex

theorem clsOpen_suffix {cs r : List Char} {k : Cls} (h : clsOpen cs = .ok (k, r)) : r <:+ cs := (clsOpen_tail h).1

theorem decDigits_suffix : ∀ cs : List Char, (decDigits cs).2 <:+ cs
  | [] => List.suffix_refl _
  | c :: r => by
    unfold decDigits
    split
    · exact (decDigits_suffix r).trans (List.suffix_cons _ _)
    · exact List.suffix_refl _

theorem numeral_suffix (cs : List Char) : (numeral cs).2 <:+ cs :=
  (List.dropWhile_suffix _).trans ((decDigits_suffix _).trans (List.dropWhile_suffix _))

theorem countTok_suffix {cs r : List Char} {t : Tok} (h : countTok cs = .ok (t, r)) :
    r <:+ cs ∧ ∃ m n, t = .count m n := by
  have hd := numeral_suffix cs
  unfold countTok at h
  split at h
  · cases h
  · rename_i he; rw [he] at hd; cases h; exact ⟨(List.suffix_cons _ _).trans hd, _, _, rfl⟩
  · rename_i he; rw [he] at hd; cases h; exact ⟨(List.suffix_cons _ _).trans ((List.suffix_cons _ _).trans hd), _, _, rfl⟩
  · rename_i m q _ _ he
    rw [he] at hd
    have hd2 := (numeral_suffix q).trans ((List.suffix_cons _ _).trans hd)
    split at h
    · cases h
    · rename_i he'
      rw [he'] at hd2
      split at h
      · cases h; exact ⟨(List.suffix_cons _ _).trans hd2, _, _, rfl⟩
      · cases h
    · cases h
  · cases h

/-- The token opens a group. -/
def Tok.opens : Tok → Bool
  | .capture _ => true
  | .group => true
  | _ => false

theorem lexOne_closed {c : Char} {cs r : List Char} {t : Tok} (hc : c ≠ '(') (h : lexOne c cs = .ok (t, r)) :
    r <:+ cs ∧ t.opens = false := by
  unfold lexOne at h
  split at h
  · exact absurd rfl hc
  · cases h; exact ⟨List.suffix_refl _, rfl⟩
  · cases h; exact ⟨List.suffix_refl _, rfl⟩
  · split at h
    · rename_i hk; cases h; exact ⟨clsOpen_suffix hk, rfl⟩
    · cases h
  · cases h; exact ⟨List.suffix_refl _, rfl⟩
  · cases h; exact ⟨List.suffix_refl _, rfl⟩
  · cases h; exact ⟨List.suffix_refl _, rfl⟩
  · obtain ⟨h1, m, n, rfl⟩ := countTok_suffix h; exact ⟨h1, rfl⟩
  · cases h; exact ⟨List.suffix_refl _, rfl⟩
  · cases h; exact ⟨List.suffix_refl _, rfl⟩
  · cases h; exact ⟨List.suffix_refl _, rfl⟩
  · split at h
    · cases h
    · split at h <;> first
        | (cases h; done)
        | (next he => cases h; exact ⟨(escape_suffix he).trans (List.suffix_cons _ _), rfl⟩)
  · cases h; exact ⟨List.suffix_refl _, rfl⟩

theorem lexF_closed : ∀ (n : Nat) {cs : List Char} {ts : List RTok}, '(' ∉ cs → lexF n cs = .ok ts →
    ∀ t ∈ ts, ∃ c u, t = .tok c u ∧ u.opens = false
  | n, [], ts, _, h => by
    cases n <;> (cases h; simp)
  | 0, _ :: _, _, _, h => by cases h
  | n + 1, c :: cs, ts, hp, h => by
    rw [lexF] at h
    split at h
    · cases h
    · rename_i t r h1
      rcases rawOne_cases h1 with ⟨q, rfl, _⟩ | ⟨_, u, hu, rfl⟩
      · exact absurd (by simp) hp
      obtain ⟨hs, ht⟩ := lexOne_closed (fun hc => hp (by simp [hc])) hu
      split at h
      · cases h
      · rename_i us h2
        cases h
        have ih := lexF_closed n (fun hm => hp (List.mem_cons_of_mem _ (hs.subset hm))) h2
        intro u hu
        rcases List.mem_cons.1 hu with rfl | hu
        · exact ⟨_, _, rfl, ht⟩
        · exact ih u hu

/-- Without an opening parenthesis there are no flags. -/
theorem lex_unflagged {cs : List Char} {ts : List Tok} (hp : '(' ∉ cs) (h : lex cs = .ok ts) :
    ∃ us, lexF cs.length cs = .ok us ∧ (∀ u ∈ us, ∃ c t, u = .tok c t) ∧ ts = us.map RTok.plain ∧ ∀ t ∈ ts, t.opens = false := by
  unfold lex at h
  split at h
  · cases h
  · next us hu =>
    have hc := lexF_closed _ hp hu
    have hr := resolve_plains us [] fun u hu => by obtain ⟨c, t, ht, _⟩ := hc u hu; exact ⟨c, t, ht⟩
    rw [List.append_nil, h] at hr
    simp only [resolve, prep_ok, List.append_nil, Except.ok.injEq] at hr
    refine ⟨us, hu, fun u hu => by obtain ⟨c, t, ht, _⟩ := hc u hu; exact ⟨c, t, ht⟩, hr, ?_⟩
    intro t ht
    rw [hr, List.mem_map] at ht
    obtain ⟨u, hu, rfl⟩ := ht
    obtain ⟨c, t, rfl, h⟩ := hc u hu
    exact h

/-- Without an opening parenthesis there is no opening token. -/
theorem lex_closed {cs : List Char} {ts : List Tok} (hp : '(' ∉ cs) (h : lex cs = .ok ts) : ∀ t ∈ ts, t.opens = false :=
  let ⟨_, _, _, _, h⟩ := lex_unflagged hp h
  h

/-- A closing token without an opening one is an error. -/
theorem build_unopened : ∀ (ts : List Tok) (f : Frame) (rest : List Tok), (∀ t ∈ ts, t.opens = false) →
    ∃ x, build [] f (ts ++ .close :: rest) = .error x
  | [], f, rest, _ => ⟨_, rfl⟩
  | t :: ts, f, rest, h => by
    have ih := fun f => build_unopened ts f rest (fun u hu => h u (by simp [hu]))
    have ht := h t (by simp)
    cases t with
    | capture n => cases ht
    | group => cases ht
    | close => exact ⟨_, rfl⟩
    | quest =>
      simp only [List.cons_append, build]
      cases f.quest with
      | error e => exact ⟨_, rfl⟩
      | ok f' => exact ih f'
    | star =>
      simp only [List.cons_append, build]
      cases f.repeated 0 none with
      | error e => exact ⟨_, rfl⟩
      | ok f' => exact ih f'
    | plus =>
      simp only [List.cons_append, build]
      cases f.repeated 1 none with
      | error e => exact ⟨_, rfl⟩
      | ok f' => exact ih f'
    | count m n =>
      simp only [List.cons_append, build]
      cases f.repeated m n with
      | error e => exact ⟨_, rfl⟩
      | ok f' => exact ih f'
    | _ => exact ih _

/-- Tokens without an opening one that are not a regex are none in a group either. -/
theorem build_stuck : ∀ (ts : List Tok) (f : Frame) (k : Kind) (g : Frame) (rest : List Tok), (∀ t ∈ ts, t.opens = false) →
    (∃ x, build [] f ts = .error x) → ∃ x, build [(k, g)] f (ts ++ .close :: rest) = .error x
  | [], f, k, g, rest, _, h => by obtain ⟨x, h⟩ := h; cases h
  | t :: ts, f, k, g, rest, h, hb => by
    have ih := fun f => build_stuck ts f k g rest (fun u hu => h u (by simp [hu]))
    have ht := h t (by simp)
    cases t with
    | capture n => cases ht
    | group => cases ht
    | close => exact build_unopened ts _ rest fun u hu => h u (by simp [hu])
    | quest =>
      simp only [List.cons_append, build] at hb ⊢
      cases hq : f.quest with
      | error e => exact ⟨_, rfl⟩
      | ok f' => rw [hq] at hb; exact ih f' hb
    | star =>
      simp only [List.cons_append, build] at hb ⊢
      cases hq : f.repeated 0 none with
      | error e => exact ⟨_, rfl⟩
      | ok f' => rw [hq] at hb; exact ih f' hb
    | plus =>
      simp only [List.cons_append, build] at hb ⊢
      cases hq : f.repeated 1 none with
      | error e => exact ⟨_, rfl⟩
      | ok f' => rw [hq] at hb; exact ih f' hb
    | count m n =>
      simp only [List.cons_append, build] at hb ⊢
      cases hq : f.repeated m n with
      | error e => exact ⟨_, rfl⟩
      | ok f' => rw [hq] at hb; exact ih f' hb
    | _ => exact ih _ hb

/-! ## No groups without opening tokens -/

theorem altL_closed (rs : List Re) (h : ∀ r ∈ rs, r.groups = []) : (altL rs).groups = [] := by
  induction rs with
  | nil => rfl
  | cons r rs ih =>
    cases rs with
    | nil => exact h r (by simp)
    | cons s rs => simp only [altL, Re.groups, h r (by simp), ih fun q hq => h q (by simp [hq])]; rfl

theorem catL_closed (rs : List Re) (h : ∀ r ∈ rs, r.groups = []) : (catL rs).groups = [] := by
  induction rs with
  | nil => rfl
  | cons r rs ih =>
    cases rs with
    | nil => exact h r (by simp)
    | cons s rs => simp only [catL, Re.groups, h r (by simp), ih fun q hq => h q (by simp [hq])]; rfl

/-- Nothing read so far has groups. -/
def Frame.closed (f : Frame) : Prop := (∀ r ∈ f.branches, r.groups = []) ∧ ∀ r ∈ f.items, r.groups = []

theorem Frame.closed_push {f : Frame} (h : f.closed) {r : Re} (hr : r.groups = []) : (f.push r).closed :=
  ⟨h.1, by simpa [Frame.push] using ⟨hr, h.2⟩⟩

theorem Frame.closed_repeated {f f' : Frame} {m : Nat} {n : Option Nat} (h : f.closed) (hf : f.repeated m n = .ok f') : f'.closed := by
  unfold Frame.repeated at hf
  split at hf
  · cases hf
  · rename_i r rs he
    cases hf
    refine ⟨h.1, ?_⟩
    have := h.2
    rw [he] at this
    simpa [Re.groups] using this

theorem Frame.closed_quest {f f' : Frame} (h : f.closed) (hf : f.quest = .ok f') : f'.closed := by
  unfold Frame.quest at hf
  split at hf
  · rename_i r m n _ rs _ he
    cases hf
    refine ⟨h.1, ?_⟩
    have := h.2
    rw [he] at this
    simpa [Re.groups] using this
  · exact Frame.closed_repeated h hf

theorem build_closed : ∀ (ts : List Tok) (f : Frame) (r : Re), (∀ t ∈ ts, t.opens = false) → f.closed →
    build [] f ts = .ok r → r.groups = []
  | [], f, r, _, hf, h => by
    cases h
    refine altL_closed _ ?_
    intro r hr
    rcases List.mem_cons.1 (List.mem_reverse.1 hr) with rfl | hr
    · exact catL_closed _ fun q hq => hf.2 q (List.mem_reverse.1 hq)
    · exact hf.1 r hr
  | t :: ts, f, r, h, hf, hb => by
    have ih := fun f hf => build_closed ts f r (fun u hu => h u (by simp [hu])) hf
    have ht := h t (by simp)
    cases t with
    | capture n => cases ht
    | group => cases ht
    | close => cases hb
    | lit c => exact ih _ (Frame.closed_push hf rfl) hb
    | dot => exact ih _ (Frame.closed_push hf rfl) hb
    | cls k => exact ih _ (Frame.closed_push hf rfl) hb
    | bol => exact ih _ (Frame.closed_push hf rfl) hb
    | eol => exact ih _ (Frame.closed_push hf rfl) hb
    | mark b => exact ih _ (Frame.closed_push hf rfl) hb
    | bar =>
      refine ih _ ⟨?_, by simp⟩ hb
      simp only [List.mem_cons, forall_eq_or_imp]
      exact ⟨catL_closed _ fun q hq => hf.2 q (List.mem_reverse.1 hq), hf.1⟩
    | quest =>
      simp only [build] at hb
      cases hq : f.quest with
      | error e => rw [hq] at hb; cases hb
      | ok f' => rw [hq] at hb; exact ih f' (Frame.closed_quest hf hq) hb
    | star =>
      simp only [build] at hb
      cases hq : f.repeated 0 none with
      | error e => rw [hq] at hb; cases hb
      | ok f' => rw [hq] at hb; exact ih f' (Frame.closed_repeated hf hq) hb
    | plus =>
      simp only [build] at hb
      cases hq : f.repeated 1 none with
      | error e => rw [hq] at hb; cases hb
      | ok f' => rw [hq] at hb; exact ih f' (Frame.closed_repeated hf hq) hb
    | count m n =>
      simp only [build] at hb
      cases hq : f.repeated m n with
      | error e => rw [hq] at hb; cases hb
      | ok f' => rw [hq] at hb; exact ih f' (Frame.closed_repeated hf hq) hb

/-- A regex without an opening parenthesis has no groups. -/
theorem parse_nogroups {v : List Char} {r : Re} (hp : '(' ∉ v) (h : parse v = .ok r) : r.groups = [] := by
  unfold parse at h
  split at h
  · cases h
  · rename_i ts hl
    split at h
    · cases h
    · rename_i r' hb
      split at h
      · cases h
        exact build_closed ts .start _ (lex_closed hp hl) ⟨by simp [Frame.start], by simp [Frame.start]⟩ hb
      · cases h

end CE.Regex
