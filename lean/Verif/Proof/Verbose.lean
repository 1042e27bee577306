import Verif.Model.Verbose
import Verif.Spec.Verbose
import Verif.Prop.Flags

/-!
# The parser with the flag `x`
-/

namespace CE.Verbose
open Spec Regex

/-! ## Lengths -/

theorem skipBlank_length : ∀ (cs : List Char) (b : Bool), (skipBlank b cs).length ≤ cs.length
  | [], _ => by simp [skipBlank]
  | c :: r, b => by
    have h1 := skipBlank_length r
    unfold skipBlank
    split
    · exact Nat.le_trans (h1 _) (by simp)
    · split
      · exact Nat.le_trans (h1 _) (by simp)
      · split
        · exact Nat.le_trans (h1 _) (by simp)
        · exact Nat.le_refl _

theorem skip_length (x : Bool) (cs : List Char) : (skip x cs).length ≤ cs.length := by
  unfold skip
  split
  · exact skipBlank_length cs false
  · exact Nat.le_refl _

theorem flagsTok_cases {r q : List Char} {t : RTok} (h : flagsTok r = .ok (t, q)) :
    ∃ l colon, readFlags [] false false r = .ok (l, colon, q) := by
  unfold flagsTok at h
  split at h
  · cases h
  · next l colon q' hr =>
    split at h
    · cases h
    · split at h
      · cases h; exact ⟨l, colon, hr⟩
      · cases h

theorem one_length {x : Bool} {c : Char} {r q : List Char} {t : RTok} (h : one x c r = .ok (t, q)) : q.length ≤ r.length := by
  unfold one at h
  split at h
  · obtain ⟨l, colon, hr⟩ := flagsTok_cases h
    have := (readFlags_tail hr).length_le
    simp only [List.length_drop] at this
    omega
  · split at h
    · cases h
    · next u q' hu =>
      split at h
      · cases h
      · cases h; exact lexOne_length hu

theorem lexF_nil (n : Nat) {x : Bool} (st : List Bool) {cs : List Char} (h : skip x cs = []) : lexF n x st cs = .ok [] := by
  cases n <;> simp [lexF, h]

theorem lexF_enough : ∀ (n m : Nat) (x : Bool) (st : List Bool) (cs : List Char), (skip x cs).length ≤ n → (skip x cs).length ≤ m →
    lexF n x st cs = lexF m x st cs
  | n, m, x, st, cs, h, h' => by
    cases hs : skip x cs with
    | nil => rw [lexF_nil n st hs, lexF_nil m st hs]
    | cons c r =>
      rw [hs] at h h'
      cases n with
      | zero => simp at h
      | succ n =>
        cases m with
        | zero => simp at h'
        | succ m =>
          simp only [List.length_cons] at h h'
          simp only [lexF, hs]
          cases h1 : one x c r with
          | error e => rfl
          | ok q =>
            have h2 := one_length h1
            have h3 := skip_length (after x st q.1).1 q.2
            simp only []
            rw [lexF_enough n m _ _ q.2 (by omega) (by omega)]

/-- All tokens, with the flag at the beginning and at the ends of the enclosing groups. -/
def run (x : Bool) (st : List Bool) (cs : List Char) : Except RErr (List RTok) := lexF cs.length x st cs

theorem run_nil {x : Bool} {st : List Bool} {cs : List Char} (h : skip x cs = []) : run x st cs = .ok [] := lexF_nil _ st h

theorem run_cons {x : Bool} {st : List Bool} {c : Char} {cs r q : List Char} {t : RTok} (hs : skip x cs = c :: r)
    (h : one x c r = .ok (t, q)) : run x st cs = putRaw [t] (run (after x st t).1 (after x st t).2 q) := by
  have h1 := skip_length x cs
  have h2 := one_length h
  rw [hs, List.length_cons] at h1
  unfold run
  have h3 := skip_length (after x st t).1 q
  cases hn : cs.length with
  | zero => omega
  | succ n =>
    simp only [lexF, hs, h]
    rw [lexF_enough n q.length _ _ q (by omega) h3]
    cases lexF q.length (after x st t).1 (after x st t).2 q <;> rfl

theorem run_skip {x : Bool} {st : List Bool} {cs ds : List Char} (h : skip x cs = skip x ds) : run x st cs = run x st ds := by
  have h1 := skip_length x cs
  have h2 := skip_length x ds
  unfold run
  rw [lexF_enough cs.length (cs.length + ds.length) x st cs h1 (by omega),
    lexF_enough ds.length (cs.length + ds.length) x st ds h2 (by omega)]
  cases cs.length + ds.length <;> simp only [lexF, h]

theorem lex_eq (cs : List Char) : lex cs = match run false [] cs with
    | .error e => .error e
    | .ok ts => resolve {} [] ts := rfl

/-! ## Without the flag -/

/-- The flag is nowhere set. -/
def Off (st : List Bool) : Prop := ∀ b ∈ st, b = false

theorem setting_known {l : List (Flag × Bool)} (h : l.all Flag.known = true) (x : Bool) : setting x l = x := by
  unfold setting
  rw [show l.find? (·.1 == .x) = none from ?_]
  rw [List.find?_eq_none]
  rintro ⟨f, b⟩ hf hx
  have := List.all_eq_true.1 h _ hf
  cases f <;> simp_all [Flag.known]

theorem one_off {c : Char} {r q : List Char} {t : RTok} (h : rawOne c r = .ok (t, q)) : one false c r = .ok (t, q) := by
  rcases rawOne_cases h with ⟨q', rfl, rfl, hf, hq⟩ | ⟨hf, u, hu, rfl⟩
  · obtain ⟨l, colon, hr, he, hk, rfl⟩ := Regex.flagsTok_cases hq
    unfold one
    rw [if_pos hf]
    have hk' : l.all known = true := by
      rw [List.all_eq_true] at hk ⊢
      intro p hp
      simp [known, hk p hp]
    simp only [List.drop_succ_cons, List.drop_zero, flagsTok, hr, he, hk', if_true, Bool.false_eq_true, if_false]
  · simp [one, hf, hu]

theorem after_off {c : Char} {r q : List Char} {t : RTok} (h : rawOne c r = .ok (t, q)) {st : List Bool} (hs : Off st) :
    (after false st t).1 = false ∧ Off (after false st t).2 := by
  rcases rawOne_cases h with ⟨q', rfl, rfl, hf, hq⟩ | ⟨hf, u, hu, rfl⟩
  · obtain ⟨l, colon, hr, he, hk, rfl⟩ := Regex.flagsTok_cases hq
    have hs' : Off (false :: st) := by simpa [Off] using hs
    cases colon <;> simp [after, setting_known hk, hs, hs']
  · have hc : Off (false :: st) := by simpa [Off] using hs
    have hd : st.headD false = false := by
      cases st with
      | nil => rfl
      | cons b st => exact hs b (by simp)
    have ht : Off st.tail := fun b hb => hs b (List.mem_of_mem_tail hb)
    cases u <;> first
      | exact ⟨rfl, hc⟩
      | exact ⟨rfl, hs⟩
      | exact ⟨hd, ht⟩

/-- Without the flag, it is the parser of `Model/Regex`. -/
theorem run_off (s : List Char) (hs : s.head? ≠ some '?') : ∀ (n : Nat) (cs : List Char) (ts : List RTok), cs.length ≤ n →
    lexRaw cs = .ok ts → ∀ st, Off st → ∃ st', Off st' ∧ run false st (cs ++ s) = putRaw ts (run false st' s) := by
  intro n
  induction n with
  | zero =>
    intro cs ts hn h st ho
    cases cs with
    | nil => cases h; exact ⟨st, ho, by simp only [List.nil_append]; cases run false st s <;> rfl⟩
    | cons c r => simp at hn
  | succ n ih =>
    intro cs ts hn h st ho
    cases cs with
    | nil => cases h; exact ⟨st, ho, by simp only [List.nil_append]; cases run false st s <;> rfl⟩
    | cons c r =>
      cases h1 : rawOne c r with
      | error e => simp [lexRaw, Regex.lexF, h1] at h
      | ok p =>
        obtain ⟨t, q⟩ := p
        rw [lexRaw_cons h1] at h
        cases h2 : lexRaw q with
        | error e => rw [h2] at h; cases h
        | ok us =>
          rw [h2] at h
          cases h
          have hl := rawOne_length h1
          simp only [List.length_cons] at hn
          obtain ⟨h3, h4⟩ := after_off h1 ho
          obtain ⟨st', h5, h6⟩ := ih q us (by omega) h2 _ h4
          refine ⟨st', h5, ?_⟩
          rw [List.cons_append, run_cons (x := false) (c := c) (r := r ++ s) (t := t) (q := q ++ s) rfl (one_off (rawOne_append h1 s hs)), h3, h6, putRaw_putRaw]

theorem lex_off {cs : List Char} {ts : List Tok} (h : Regex.lex cs = .ok ts) : lex cs = .ok ts := by
  unfold Regex.lex at h
  cases hr : Regex.lexF cs.length cs with
  | error e => rw [hr] at h; cases h
  | ok us =>
    rw [hr] at h
    obtain ⟨st', _, h2⟩ := run_off [] (by simp) cs.length cs us (Nat.le_refl _) hr [] (by simp [Off])
    rw [List.append_nil] at h2
    rw [lex_eq, h2, run_nil (cs := []) rfl]
    simpa [putRaw] using h

theorem flagsTok_invalid {r : List Char} (h : Regex.flagsTok r = .error .invalid) : flagsTok r = .error .invalid := by
  unfold Regex.flagsTok at h
  unfold flagsTok
  cases hr : readFlags [] false false r with
  | error e => rw [hr] at h; exact h
  | ok p =>
    obtain ⟨l, colon, q⟩ := p
    rw [hr] at h
    simp only at h ⊢
    split at h
    · next he => rw [if_pos he]
    · split at h <;> cases h

theorem one_invalid {c : Char} {r : List Char} (h : rawOne c r = .error .invalid) : one false c r = .error .invalid := by
  unfold rawOne at h
  unfold one
  split at h
  · next hf => rw [if_pos hf]; exact flagsTok_invalid h
  · next hf =>
    rw [if_neg hf]
    cases hl : lexOne c r with
    | error e => rw [hl] at h; cases h; rfl
    | ok p => rw [hl] at h; cases h

/-- What is invalid without the flag is so here. -/
theorem run_invalid : ∀ (n : Nat) (cs : List Char), cs.length ≤ n → lexRaw cs = .error .invalid → ∀ st, Off st →
    run false st cs = .error .invalid := by
  intro n
  induction n with
  | zero =>
    intro cs hn h
    cases cs with
    | nil => cases h
    | cons c r => simp at hn
  | succ n ih =>
    intro cs hn h st ho
    cases cs with
    | nil => cases h
    | cons c r =>
      cases h1 : rawOne c r with
      | error e =>
        simp only [lexRaw, List.length_cons, Regex.lexF, h1] at h
        cases h
        simp [run, lexF, skip, one_invalid h1]
      | ok p =>
        obtain ⟨t, q⟩ := p
        rw [lexRaw_cons h1] at h
        have hl := rawOne_length h1
        simp only [List.length_cons] at hn
        obtain ⟨h3, h4⟩ := after_off h1 ho
        have h2 : lexRaw q = .error .invalid := by
          cases h2 : lexRaw q with
          | error e => rw [h2] at h; exact h
          | ok us => rw [h2] at h; cases h
        rw [run_cons (x := false) (c := c) (r := r) (t := t) (q := q) rfl (one_off h1), h3, ih q (by omega) h2 _ h4]
        rfl

theorem lex_invalid {cs : List Char} (h : Regex.lex cs = .error .invalid) : lex cs = .error .invalid := by
  unfold Regex.lex at h
  cases hr : Regex.lexF cs.length cs with
  | error e =>
    rw [hr] at h
    cases h
    rw [lex_eq, run_invalid cs.length cs (Nat.le_refl _) hr [] (by simp [Off])]
  | ok us =>
    rw [hr] at h
    obtain ⟨st', _, h2⟩ := run_off [] (by simp) cs.length cs us (Nat.le_refl _) hr [] (by simp [Off])
    rw [List.append_nil] at h2
    rw [lex_eq, h2, run_nil (cs := []) rfl]
    simpa [putRaw] using h

theorem parse_invalid {v : List Char} (h : Regex.parse v = .error .invalid) : parse v = .error .invalid := by
  unfold Regex.parse at h
  unfold parse
  cases hl : Regex.lex v with
  | error e => rw [hl] at h; cases h; rw [lex_invalid hl]
  | ok ts => rw [hl] at h; rw [lex_off hl]; exact h

theorem ast_invalid {v : List Char} (h : Ast.parse v = .error .invalid) : ast v = .error .invalid := by
  unfold Ast.parse at h
  unfold ast
  cases hl : Regex.lex v with
  | error e => rw [hl] at h; cases h; rw [lex_invalid hl]
  | ok ts => rw [hl] at h; rw [lex_off hl]; exact h

theorem parse_off {v : List Char} {r : Re} (h : Regex.parse v = .ok r) : parse v = .ok r := by
  unfold Regex.parse at h
  cases hl : Regex.lex v with
  | error e => rw [hl] at h; cases h
  | ok ts =>
    rw [hl] at h
    unfold parse
    rw [lex_off hl]
    exact h

theorem ast_off {v : List Char} {a : Ast} (h : Ast.parse v = .ok a) : ast v = .ok a := by
  unfold Ast.parse at h
  cases hl : Regex.lex v with
  | error e => rw [hl] at h; cases h
  | ok ts =>
    rw [hl] at h
    unfold ast
    rw [lex_off hl]
    exact h

theorem hirOf_off {T : Tables} {v : List Char} {h : Hir} (hh : CE.hirOf T v = some h) : hirOf T v = some h := by
  unfold CE.hirOf at hh
  cases ha : Ast.parse v with
  | error e => rw [ha] at hh; cases hh
  | ok a =>
    rw [ha] at hh
    rw [hirOf, ast_off ha]
    exact hh

/-! ## With the flag -/

theorem blank_iff (c : Char) : isBlank c = true ↔ White c := by
  simp only [isBlank, White, Bool.or_eq_true, Bool.and_eq_true, decide_eq_true_eq, List.contains_eq_mem, List.mem_cons, List.not_mem_nil,
    or_false]
  omega

theorem skip_white {c : Char} (h : White c) (r : List Char) : skip true (c :: r) = skip true r := by
  simp [skip, skipBlank, (blank_iff c).2 h]

theorem skip_comment : ∀ {w : List Char}, '\n' ∉ w → ∀ r, skipBlank true (w ++ '\n' :: r) = skipBlank false r
  | [], _, r => by simp [skipBlank]
  | c :: w, h, r => by
    simp only [List.mem_cons, not_or] at h
    rw [List.cons_append, skipBlank]
    simp only [if_true]
    rw [show (decide (c ≠ '\n')) = true by simp [Ne.symm h.1]]
    exact skip_comment h.2 r

theorem skip_last : ∀ {w : List Char}, '\n' ∉ w → skipBlank true w = []
  | [], _ => rfl
  | c :: w, h => by
    simp only [List.mem_cons, not_or] at h
    rw [skipBlank]
    simp only [if_true]
    rw [show (decide (c ≠ '\n')) = true by simp [Ne.symm h.1]]
    exact skip_last h.2

theorem skip_hash (r : List Char) : skip true ('#' :: r) = skipBlank true r := by
  simp [skip, skipBlank, show isBlank '#' = false from by decide]

theorem one_lit {c : Char} (h : c ∉ ['\\', '.', '+', '*', '?', '(', ')', '|', '[', ']', '{', '}', '^', '$']) (x : Bool) (r : List Char) :
    one x c r = .ok (.tok c (.lit c), r) := by
  have hf : atFlags c r = false := by
    unfold atFlags
    split
    · simp at h
    · rfl
  simp [one, hf, lexOne_plain h, astray]

/-- What such a regex says is read. -/
theorem run_says {b t : List Char} {k : Bool} (h : Says b t k) (st : List Bool) (s : List Char) :
    (k = true → run true st (b ++ s) = putRaw (t.map fun c => .tok c (.lit c)) (run true st s)) ∧
    (k = false → '\n' ∉ s → run true st (b ++ s) = .ok (t.map fun c => .tok c (.lit c))) := by
  induction h with
  | nil => exact ⟨fun _ => by simp only [List.nil_append]; cases run true st s <;> rfl, fun h => absurd h (by decide)⟩
  | white hc _ ih =>
    rw [List.cons_append, run_skip (skip_white hc _)]
    exact ih
  | @char c b t k hc hh hm _ ih =>
    have hb : isBlank c = false := by
      cases hb : isBlank c with
      | false => rfl
      | true => exact absurd ((blank_iff c).1 hb) hc
    have hs : skip true (c :: b ++ s) = c :: (b ++ s) := by simp [skip, skipBlank, hb, hh]
    rw [run_cons hs (one_lit hm true _)]
    simp only [after]
    refine ⟨fun hk => ?_, fun hk hn => ?_⟩
    · rw [ih.1 hk, putRaw_putRaw]; rfl
    · rw [ih.2 hk hn]; rfl
  | @comment w b t k hw _ ih =>
    have : skip true ('#' :: w ++ '\n' :: b ++ s) = skip true (b ++ s) := by
      simp only [List.cons_append, List.append_assoc]
      rw [skip_hash, skip_comment hw]
      rfl
    rw [run_skip this]
    exact ih
  | @last w hw =>
    refine ⟨fun h => absurd h (by decide), fun _ hn => ?_⟩
    have : skip true ('#' :: w ++ s) = [] := by
      rw [List.cons_append, skip_hash, skip_last (by simp [hw, hn])]
    exact run_nil this

theorem says_unmarked {b t : List Char} {k : Bool} (h : Says b t k) : Unmarked t := by
  induction h with
  | nil => simp [Unmarked]
  | white _ _ ih => exact ih
  | char _ _ hm _ ih =>
    intro d hd
    rcases List.mem_cons.1 hd with rfl | hd
    · exact hm
    · exact ih d hd
  | comment _ _ ih => exact ih
  | last _ => simp [Unmarked]

theorem run_flag (x : Bool) (st : List Bool) (b : List Char) (hx : x = false) :
    run x st (verbose b) = putRaw [.flags [(.x, true)]] (run true st b) := by
  subst hx
  exact run_cons (c := '(') (r := '?' :: 'x' :: ')' :: b) rfl rfl

/-! ## Tokens after the other flags are applied -/

theorem set_x (f : Flags) : f.set [(.x, true)] = f := rfl

theorem resolve_congr {as bs : List RTok} (h : ∀ f fs, resolve f fs as = resolve f fs bs) (hr : repeats as = repeats bs) :
    ∀ (ts : List RTok) (f : Flags) (fs : List Flags), resolve f fs (ts ++ as) = resolve f fs (ts ++ bs)
  | [], f, fs => h f fs
  | .flags l :: ts, f, fs => by
    have : repeats (ts ++ as) = repeats (ts ++ bs) := by
      cases ts with
      | nil => exact hr
      | cons t ts => cases t <;> first | rfl | (rename_i u; cases u <;> rfl)
    simp only [List.cons_append, resolve, this, resolve_congr h hr ts]
  | .scope l :: ts, f, fs => by simp only [List.cons_append, resolve, resolve_congr h hr ts]
  | .tok c t :: ts, f, fs => by simp only [List.cons_append, resolve_tok, resolve_congr h hr ts]

/-- The flag leaves nothing but an empty group. -/
theorem resolve_flag {ts : List RTok} (h : repeats ts = false) (f : Flags) (fs : List Flags) :
    resolve f fs (.flags [(.x, true)] :: ts) = resolve f fs (.tok '(' .group :: .tok ')' .close :: ts) := by
  simp only [resolve, h, RTok.step, set_x, List.headD_cons, List.tail_cons, Bool.false_eq_true, if_false, prep_prep]
  rfl

/-- Groups opened less groups closed. -/
def weight : RTok → Int
  | .tok _ (.capture _) => 1
  | .tok _ .group => 1
  | .tok _ .close => -1
  | .tok _ _ => 0
  | .flags _ => 0
  | .scope _ => 1

def weights (ts : List RTok) : Int := (ts.map weight).sum

theorem weights_append (ts us : List RTok) : weights (ts ++ us) = weights ts + weights us := by simp [weights]

def net : List Tok → Int
  | [] => 0
  | .capture _ :: ts => 1 + net ts
  | .group :: ts => 1 + net ts
  | .close :: ts => -1 + net ts
  | _ :: ts => net ts

theorem under_net (f : Flags) (c : Char) (t : Tok) (ts : List Tok) (h : t ≠ .group ∧ t ≠ .close ∧ ∀ n, t ≠ .capture n) :
    net (t.under f c :: ts) = net ts := by
  have : ∀ u : Tok, (u ≠ .group ∧ u ≠ .close ∧ ∀ n, u ≠ .capture n) → net (u :: ts) = net ts := by
    intro u hu
    cases u <;> simp_all [net]
  refine this _ ?_
  cases t <;> first
    | exact h
    | (simp only [Tok.under]; split <;> first | (simp; done) | (split <;> simp))

theorem net_resolve : ∀ (ts : List RTok) (f : Flags) (fs : List Flags) (us : List Tok), resolve f fs ts = .ok us → net us = weights ts
  | [], f, fs, us, h => by cases h; rfl
  | .flags l :: ts, f, fs, us, h => by
    simp only [resolve] at h
    split at h
    · cases h
    · obtain ⟨ws, hw, rfl⟩ := prep_eq_ok h
      have := net_resolve ts _ _ ws hw
      simp only [List.cons_append, List.nil_append, net, weights, List.map_cons, List.sum_cons, weight] at this ⊢
      omega
  | .scope l :: ts, f, fs, us, h => by
    simp only [resolve, RTok.step] at h
    obtain ⟨ws, hw, rfl⟩ := prep_eq_ok h
    have := net_resolve ts _ _ ws hw
    simp only [List.cons_append, List.nil_append, net, weights, List.map_cons, List.sum_cons, weight] at this ⊢
    omega
  | .tok c t :: ts, f, fs, us, h => by
    rw [resolve_tok] at h
    obtain ⟨ws, hw, rfl⟩ := prep_eq_ok h
    have := net_resolve ts _ _ ws hw
    by_cases ht : t ≠ .group ∧ t ≠ .close ∧ ∀ n, t ≠ .capture n
    · have h1 : ((RTok.tok c t).step f fs).1 = [t.under f c] := by
        cases t <;> first | rfl | simp at ht
      have h2 : weight (.tok c t) = 0 := by
        cases t <;> first | rfl | simp at ht
      rw [h1, List.cons_append, List.nil_append, under_net f c t ws ht, this]
      simp [weights, h2]
    · cases t <;> first
        | (exfalso; apply ht; simp; done)
        | (simp only [RTok.step, List.cons_append, List.nil_append, net, weights, List.map_cons, List.sum_cons, weight] at this ⊢; omega)

theorem net_depth : ∀ (ts : List Tok) (n m : Nat), depth n ts = some m → (m : Int) = n + net ts
  | [], n, m, h => by simp [depth] at h; simp [net, h]
  | t :: ts, n, m, h => by
    cases t with
    | capture x => have := net_depth ts _ _ (show depth (n + 1) ts = some m from h); simp only [net]; omega
    | group => have := net_depth ts _ _ (show depth (n + 1) ts = some m from h); simp only [net]; omega
    | close =>
      cases n with
      | zero => simp [depth] at h
      | succ n => have := net_depth ts _ _ (show depth n ts = some m from h); simp only [net]; omega
    | _ =>
      have : depth n ts = some m := by cases n <;> exact h
      exact net_depth ts _ _ this

theorem net_build {ts : List Tok} {r : Re} (h : build [] .start ts = .ok r) : net ts = 0 := by
  have := net_depth ts 0 0 (depth_build h)
  simpa using this.symm

/-! ## Expansions -/

/-- The outcome of `Regex::new` for an expansion. -/
def compileRes : Except ParameterError (List Char) → Outcome ExpandError Compiled
  | .error x => .err (.expansion x)
  | .ok cs => match parse (['^'] ++ cs ++ ['$']) with
    | .error x => .err (.regex x)
    | .ok r => .ok ⟨['^'] ++ cs ++ ['$'], r⟩

theorem regexWith_eq {T : Tables} {pars : Provider} {src : List Char} {e : Expression} (h : Expression.parse src = .ok e) :
    regexWithParameters T pars src = compileRes (seqPat (customRes (hirOf T) pars) e) := by
  simp only [regexWithParameters, h, WithCustom.chars]
  rw [show WithCustom.singleChars (hirOf T) pars = charsWith (WithCustom.parameterChars (hirOf T) pars) from
    funext (singleChars_eq_charsWith (hirOf T) pars)]
  obtain ⟨l, h1, h2⟩ := collect_chars (custom_res (hirOf T) pars) e
  rw [h1]
  simp only [Option.map_some, compile]
  rw [collectResult_append, collectResult_append, h2]
  cases seqPat (customRes (hirOf T) pars) e with
  | error x => rfl
  | ok cs => rfl

theorem customRes_off {T : Tables} {pars : Provider} {p : Parameter} {q : List Char} (h : customRes (CE.hirOf T) pars p = .ok q) :
    customRes (hirOf T) pars p = .ok q := by
  unfold customRes at h ⊢
  split
  · next hv => rw [hv] at h; exact h
  · next v hv =>
    rw [hv] at h
    simp only [valueRes] at h ⊢
    split
    · next hp =>
      rw [if_pos hp] at h
      cases hh : CE.hirOf T v with
      | none => rw [hh] at h; cases h
      | some x => rw [hh] at h; rw [hirOf_off hh]; exact h
    · next hp => rw [if_neg hp] at h; exact h

end CE.Verbose
