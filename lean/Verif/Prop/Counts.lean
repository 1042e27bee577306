import Verif.Prop.Single
import Verif.Proof.Verbose
import Verif.Spec.Counts

/-! # Counted repetitions in custom regexes: C76, C36 -/

namespace CE
open Spec Regex

/-! ## Numbers -/

theorem digit_iff (c : Char) : c.isDigit = true ↔ '0' ≤ c ∧ c ≤ '9' := by
  simp only [Char.isDigit, Bool.and_eq_true, decide_eq_true_eq, ge_iff_le]
  exact Iff.rfl

theorem digit_not_blank {c : Char} (h : c.isDigit = true) : isBlank c = false := by
  simp only [Char.isDigit, Bool.and_eq_true, decide_eq_true_eq, ge_iff_le, UInt32.le_iff_toNat_le] at h
  have h3 : 48 ≤ c.toNat := h.1
  have h4 : c.toNat ≤ 57 := h.2
  simp only [isBlank, Bool.or_eq_false_iff, Bool.and_eq_false_iff, decide_eq_false_iff_not, List.contains_eq_mem, List.mem_cons,
    List.not_mem_nil, or_false]
  omega

theorem dropBlank_whites {a : List Char} (h : Whites a) (r : List Char) : (a ++ r).dropWhile isBlank = r.dropWhile isBlank := by
  induction a with
  | nil => rfl
  | cons c a ih =>
    rw [List.cons_append, List.dropWhile_cons, if_pos ((Verbose.blank_iff c).2 (h c (by simp)))]
    exact ih fun x hx => h x (by simp [hx])

theorem dropBlank_stop {c : Char} (h : isBlank c = false) (r : List Char) : (c :: r).dropWhile isBlank = c :: r := by
  simp [h]

theorem decDigits_digits {d : List Char} (h : ∀ c ∈ d, '0' ≤ c ∧ c ≤ '9') {r : List Char} (hr : r.head?.all (fun c => !c.isDigit) = true) :
    decDigits (d ++ r) = (d, r) := by
  induction d with
  | nil =>
    cases r with
    | nil => rfl
    | cons c r => simp only [List.nil_append, decDigits]; simp at hr; simp [hr]
  | cons c d ih =>
    rw [List.cons_append, decDigits, if_pos ((digit_iff c).2 (h c (by simp))), ih fun x hx => h x (by simp [hx])]

theorem numeral_spaced {a d b : List Char} (ha : Whites a) (hd : Numerals d) (hb : Whites b) {c : Char} (hc : c.isDigit = false)
    (hw : isBlank c = false) (r : List Char) : numeral (a ++ d ++ b ++ c :: r) = (d, c :: r) := by
  unfold numeral
  have e : a ++ d ++ b ++ c :: r = a ++ (d ++ (b ++ c :: r)) := by simp
  rw [e, dropBlank_whites ha]
  have h1 : (d ++ (b ++ c :: r)).dropWhile isBlank = d ++ (b ++ c :: r) := by
    obtain ⟨hne, hd⟩ := hd
    cases d with
    | nil => exact absurd rfl hne
    | cons x d => exact dropBlank_stop (digit_not_blank ((digit_iff x).2 (hd x (by simp)))) _
  have h2 : (b ++ c :: r).head?.all (fun c => !c.isDigit) = true := by
    cases b with
    | nil => simp [hc]
    | cons x b =>
      have : isBlank x = true := (Verbose.blank_iff x).2 (hb x (by simp))
      cases hx : x.isDigit with
      | false => simp [hx]
      | true => rw [digit_not_blank hx] at this; cases this
  rw [h1, decDigits_digits hd.2 h2]
  simp only
  rw [dropBlank_whites hb, dropBlank_stop hw]

theorem decDigits_split : ∀ cs : List Char, cs = (decDigits cs).1 ++ (decDigits cs).2 ∧ ∀ c ∈ (decDigits cs).1, '0' ≤ c ∧ c ≤ '9'
  | [] => ⟨rfl, fun c hc => by cases hc⟩
  | c :: r => by
    obtain ⟨h1, h2⟩ := decDigits_split r
    unfold decDigits
    split
    · rename_i hc
      refine ⟨by simp only [List.cons_append]; rw [← h1], fun x hx => ?_⟩
      rcases List.mem_cons.1 hx with rfl | hx
      · exact (digit_iff _).1 hc
      · exact h2 x hx
    · exact ⟨rfl, fun c hc => by cases hc⟩

theorem numeral_split (cs : List Char) : ∃ a b, Whites a ∧ Whites b ∧ cs = a ++ (numeral cs).1 ++ b ++ (numeral cs).2 ∧
    ∀ c ∈ (numeral cs).1, '0' ≤ c ∧ c ≤ '9' := by
  have blanks : ∀ l : List Char, Whites (l.takeWhile isBlank) := fun l c hc =>
    (Verbose.blank_iff c).1 (List.all_eq_true.1 (List.all_takeWhile (p := isBlank) (l := l)) c hc)
  obtain ⟨h1, h2⟩ := decDigits_split (cs.dropWhile isBlank)
  refine ⟨_, _, blanks cs, blanks (decDigits (cs.dropWhile isBlank)).2, ?_, h2⟩
  have h3 := List.takeWhile_append_dropWhile (p := isBlank) (l := cs)
  have h4 := List.takeWhile_append_dropWhile (p := isBlank) (l := (decDigits (cs.dropWhile isBlank)).2)
  show cs = cs.takeWhile isBlank ++ (decDigits (cs.dropWhile isBlank)).1 ++ (decDigits (cs.dropWhile isBlank)).2.takeWhile isBlank ++
    (decDigits (cs.dropWhile isBlank)).2.dropWhile isBlank
  rw [List.append_assoc _ _ (List.dropWhile _ _), h4, List.append_assoc, ← h1, h3]

/-! ## Counts -/

/-- The token of a count depends on the digits only. -/
theorem countTok_text {s t : List Char} (h : CountText s t) : ∃ k, ∀ w, countTok (s ++ '}' :: w) = .ok (k, w) ∧ countTok (t ++ '}' :: w) = .ok (k, w) := by
  have bare : Whites [] := fun c hc => by cases hc
  have one : ∀ {a d b : List Char}, Whites a → Numerals d → Whites b → ∀ w, countTok (a ++ d ++ b ++ '}' :: w) = .ok (.count (decVal d) (some (decVal d)), w) := by
    intro a d b ha hd hb w
    unfold countTok
    rw [numeral_spaced ha hd hb (by decide) (by decide)]
    cases d with
    | nil => exact absurd rfl hd.1
    | cons x d => rfl
  have many : ∀ {a d b : List Char}, Whites a → Numerals d → Whites b → ∀ w, countTok (a ++ d ++ b ++ ',' :: '}' :: w) = .ok (.count (decVal d) none, w) := by
    intro a d b ha hd hb w
    unfold countTok
    rw [numeral_spaced ha hd hb (by decide) (by decide)]
    cases d with
    | nil => exact absurd rfl hd.1
    | cons x d => rfl
  have two : ∀ {a d b a' d' b' : List Char}, Whites a → Numerals d → Whites b → Whites a' → Numerals d' → Whites b' → numberOf d ≤ numberOf d' →
      ∀ w, countTok (a ++ d ++ b ++ ',' :: (a' ++ d' ++ b' ++ '}' :: w)) = .ok (.count (decVal d) (some (decVal d')), w) := by
    intro a d b a' d' b' ha hd hb ha' hd' hb' hle w
    unfold countTok
    rw [numeral_spaced ha hd hb (by decide) (by decide)]
    have h1 := numeral_spaced ha' hd' hb' (c := '}') (by decide) (by decide) w
    have hne : (a' ++ d' ++ b' ++ '}' :: w).head? ≠ some '}' := by
      cases a' with
      | cons x a' =>
        have hx := ha' x (by simp)
        simp only [List.cons_append, List.head?_cons]
        intro h0
        cases h0
        exact absurd hx (by decide)
      | nil =>
        obtain ⟨hne, hd'⟩ := hd'
        cases d' with
        | nil => exact absurd rfl hne
        | cons x d' =>
          have hx := hd' x (by simp)
          simp only [List.nil_append, List.cons_append, List.head?_cons]
          intro h0
          cases h0
          exact absurd hx (by decide)
    generalize a' ++ d' ++ b' ++ '}' :: w = z at h1 hne
    cases d with
    | nil => exact absurd rfl hd.1
    | cons x d =>
      split <;> rename_i h0 <;> first | (cases h0; done) | skip
      · cases h0; exact absurd rfl hne
      · cases h0
        rw [h1]
        cases d' with
        | nil => exact absurd rfl hd'.1
        | cons y d' => exact if_pos hle
      all_goals exact absurd rfl (h0 _ _)
  cases h with
  | exactly a d b ha hd hb => exact ⟨_, fun w => ⟨one ha hd hb w, by simpa using one bare hd bare w⟩⟩
  | atLeast a d b ha hd hb => exact ⟨_, fun w => ⟨by simpa using many ha hd hb w, by simpa using many bare hd bare w⟩⟩
  | between a d b a' d' b' ha hd hb ha' hd' hb' hle =>
    exact ⟨_, fun w => ⟨by simpa using two ha hd hb ha' hd' hb' hle w, by simpa using two bare hd bare bare hd' bare hle w⟩⟩

theorem countTok_begins {u : List Char} {x : Tok × List Char} (h : countTok u = .ok x) : BeginsCount u := by
  obtain ⟨a, b, ha, hb, e, hd⟩ := numeral_split u
  unfold countTok at h
  generalize numeral u = y at h e hd
  obtain ⟨d, q⟩ := y
  simp only at e hd
  split at h
  · cases h
  · rename_i h1 h0
    cases h0
    exact ⟨_, _, _, .exactly a _ b ha ⟨h1, hd⟩ hb, e⟩
  · rename_i h1 h0
    cases h0
    exact ⟨_, _, _, .atLeast a _ b ha ⟨h1, hd⟩ hb, by rw [e]; simp; rfl⟩
  · rename_i r h1 _ h0
    cases h0
    obtain ⟨a', b', ha', hb', e', hd'⟩ := numeral_split r
    generalize numeral r = y at h e' hd'
    obtain ⟨d', q'⟩ := y
    simp only at e' hd'
    split at h
    · cases h
    · rename_i h2 h0
      cases h0
      split at h
      · rename_i hle
        exact ⟨_, _, _, .between a _ b a' _ b' ha ⟨h1, hd⟩ hb ha' ⟨h2, hd'⟩ hb' hle, by rw [e, e']; simp; rfl⟩
      · cases h
    · cases h
  · cases h

theorem countTok_error {u : List Char} (h : ¬ BeginsCount u) : countTok u = .error .invalid := by
  cases hc : countTok u with
  | ok x => exact absurd (countTok_begins hc) h
  | error x =>
    unfold countTok at hc
    repeat first | (cases hc; rfl) | split at hc | cases hc

theorem begins_cut {u z : List Char} (h : BeginsCount (u ++ ')' :: z)) : BeginsCount u := by
  obtain ⟨s, t, w, hs, e⟩ := h
  obtain ⟨k, hk⟩ := countTok_text hs
  have h1 : countTok (u ++ ')' :: z) = .ok (k, w) := by rw [e]; exact (hk w).1
  obtain ⟨t', a', h2⟩ := countTok_cut h1
  exact countTok_begins h2

/-! ## C76 -/

theorem rawOne_brace (u : List Char) : rawOne '{' u = match countTok u with
    | .error e => .error e
    | .ok (t, r) => .ok (.tok '{' t, r) := rfl

theorem lexF_valid {v : List Char} {r : Re} (hv : Regex.parse v = .ok r) : ∃ ts, lexF v.length v = .ok ts := by
  unfold Regex.parse lex at hv
  cases h : lexF v.length v with
  | ok ts => exact ⟨ts, rfl⟩
  | error e => rw [h] at hv; cases hv

theorem lexF_count {s t : List Char} (h : CountText s t) (w : List Char) :
    lexF ('{' :: (s ++ '}' :: w)).length ('{' :: (s ++ '}' :: w)) = lexF ('{' :: (t ++ '}' :: w)).length ('{' :: (t ++ '}' :: w)) := by
  obtain ⟨k, hk⟩ := countTok_text h
  simp only [List.length_cons, lexF, rawOne_brace, (hk w).1, (hk w).2]
  rw [lexF_enough (s ++ '}' :: w).length w.length w (by simp; omega) (Nat.le_refl _),
    lexF_enough (t ++ '}' :: w).length w.length w (by simp; omega) (Nat.le_refl _)]

/-- C76: after anything valid, a count with spaces around its numbers is the count without the spaces, whatever follows. -/
theorem C76_spaces (v : List Char) (r : Re) (hv : Regex.parse v = .ok r) (s t : List Char) (h : CountText s t) (w : List Char) :
    Regex.parse (v ++ '{' :: (s ++ '}' :: w)) = Regex.parse (v ++ '{' :: (t ++ '}' :: w)) ∧
      ∀ T, hirOf T (v ++ '{' :: (s ++ '}' :: w)) = hirOf T (v ++ '{' :: (t ++ '}' :: w)) := by
  obtain ⟨ts, hl⟩ := lexF_valid hv
  have : lex (v ++ '{' :: (s ++ '}' :: w)) = lex (v ++ '{' :: (t ++ '}' :: w)) := by
    unfold lex
    rw [lexF_append _ (by simp) _ v ts (Nat.le_refl _) hl, lexF_append _ (by simp) _ v ts (Nat.le_refl _) hl, lexF_count h w]
  constructor
  · unfold Regex.parse; rw [this]
  · intro T
    unfold hirOf Ast.parse
    rw [this]

/-- Non-vacuity. -/
example : CountText (chars! " 2 , 13 ") (chars! "2,13") :=
  .between [' '] ['2'] [' '] [' '] ['1', '3'] [' '] (by decide) ⟨by decide, by decide⟩ (by decide) (by decide) ⟨by decide, by decide⟩
    (by decide) (by decide)
example : Regex.parse (chars! "ab{ 2 , 3 }?c") = Regex.parse (chars! "ab{2,3}?c") ∧ ∃ r, Regex.parse (chars! "ab{2,3}?c") = .ok r := ⟨rfl, _, rfl⟩

/-! ## C36 -/

theorem parse_quest {v : List Char} {r : Re} (hv : Regex.parse ('?' :: v) = .ok r) : False := by
  have h1 : lex ('?' :: v) = prep [.quest] (lex v) := lex_cons rfl
  unfold Regex.parse at hv
  rw [h1] at hv
  cases h : lex v with
  | error e => rw [h] at hv; cases hv
  | ok ts => rw [h] at hv; cases hv

theorem lex_brace {v u : List Char} {r : Re} (hv : Regex.parse v = .ok r) (hu : ¬ BeginsCount u) : lex (v ++ '{' :: u) = .error .invalid := by
  obtain ⟨ts, hl⟩ := lexF_valid hv
  unfold lex
  rw [lexF_append _ (by simp) _ v ts (Nat.le_refl _) hl]
  simp only [List.length_cons, lexF, rawOne_brace, countTok_error hu]

/-- C36: an opening brace after anything valid must begin a count. -/
theorem C36_brace (v u : List Char) (r : Re) (hv : Regex.parse v = .ok r) (hu : ¬ BeginsCount u) :
    Regex.parse (v ++ '{' :: u) = .error .invalid ∧ ∀ T, hirOf T (v ++ '{' :: u) = none := by
  have h := lex_brace hv hu
  constructor
  · unfold Regex.parse; rw [h]
  · intro T
    unfold hirOf Ast.parse
    rw [h]

/-- C36, regexes with a brace that begins no count: refused after sound parameters, whatever else the regex contains and whatever
parameters, sound or not, follow. Missing: the other invalid regexes (see the other parts), invalid regexes to the left. -/
theorem C36_brace_partial (T : Tables) (U : Classes) (pars : Provider) (src : List Char) (e : Expression)
    (h : Expression.parse src = .ok e) (l r : Expression) (p : Parameter) (he : e = l ++ .parameter p :: r)
    (hs : ∀ q ∈ params l, Sound (hirOf T) U pars q) (v u : List Char) (re : Re) (hv : Regex.parse v = .ok re) (hu : ¬ BeginsCount u)
    (hp : pars p.input = some (v ++ '{' :: u)) : ∃ x, Expression.regexWithParameters (hirOf T) pars src = .err x := by
  by_cases hpar : '(' ∈ v ++ '{' :: u
  · obtain ⟨x, hx⟩ := C36_parens_partial (hirOf T) pars src e h p (mem_params.2 (by rw [he]; simp)) _ hp hpar ((C36_brace v u re hv hu).2 T)
    exact ⟨_, hx⟩
  · rw [regexWith_eq (hirOf T) pars h]
    cases hsq : seqPat (customRes (hirOf T) pars) e with
    | error x => exact ⟨_, rfl⟩
    | ok cs =>
      obtain ⟨f, hf⟩ := sound_choice (hirOf T) U pars (ps := params l) hs
      let pp : Parameter → List Char := fun p => match customRes (hirOf T) pars p with
        | .ok c => c
        | .error _ => []
      have hcs : cs = exprPat pp l ++ ('(' :: (v ++ '{' :: u) ++ ')' :: exprPat pp r) := by
        have hpp : pp p = '(' :: (v ++ '{' :: u) ++ [')'] := by
          simp only [pp, customRes, hp, valueRes, if_neg hpar]
        have hl := seqPat_ok (pr := customRes (hirOf T) pars) (pp := pp) (e := e) (fun p hp => by
          obtain ⟨q, hq⟩ := seqPat_isOk hsq p hp
          simp only [pp, hq])
        rw [hl] at hsq
        cases hsq
        simp [he, exprPat, elemPat, hpp]
      have h1 : Lexes (exprPat pp l) (l.map (elemToks fun p => (f p).2.1)).flatten :=
        Lexes.flatten l fun x hx => lexes_elem x fun p hp => by
          have := hf p (mem_params.2 (hp ▸ hx))
          simp only [pp, this.1]
          exact this.2.1
      have hu' : ¬ BeginsCount (u ++ ')' :: (exprPat pp r ++ ['$'])) := fun hb => hu (begins_cut hb)
      have h2 := lex_brace hv hu'
      have hpv : '(' ∉ v := fun hm => hpar (by simp [hm])
      have h3 : lexOne '(' (v ++ '{' :: (u ++ ')' :: (exprPat pp r ++ ['$']))) = .ok (.capture none, v ++ '{' :: (u ++ ')' :: (exprPat pp r ++ ['$']))) := by
        cases v with
        | nil => exact groupOpen_other (c := '{') _ (by decide)
        | cons c v =>
          refine groupOpen_other _ ?_
          rintro rfl
          exact parse_quest hv
      have h4 : lex (['^'] ++ cs ++ ['$']) = .error .invalid := by
        have e1 : ['^'] ++ cs ++ ['$'] = '^' :: (exprPat pp l ++ '(' :: (v ++ '{' :: (u ++ ')' :: (exprPat pp r ++ ['$'])))) := by simp [hcs]
        rw [e1, lex_cons (t := .bol) rfl, h1, lex_cons h3, h2]
        rfl
      refine ⟨.regex .invalid, ?_⟩
      simp only [compileRes, Regex.parse, h4]

/-- Non-vacuity: an unescaped brace. -/
example : ¬ BeginsCount (chars! "[^}]*}") := by
  intro h
  obtain ⟨s, t, w, hs, e⟩ := h
  obtain ⟨k, hk⟩ := countTok_text hs
  have := (hk w).1
  rw [← e] at this
  cases this
set_option maxRecDepth 8000 in
example : (∃ re, Regex.parse (chars! "set: ") = .ok re) ∧ ∃ x, Expression.regexWithParameters (hirOf asciiTables)
    (hashMapProvider [(['a'], chars! "set: {[^}]*}"), (['b'], chars! "]")]) (chars! "{int} {a} {b}") = .err x := ⟨⟨_, rfl⟩, _, rfl⟩

end CE
