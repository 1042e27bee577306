import Verif.Model.RegexSem
import Verif.Proof.Iter

/-! # Lemmas on the regex parser -/

namespace CE.Regex
open CE.Spec

/-! ## Tokens: consumption and fuel -/

theorem hexFixed_append {n v v' : Nat} {r q : List Char} (h : hexFixed n v r = .ok (v', q)) (s : List Char) :
    hexFixed n v (r ++ s) = .ok (v', q ++ s) := by
  induction n generalizing v r with
  | zero => simp only [hexFixed, Except.ok.injEq, Prod.mk.injEq] at h ⊢; simp [h]
  | succ n ih =>
    cases r with
    | nil => simp [hexFixed] at h
    | cons c r =>
      simp only [List.cons_append, hexFixed] at h ⊢
      split at h
      · next d hd => exact ih h
      · simp at h

theorem hexFixed_suffix {n v v' : Nat} {r q : List Char} (h : hexFixed n v r = .ok (v', q)) : q <:+ r := by
  induction n generalizing v r with
  | zero => simp only [hexFixed, Except.ok.injEq, Prod.mk.injEq] at h; simp [h]
  | succ n ih =>
    cases r with
    | nil => simp [hexFixed] at h
    | cons c r =>
      simp only [hexFixed] at h
      split at h
      · exact (ih h).trans (List.suffix_cons _ _)
      · simp at h

theorem hexBrace_append {b : Bool} {v v' : Nat} {r q : List Char} (h : hexBrace b v r = .ok (v', q)) (s : List Char) :
    hexBrace b v (r ++ s) = .ok (v', q ++ s) := by
  induction r generalizing b v with
  | nil => simp [hexBrace] at h
  | cons c r ih =>
    simp only [List.cons_append, hexBrace] at h ⊢
    split at h
    · next hc =>
      rw [if_pos hc]
      split at h
      · simp at h
      · next hb => rw [if_neg hb]; simp only [Except.ok.injEq, Prod.mk.injEq] at h ⊢; simp [h]
    · next hc =>
      rw [if_neg hc]
      split at h
      · next d hd => exact ih h
      · simp at h

theorem hexBrace_suffix {b : Bool} {v v' : Nat} {r q : List Char} (h : hexBrace b v r = .ok (v', q)) :
    q <:+ r := by
  induction r generalizing b v with
  | nil => simp [hexBrace] at h
  | cons c r ih =>
    simp only [hexBrace] at h
    split at h
    · split at h
      · simp at h
      · simp only [Except.ok.injEq, Prod.mk.injEq] at h; simp [h]
    · split at h
      · exact (ih h).trans (List.suffix_cons _ _)
      · simp at h

theorem hexDigits_append {n v : Nat} {r q : List Char} (h : hexDigits (n + 1) r = .ok (v, q)) (s : List Char) :
    hexDigits (n + 1) (r ++ s) = .ok (v, q ++ s) := by
  cases r with
  | nil => simp [hexDigits, hexFixed] at h
  | cons c r =>
    rw [hexDigits.eq_def] at h ⊢
    split at h
    · next r' hr => cases hr; exact hexBrace_append h s
    · next hr =>
      simp only [List.cons_append]
      split
      · next r' hr' => simp at hr'; exact absurd (by rw [hr'.1]) (hr r)
      · exact hexFixed_append h s

theorem hexDigits_suffix {n v : Nat} {r q : List Char} (h : hexDigits n r = .ok (v, q)) : q <:+ r := by
  rw [hexDigits.eq_def] at h
  split at h
  · exact (hexBrace_suffix h).trans (List.suffix_cons _ _)
  · exact hexFixed_suffix h

theorem hexEsc_append {n : Nat} {r q : List Char} {e : Esc} (h : hexEsc (n + 1) r = .ok (e, q)) (s : List Char) :
    hexEsc (n + 1) (r ++ s) = .ok (e, q ++ s) := by
  unfold hexEsc at h ⊢
  split at h
  · simp at h
  · next v r' hr =>
    rw [hexDigits_append hr s]
    simp only []
    split at h
    · next hv =>
      rw [if_pos hv]
      simp only [Except.ok.injEq, Prod.mk.injEq] at h ⊢
      simp [h]
    · simp at h

theorem hexEsc_suffix {n : Nat} {r q : List Char} {e : Esc} (h : hexEsc n r = .ok (e, q)) : q <:+ r := by
  unfold hexEsc at h
  split at h
  · simp at h
  · next v r' hr =>
    have := hexDigits_suffix hr
    split at h
    · simp only [Except.ok.injEq, Prod.mk.injEq] at h
      rw [← h.2]; exact this
    · simp at h

theorem braceName_append : ∀ {r n q : List Char} (s : List Char), braceName r = some (n, q) → braceName (r ++ s) = some (n, q ++ s)
  | [], _, _, _, h => by simp [braceName] at h
  | c :: r, n, q, s, h => by
    simp only [braceName, List.cons_append] at h ⊢
    split at h
    · next hc => simp only [Option.some.injEq, Prod.mk.injEq] at h; simp [if_pos hc, ← h.1, h.2]
    · next hc =>
      rw [if_neg hc]
      split at h
      · next n' q' hr =>
        simp only [Option.some.injEq, Prod.mk.injEq] at h
        rw [braceName_append s hr]; simp [← h.1, h.2]
      · simp at h

/-- A name ends at the first brace. -/
theorem braceName_eq : ∀ {r n q : List Char}, braceName r = some (n, q) → r = n ++ '}' :: q
  | [], _, _, h => by simp [braceName] at h
  | c :: r, n, q, h => by
    simp only [braceName] at h
    split at h
    · next hc => simp only [Option.some.injEq, Prod.mk.injEq] at h; simp [← h.1, h.2, hc]
    · split at h
      · next n' q' hr =>
        simp only [Option.some.injEq, Prod.mk.injEq] at h
        rw [braceName_eq hr]; simp [← h.1, h.2]
      · simp at h

theorem categoryEsc_ok {neg : Bool} {n r q : List Char} {e : Esc} (h : categoryEsc neg n r = .ok (e, q)) :
    n ∈ categories ∧ e = .perl neg (.category n) ∧ q = r := by
  unfold categoryEsc at h
  split at h
  · next hn => simp only [Except.ok.injEq, Prod.mk.injEq] at h; exact ⟨hn, h.1.symm, h.2.symm⟩
  · simp at h

/-- What an escape of a category consists of. -/
theorem unicodeEsc_eq {neg : Bool} {r q : List Char} {e : Esc} (h : unicodeEsc neg r = .ok (e, q)) :
    ∃ n ∈ categories, e = .perl neg (.category n) ∧ (r = '{' :: (n ++ '}' :: q) ∨ (∃ c, n = [c] ∧ c ≠ '{' ∧ c ≠ '\\' ∧ r = c :: q)) := by
  unfold unicodeEsc at h
  split at h
  · simp at h
  · next c r' =>
    split at h
    · next hc =>
      split at h
      · next n r2 hb =>
        obtain ⟨hn, he, hq⟩ := categoryEsc_ok h
        exact ⟨n, hn, he, .inl (by rw [braceName_eq hb, hc, hq])⟩
      · simp at h
    · next hc =>
      split at h
      · simp at h
      · next hc2 =>
        obtain ⟨hn, he, hq⟩ := categoryEsc_ok h
        exact ⟨[c], hn, he, .inr ⟨c, rfl, hc, hc2, by rw [hq]⟩⟩

theorem braceName_brace : ∀ {n : List Char} (q : List Char), '}' ∉ n → braceName (n ++ '}' :: q) = some (n, q)
  | [], q, _ => by simp [braceName]
  | c :: n, q, h => by
    have hc : c ≠ '}' := fun e => h (by simp [e])
    simp [braceName, hc, braceName_brace q (fun m => h (List.mem_cons_of_mem _ m))]

theorem categories_letters : ∀ n ∈ categories, n ≠ [] ∧ n.all (fun c => c.isAlpha) = true := by decide

theorem unicodeEsc_brace (neg : Bool) {n : List Char} (h : n ∈ categories) (q : List Char) :
    unicodeEsc neg ('{' :: (n ++ '}' :: q)) = .ok (.perl neg (.category n), q) := by
  have hn : '}' ∉ n := fun m => absurd (List.all_eq_true.1 (categories_letters n h).2 _ m) (by decide)
  simp [unicodeEsc, braceName_brace q hn, categoryEsc, h]

theorem unicodeEsc_one (neg : Bool) {c : Char} (h : [c] ∈ categories) (q : List Char) :
    unicodeEsc neg (c :: q) = .ok (.perl neg (.category [c]), q) := by
  have ha : c.isAlpha = true := by simpa using (categories_letters [c] h).2
  have h1 : c ≠ '{' := by rintro rfl; exact absurd ha (by decide)
  have h2 : c ≠ '\\' := by rintro rfl; exact absurd ha (by decide)
  simp [unicodeEsc, h1, h2, categoryEsc, h]

theorem unicodeEsc_append {neg : Bool} {r q : List Char} {e : Esc} (h : unicodeEsc neg r = .ok (e, q)) (s : List Char) :
    unicodeEsc neg (r ++ s) = .ok (e, q ++ s) := by
  obtain ⟨n, hn, rfl, rfl | ⟨c, rfl, _, _, rfl⟩⟩ := unicodeEsc_eq h
  · have := unicodeEsc_brace neg hn (q ++ s)
    simpa using this
  · exact unicodeEsc_one neg hn (q ++ s)

theorem unicodeEsc_suffix {neg : Bool} {r q : List Char} {e : Esc} (h : unicodeEsc neg r = .ok (e, q)) : q <:+ r := by
  obtain ⟨n, _, _, rfl | ⟨c, _, _, _, rfl⟩⟩ := unicodeEsc_eq h
  · exact ((List.suffix_cons _ _).trans (List.suffix_append n _)).trans (List.suffix_cons _ _)
  · exact List.suffix_cons _ _

theorem escape_append {c : Char} {r q : List Char} {e : Esc} (h : escape c r = .ok (e, q)) (s : List Char) :
    escape c (r ++ s) = .ok (e, q ++ s) := by
  unfold escape at h ⊢
  split at h
  · exact hexEsc_append h s
  · exact hexEsc_append h s
  · exact hexEsc_append h s
  · exact unicodeEsc_append h s
  · exact unicodeEsc_append h s
  · split at h
    · simp only [Except.ok.injEq, Prod.mk.injEq] at h ⊢; simp_all
    · simp at h

theorem escape_suffix {c : Char} {r q : List Char} {e : Esc} (h : escape c r = .ok (e, q)) : q <:+ r := by
  unfold escape at h
  split at h
  · exact hexEsc_suffix h
  · exact hexEsc_suffix h
  · exact hexEsc_suffix h
  · exact unicodeEsc_suffix h
  · exact unicodeEsc_suffix h
  · split at h
    · simp only [Except.ok.injEq, Prod.mk.injEq] at h; simp [h]
    · simp at h

/-- Characters with a special meaning are escaped by a backslash alone. -/
theorem escape_special {c : Char} (h : isMeta c = true) (r : List Char) : escape c r = .ok (.lit c, r) := by
  have he : escapeChar c = .ok (.lit c) := by unfold escapeChar; exact if_pos h
  unfold escape
  split
  · exact absurd h (by decide)
  · exact absurd h (by decide)
  · exact absurd h (by decide)
  · exact absurd h (by decide)
  · exact absurd h (by decide)
  · rw [he]

theorem escape_length {c : Char} {r q : List Char} {e : Esc} (h : escape c r = .ok (e, q)) : q.length ≤ r.length :=
  (escape_suffix h).length_le

theorem clsPrim_tail {cs r : List Char} {i : CItem} (h : clsPrim cs = .ok (i, r)) : r <:+ cs ∧ r.length < cs.length := by
  unfold clsPrim at h
  split at h <;> try simp at h
  · next c r' =>
    have key : ∀ {e q}, escape c r' = .ok (e, q) → q <:+ '\\' :: c :: r' ∧ q.length < ('\\' :: c :: r').length := by
      intro e q he
      have := escape_length he
      exact ⟨(escape_suffix he).trans ((List.suffix_cons _ _).trans (List.suffix_cons _ _)), by simp; omega⟩
    split at h <;> try simp at h
    · next he => obtain ⟨_, rfl⟩ := h; exact key he
    · next he => obtain ⟨_, rfl⟩ := h; exact key he
  · obtain ⟨_, rfl⟩ := h; exact ⟨List.suffix_cons _ _, by simp⟩

theorem clsRange_tail {cs r : List Char} {i : CItem} (h : clsRange cs = .ok (i, r)) : r <:+ cs ∧ r.length < cs.length := by
  unfold clsRange at h
  split at h
  · simp at h
  · next a r1 h1 =>
    have l1 := clsPrim_tail h1
    split at h
    · simp at h
    · simp at h
    · next d r' =>
      split at h
      · simp only [Except.ok.injEq, Prod.mk.injEq] at h; obtain ⟨_, rfl⟩ := h; exact l1
      · split at h
        · simp at h
        · next b r2 h2 =>
          have l2 := clsPrim_tail h2
          split at h
          · split at h
            · simp only [Except.ok.injEq, Prod.mk.injEq] at h
              obtain ⟨_, rfl⟩ := h
              refine ⟨l2.1.trans ((List.suffix_cons '-' _).trans l1.1), ?_⟩
              have a1 := l1.2; have a2 := l2.2
              simp at a1 a2; omega
            · simp at h
          · simp at h
    · simp only [Except.ok.injEq, Prod.mk.injEq] at h; obtain ⟨_, rfl⟩ := h; exact l1

theorem strip_some : ∀ {w cs r : List Char}, strip w cs = some r → cs = w ++ r
  | [], _, _, h => by simp [strip] at h; simp [h]
  | _ :: _, [], _, h => by simp [strip] at h
  | w :: ws, c :: cs, r, h => by
    unfold strip at h
    split at h
    · next e => rw [strip_some h, e]; rfl
    · cases h

theorem strip_append : ∀ (w r : List Char), strip w (w ++ r) = some r
  | [], _ => rfl
  | w :: ws, r => by simp [strip, strip_append ws r]

theorem asciiClass_some {cs r : List Char} {i : CItem} (h : asciiClass cs = some (i, r)) :
    ∃ w, (w, i) ∈ asciiTable ∧ cs = w ++ r := by
  obtain ⟨x, hx, hs⟩ := List.exists_of_findSome?_eq_some h
  cases hw : strip x.1 cs with
  | none => simp [hw] at hs
  | some q =>
    simp [hw] at hs
    obtain ⟨rfl, rfl⟩ := hs
    exact ⟨x.1, hx, strip_some hw⟩

theorem clsDashes_suffix : ∀ cs : List Char, (clsDashes cs).2 <:+ cs
  | [] => List.suffix_refl _
  | c :: r => by
    unfold clsDashes
    split
    · rename_i r' he
      cases he
      exact (clsDashes_suffix r).trans (List.suffix_cons _ _)
    · exact List.suffix_refl _

theorem clsLead_suffix (cs : List Char) : (clsLead cs).2 <:+ cs := by
  have := clsDashes_suffix cs
  unfold clsLead
  split
  · next h => rw [h] at this; exact (List.suffix_cons _ _).trans this
  · exact this

theorem clsHead_suffix (cs : List Char) : (clsHead cs).2.2 <:+ cs := by
  unfold clsHead
  split
  · exact (clsLead_suffix _).trans (List.suffix_cons _ _)
  · exact clsLead_suffix _

theorem putPiece_ok {p : CPiece} {e : Except RErr (List CPiece × List Char)} {x : List CPiece × List Char}
    (h : putPiece p e = .ok x) : ∃ y, e = .ok y ∧ x = (p :: y.1, y.2) := by
  cases e with
  | error _ => cases h
  | ok y => cases h; exact ⟨y, rfl, rfl⟩

/-- The ways in which the rest of a class can be read. -/
theorem clsItems_cases {n : Nat} {cs r : List Char} {ps : List CPiece} (h : clsItems (n + 1) cs = .ok (ps, r)) :
    (cs = ']' :: r ∧ ps = []) ∨
    (∃ q i q' ps', cs = '[' :: q ∧ asciiClass q = some (i, q') ∧ clsItems n q' = .ok (ps', r) ∧ ps = .item i :: ps') ∨
    (∃ q ks q' ps', cs = '[' :: q ∧ asciiClass q = none ∧ clsItems n (clsHead q).2.2 = .ok (ks, q') ∧
      clsItems n q' = .ok (ps', r) ∧
      ps = .item (.nested (clsHead q).1 (.all (assemble none (clsHead q).2.1 ks))) :: ps') ∨
    (∃ c k q ps', (c, k) ∈ [('&', SetOp.inter), ('-', SetOp.diff), ('~', SetOp.symm)] ∧ cs = c :: c :: q ∧
      clsItems n q = .ok (ps', r) ∧ ps = .op k :: ps') ∨
    (∃ i q ps', cs.head? ≠ some ']' ∧ cs.head? ≠ some '[' ∧ (∀ c ∈ ['&', '-', '~'], ∀ t, cs ≠ c :: c :: t) ∧
      clsRange cs = .ok (i, q) ∧ clsItems n q = .ok (ps', r) ∧ ps = .item i :: ps') := by
  unfold clsItems at h
  split at h
  · cases h
  · cases h; exact .inl ⟨rfl, rfl⟩
  · split at h
    · next ha =>
      obtain ⟨y, hy, he⟩ := putPiece_ok h
      cases he
      exact .inr (.inl ⟨_, _, _, _, rfl, ha, hy, rfl⟩)
    · next ha =>
      simp only [] at h
      split at h
      · cases h
      · next hk =>
        obtain ⟨y, hy, he⟩ := putPiece_ok h
        cases he
        exact .inr (.inr (.inl ⟨_, _, _, _, rfl, ha, hk, hy, rfl⟩))
  · obtain ⟨y, hy, he⟩ := putPiece_ok h
    cases he
    exact .inr (.inr (.inr (.inl ⟨_, _, _, _, by simp, rfl, hy, rfl⟩)))
  · obtain ⟨y, hy, he⟩ := putPiece_ok h
    cases he
    exact .inr (.inr (.inr (.inl ⟨_, _, _, _, by simp, rfl, hy, rfl⟩)))
  · obtain ⟨y, hy, he⟩ := putPiece_ok h
    cases he
    exact .inr (.inr (.inr (.inl ⟨_, _, _, _, by simp, rfl, hy, rfl⟩)))
  · next h1 h2 h3 h4 h5 h6 =>
    split at h
    · cases h
    · next hr =>
      obtain ⟨y, hy, he⟩ := putPiece_ok h
      cases he
      refine .inr (.inr (.inr (.inr ⟨_, _, _, ?_, ?_, ?_, hr, hy, rfl⟩)))
      · intro e; cases cs with
        | nil => cases e
        | cons c t => simp at e; exact h2 t (by rw [e])
      · intro e; cases cs with
        | nil => cases e
        | cons c t => simp at e; exact h3 t (by rw [e])
      · intro c hc t e
        simp at hc
        rcases hc with rfl | rfl | rfl
        · exact h4 _ e
        · exact h5 _ e
        · exact h6 _ e

theorem clsItems_tail : ∀ {n : Nat} {cs r : List Char} {is : List CPiece}, clsItems n cs = .ok (is, r) →
    r <:+ cs ∧ r.length < cs.length
  | 0, _, _, _, h => by simp [clsItems] at h
  | n + 1, cs, r, is, h => by
    rcases clsItems_cases h with ⟨rfl, _⟩ | ⟨q, i, q', _, rfl, ha, hy, _⟩ | ⟨q, _, q', _, rfl, _, hk, hy, _⟩ |
      ⟨c, _, q, _, _, rfl, hy, _⟩ | ⟨i, q, _, _, _, _, hr, hy, _⟩
    · exact ⟨List.suffix_cons _ _, by simp⟩
    · obtain ⟨w, _, rfl⟩ := asciiClass_some ha
      have := clsItems_tail hy
      refine ⟨this.1.trans ((List.suffix_append _ _).trans (List.suffix_cons _ _)), ?_⟩
      have := this.2
      simp; omega
    · have a := clsItems_tail hk
      have b := clsItems_tail hy
      have c := clsHead_suffix q
      refine ⟨b.1.trans (a.1.trans (c.trans (List.suffix_cons _ _))), ?_⟩
      have := c.length_le; have := a.2; have := b.2
      simp; omega
    · have := clsItems_tail hy
      refine ⟨this.1.trans ((List.suffix_cons _ _).trans (List.suffix_cons _ _)), ?_⟩
      have := this.2
      simp; omega
    · have a := clsRange_tail hr
      have b := clsItems_tail hy
      exact ⟨b.1.trans a.1, by omega⟩

theorem clsOpen_cases {cs r : List Char} {k : Cls} (h : clsOpen cs = .ok (k, r)) :
    ∃ ps, clsItems ((clsHead cs).2.2.length + 1) (clsHead cs).2.2 = .ok (ps, r) ∧
      k = ⟨(clsHead cs).1, assemble none (clsHead cs).2.1 ps⟩ := by
  unfold clsOpen at h
  simp only [] at h
  split at h
  · cases h
  · next hi => cases h; exact ⟨_, hi, rfl⟩

theorem clsOpen_tail {cs r : List Char} {k : Cls} (h : clsOpen cs = .ok (k, r)) : r <:+ cs ∧ r.length < cs.length := by
  obtain ⟨_, hi, _⟩ := clsOpen_cases h
  have a := clsItems_tail hi
  have b := clsHead_suffix cs
  have := b.length_le
  exact ⟨a.1.trans b, by omega⟩

theorem clsOpen_length {cs r : List Char} {k : Cls} (h : clsOpen cs = .ok (k, r)) : r.length < cs.length := (clsOpen_tail h).2

theorem capName_length : ∀ {cs : List Char} {b : Bool} {n r : List Char}, capName b cs = .ok (n, r) → r.length < cs.length
  | [], _, _, _, h => by simp [capName] at h
  | c :: cs, b, n, r, h => by
    unfold capName at h
    split at h
    · split at h
      · simp at h
      · simp at h; obtain ⟨_, rfl⟩ := h; simp
    · split at h
      · simp at h
      · split at h
        · split at h
          · next h2 =>
            have := capName_length h2
            simp only [Except.ok.injEq, Prod.mk.injEq] at h
            obtain ⟨_, rfl⟩ := h
            simp; omega
          · simp at h
        · simp at h

theorem groupOpen_length {cs r : List Char} {t : Tok} (h : groupOpen cs = .ok (t, r)) : r.length ≤ cs.length := by
  unfold groupOpen at h
  split at h <;> try (simp at h; done)
  · simp at h; obtain ⟨_, rfl⟩ := h; simp; omega
  · split at h
    · next h2 =>
      have := capName_length h2
      simp at h; obtain ⟨_, rfl⟩ := h; simp; omega
    · simp at h
  · split at h
    · next h2 =>
      have := capName_length h2
      simp at h; obtain ⟨_, rfl⟩ := h; simp; omega
    · simp at h
  · split at h <;> simp at h
  · simp at h; obtain ⟨_, rfl⟩ := h; simp

theorem decDigits_length : ∀ cs : List Char, (decDigits cs).2.length ≤ cs.length
  | [] => by simp [decDigits]
  | c :: r => by
    have := decDigits_length r
    unfold decDigits
    split
    · simp; omega
    · simp

theorem numeral_length (cs : List Char) : (numeral cs).2.length ≤ cs.length := by
  have h1 := (List.dropWhile_sublist isBlank (l := cs)).length_le
  have h2 := decDigits_length (cs.dropWhile isBlank)
  have h3 := (List.dropWhile_sublist isBlank (l := (decDigits (cs.dropWhile isBlank)).2)).length_le
  unfold numeral
  simp only
  omega

theorem countTok_length {cs r : List Char} {t : Tok} (h : countTok cs = .ok (t, r)) : r.length ≤ cs.length := by
  unfold countTok at h
  have hd := numeral_length cs
  split at h <;> try (simp at h; done)
  · next h1 => rw [h1] at hd; simp at h; obtain ⟨_, rfl⟩ := h; simp at hd; omega
  · next h1 => rw [h1] at hd; simp at h; obtain ⟨_, rfl⟩ := h; simp at hd; omega
  · next r1 _ _ h1 =>
    rw [h1] at hd
    have hd' := numeral_length r1
    split at h <;> try (simp at h; done)
    next h2 =>
      rw [h2] at hd'
      split at h
      · simp at h; obtain ⟨_, rfl⟩ := h; simp at hd hd'; omega
      · simp at h

theorem lexOne_length {c : Char} {cs r : List Char} {t : Tok} (h : lexOne c cs = .ok (t, r)) : r.length ≤ cs.length := by
  unfold lexOne at h
  split at h
  case h_1 => exact groupOpen_length h
  case h_4 =>
    split at h
    · next h2 =>
      have := clsOpen_length h2
      simp at h; obtain ⟨_, rfl⟩ := h; omega
    · simp at h
  case h_8 => exact countTok_length h
  case h_12 =>
    split at h
    · simp at h
    · split at h <;> first
        | (simp at h; done)
        | (next he => have := escape_length he; simp at h; obtain ⟨_, rfl⟩ := h; simp; omega)
  all_goals (simp at h; obtain ⟨_, rfl⟩ := h; simp)

theorem readFlags_tail : ∀ {r : List Char} {seen : List Flag} {neg dangling : Bool} {l : List (Flag × Bool)} {colon : Bool} {q : List Char},
    readFlags seen neg dangling r = .ok (l, colon, q) → q <:+ r
  | [], _, _, _, _, _, _, h => by simp [readFlags] at h
  | c :: r, seen, neg, dangling, l, colon, q, h => by
    unfold readFlags at h
    split at h
    · split at h
      · cases h
      · cases h; exact List.suffix_cons _ _
    · split at h
      · split at h
        · cases h
        · exact (readFlags_tail h).trans (List.suffix_cons _ _)
      · split at h
        · cases h
        · split at h
          · cases h
          · split at h
            · cases h
            · next h2 => cases h; exact (readFlags_tail h2).trans (List.suffix_cons _ _)

theorem flagsTok_cases {r q : List Char} {t : RTok} (h : flagsTok r = .ok (t, q)) :
    ∃ l colon, readFlags [] false false r = .ok (l, colon, q) ∧ l.isEmpty = false ∧ l.all Flag.known = true ∧
      t = if colon then .scope l else .flags l := by
  unfold flagsTok at h
  split at h
  · cases h
  · next l colon q' hr =>
    split at h
    · cases h
    · next he =>
      split at h
      · next hk => cases h; exact ⟨l, colon, hr, by simpa using he, hk, rfl⟩
      · cases h

theorem atFlags_spec {c : Char} {r : List Char} (h : atFlags c r = true) : ∃ d q, c = '(' ∧ r = '?' :: d :: q ∧
    d ∈ ['i', 'm', 's', 'U', 'u', 'R', 'x', '-'] := by
  unfold atFlags at h
  split at h
  · exact ⟨_, _, rfl, rfl, by simpa using h⟩
  · cases h

theorem lexOne_atFlags {c : Char} {r : List Char} (h : atFlags c r = true) : lexOne c r = .error .unsupported := by
  obtain ⟨d, q, rfl, rfl, hd⟩ := atFlags_spec h
  simp only [List.mem_cons, List.not_mem_nil, or_false] at hd
  rcases hd with rfl | rfl | rfl | rfl | rfl | rfl | rfl | rfl <;> rfl

theorem rawOne_of {c : Char} {r r' : List Char} {t : Tok} (h : lexOne c r = .ok (t, r')) : rawOne c r = .ok (.tok c t, r') := by
  unfold rawOne
  split
  · next hf => rw [lexOne_atFlags hf] at h; cases h
  · rw [h]

/-- A token is flags or an ordinary token. -/
theorem rawOne_cases {c : Char} {r r' : List Char} {t : RTok} (h : rawOne c r = .ok (t, r')) :
    (∃ q, c = '(' ∧ r = '?' :: q ∧ atFlags c r = true ∧ flagsTok q = .ok (t, r')) ∨
    (atFlags c r = false ∧ ∃ u, lexOne c r = .ok (u, r') ∧ t = .tok c u) := by
  unfold rawOne at h
  split at h
  · next hf =>
    obtain ⟨d, q, rfl, rfl, hd⟩ := atFlags_spec hf
    exact .inl ⟨d :: q, rfl, rfl, hf, h⟩
  · next hf =>
    split at h
    · cases h
    · next hl => cases h; exact .inr ⟨by simpa using hf, _, hl, rfl⟩

theorem rawOne_length {c : Char} {r r' : List Char} {t : RTok} (h : rawOne c r = .ok (t, r')) : r'.length ≤ r.length := by
  rcases rawOne_cases h with ⟨q, _, rfl, _, hq⟩ | ⟨_, u, hu, _⟩
  · obtain ⟨l, colon, hr, _⟩ := flagsTok_cases hq
    have := (readFlags_tail hr).length_le
    simp; omega
  · exact lexOne_length hu

theorem lexF_enough : ∀ (n m : Nat) (cs : List Char), cs.length ≤ n → cs.length ≤ m → lexF n cs = lexF m cs
  | n, m, [], _, _ => by cases n <;> cases m <;> rfl
  | 0, _, _ :: _, h, _ => by simp at h
  | _, 0, _ :: _, _, h => by simp at h
  | n + 1, m + 1, c :: r, h, h' => by
    simp only [List.length_cons] at h h'
    simp only [lexF]
    cases h1 : rawOne c r with
    | error e => rfl
    | ok q =>
      obtain ⟨t, r'⟩ := q
      have := rawOne_length h1
      simp only []
      rw [lexF_enough n m r' (by omega) (by omega)]

@[simp] theorem prep_ok (ts us : List Tok) : prep ts (.ok us) = .ok (ts ++ us) := rfl
@[simp] theorem prep_nil (x : Except RErr (List Tok)) : prep [] x = x := by cases x <;> rfl
theorem prep_prep (ts us : List Tok) (x) : prep ts (prep us x) = prep (ts ++ us) x := by cases x <;> simp [prep]

theorem prep_eq_ok {ts vs : List Tok} {x : Except RErr (List Tok)} (h : prep ts x = .ok vs) : ∃ us, x = .ok us ∧ vs = ts ++ us := by
  cases x with
  | error e => cases h
  | ok us => cases h; exact ⟨us, rfl, rfl⟩

@[simp] theorem lex_nil : lex [] = .ok [] := rfl

/-- Without flags a token is what it is. -/
theorem Tok.under_default (c : Char) (t : Tok) : t.under {} c = t := by cases t <;> rfl

theorem resolve_tok (f : Flags) (fs : List Flags) (c : Char) (t : Tok) (ts : List RTok) : resolve f fs (.tok c t :: ts) =
    prep ((RTok.tok c t).step f fs).1 (resolve ((RTok.tok c t).step f fs).2.1 ((RTok.tok c t).step f fs).2.2 ts) := rfl

/-- At the end of a group without beginning there are no flags. -/
theorem resolve_default : ∀ (ts : List RTok) (f : Flags) (fs : List Flags), resolve f (fs ++ [({} : Flags)]) ts = resolve f fs ts
  | [], _, _ => rfl
  | .flags l :: ts, f, fs => by simp only [resolve, resolve_default ts]
  | .scope l :: ts, f, fs => by
    have := resolve_default ts (f.set l) (f :: fs)
    simp only [resolve, RTok.step, List.cons_append] at this ⊢
    rw [this]
  | .tok c t :: ts, f, fs => by
    have h1 := fun g => resolve_default ts g (f :: fs)
    have h2 := fun g gs => resolve_default ts g gs
    cases t <;> first
      | (simp only [resolve, RTok.step, h2]; done)
      | (simp only [resolve, RTok.step, List.cons_append] at h1 ⊢; rw [h1]; done)
      | skip
    cases fs with
    | nil => rfl
    | cons g gs => simp only [resolve, RTok.step, List.cons_append, List.headD_cons, List.tail_cons, h2]

theorem resolve_plain (c : Char) (t : Tok) (ts : List RTok) : resolve {} [] (.tok c t :: ts) = prep [t] (resolve {} [] ts) := by
  have h := resolve_default ts {} []
  rw [resolve_tok]
  cases t <;> first
    | (simp only [RTok.step, Tok.under_default]; done)
    | (simp only [RTok.step]; exact congrArg _ h)
    | rfl

/-- The token of an ordinary token. -/
def RTok.plain : RTok → Tok
  | .tok _ t => t
  | _ => .group

theorem resolve_plains : ∀ (ts us : List RTok), (∀ t ∈ ts, ∃ c u, t = .tok c u) →
    resolve {} [] (ts ++ us) = prep (ts.map RTok.plain) (resolve {} [] us)
  | [], us, _ => by simp
  | t :: ts, us, h => by
    obtain ⟨c, u, rfl⟩ := h t (by simp)
    rw [List.cons_append, resolve_plain, resolve_plains ts us fun t ht => h t (by simp [ht]), prep_prep]
    rfl

theorem lex_cons {c : Char} {r r' : List Char} {t : Tok} (h : lexOne c r = .ok (t, r')) :
    lex (c :: r) = prep [t] (lex r') := by
  have hl := lexOne_length h
  simp only [lex, List.length_cons, lexF, rawOne_of h]
  rw [lexF_enough r.length r'.length r' hl (Nat.le_refl _)]
  cases lexF r'.length r' with
  | error e => rfl
  | ok ts => exact resolve_plain c t ts

/-- `p` is read as the tokens `ts`, whatever follows. -/
def Lexes (p : List Char) (ts : List Tok) : Prop := ∀ rest, lex (p ++ rest) = prep ts (lex rest)

theorem Lexes.nil : Lexes [] [] := fun rest => by simp

theorem Lexes.append {p q : List Char} {ts us : List Tok} (h : Lexes p ts) (h' : Lexes q us) :
    Lexes (p ++ q) (ts ++ us) := by
  intro rest
  rw [List.append_assoc, h, h', prep_prep]

theorem Lexes.lex {p : List Char} {ts : List Tok} (h : Lexes p ts) : lex p = .ok ts := by
  have := h []
  simpa using this

/-! ## Literal characters -/

theorem special_cases {c : Char} (h : c ∈ "^$[]()\\{}.|?*+".toList) : isMeta c = true := by
  revert h
  have : "^$[]()\\{}.|?*+".toList = ['^', '$', '[', ']', '(', ')', '\\', '{', '}', '.', '|', '?', '*', '+'] := by decide
  rw [this]
  simp only [List.mem_cons, List.not_mem_nil, or_false]
  rintro (h | h | h | h | h | h | h | h | h | h | h | h | h | h) <;> subst h <;> decide

theorem Lexes.quote (c : Char) : Lexes (quote c) [.lit c] := by
  intro rest
  unfold Spec.quote
  split
  · next h =>
    refine lex_cons ?_
    show lexOne '\\' (c :: rest) = _
    simp only [lexOne, escape_special (special_cases h)]
  · next h =>
    refine lex_cons ?_
    have hs : "^$[]()\\{}.|?*+".toList = ['^', '$', '[', ']', '(', ')', '\\', '{', '}', '.', '|', '?', '*', '+'] := by
      decide
    rw [hs] at h
    simp only [List.mem_cons, List.not_mem_nil, or_false, not_or] at h
    unfold lexOne
    split <;> simp_all

theorem Lexes.quoteAll (u : List Char) : Lexes (quoteAll u) (u.map .lit) := by
  induction u with
  | nil => exact .nil
  | cons c u ih => exact (Lexes.quote c).append ih

/-! ## The stack machine -/

/-- The tokens `ts` add the items `rs` to the current branch. -/
def ReadsAs (ts : List Tok) (rs : List Re) : Prop :=
  ∀ fr, ∃ fr', ∀ st br it rest, build st ⟨br, it, fr⟩ (ts ++ rest) = build st ⟨br, rs.reverse ++ it, fr'⟩ rest

theorem ReadsAs.nil : ReadsAs [] [] := fun fr => ⟨fr, fun _ _ _ _ => rfl⟩

theorem ReadsAs.append {ts us : List Tok} {rs qs : List Re} (h : ReadsAs ts rs) (h' : ReadsAs us qs) :
    ReadsAs (ts ++ us) (rs ++ qs) := by
  intro fr
  obtain ⟨f1, h1⟩ := h fr
  obtain ⟨f2, h2⟩ := h' f1
  refine ⟨f2, fun st br it rest => ?_⟩
  rw [List.append_assoc, h1, h2, List.reverse_append, List.append_assoc]

theorem ReadsAs.lit (c : Char) : ReadsAs [.lit c] [.lit c] :=
  fun _ => ⟨false, fun _ _ _ _ => rfl⟩

theorem ReadsAs.lits (u : List Char) : ReadsAs (u.map .lit) (u.map .lit) := by
  induction u with
  | nil => exact .nil
  | cons c u ih => exact (ReadsAs.lit c).append ih

/-- Branches separated by `|`. -/
def barred : List (List Tok) → List Tok
  | [] => []
  | [b] => b
  | b :: bs => b ++ .bar :: barred bs

/-- Reading branches until the end of the group: the finished branches are those read before and the new ones. -/
theorem readBranches : ∀ (bs : List (List Tok × List Re)) (_ : bs ≠ []) (_ : ∀ b ∈ bs, ReadsAs b.1 b.2) (fr : Bool),
    ∃ fr', ∀ st br rest, ∃ it br', build st ⟨br, [], fr⟩ (barred (bs.map (·.1)) ++ rest) =
        build st ⟨br', it, fr'⟩ rest ∧ catL it.reverse :: br' = (bs.map (fun b => catL b.2)).reverse ++ br
  | [], h, _, _ => absurd rfl h
  | [b], _, hb, fr => by
    obtain ⟨f, h⟩ := hb b (by simp) fr
    refine ⟨f, fun st br rest => ⟨b.2.reverse, br, ?_, ?_⟩⟩
    · simpa [barred] using h st br [] rest
    · simp
  | b :: b' :: bs, _, hb, fr => by
    obtain ⟨f, h⟩ := hb b (by simp) fr
    obtain ⟨f', h'⟩ := readBranches (b' :: bs) (by simp) (fun x hx => hb x (by simp [hx])) false
    refine ⟨f', fun st br rest => ?_⟩
    obtain ⟨it, br', h1, h2⟩ := h' st (catL b.2 :: br) rest
    refine ⟨it, br', ?_, ?_⟩
    · rw [← h1]
      simp only [List.map_cons, barred, List.append_assoc, List.cons_append]
      rw [h]
      simp [build]
    · rw [h2]; simp

theorem ReadsAs.group {bs : List (List Tok × List Re)} (hne : bs ≠ []) (hb : ∀ b ∈ bs, ReadsAs b.1 b.2) :
    ReadsAs (.group :: barred (bs.map (·.1)) ++ [.close]) [altL (bs.map (fun b => catL b.2))] := by
  intro fr
  obtain ⟨f, h⟩ := readBranches bs hne hb false
  refine ⟨false, fun st br it rest => ?_⟩
  obtain ⟨it', br', h1, h2⟩ := h ((.group, ⟨br, it, fr⟩) :: st) [] (.close :: rest)
  simp only [List.cons_append, List.append_assoc, List.nil_append, build, Frame.start]
  rw [h1]
  simp only [List.append_nil] at h2
  simp [build, Frame.push, Kind.wrap, Frame.finish, h2]

theorem ReadsAs.optionalGroup {ts : List Tok} {rs : List Re} (h : ReadsAs ts rs) :
    ReadsAs (.group :: ts ++ [.close, .quest]) [.rep (catL rs) 0 (some 1) true] := by
  intro fr
  obtain ⟨f, h⟩ := h false
  refine ⟨true, fun st br it rest => ?_⟩
  simp only [List.cons_append, List.append_assoc, build, Frame.start]
  rw [h]
  simp [build, Frame.push, Kind.wrap, Frame.finish, altL, Frame.quest, Frame.repeated]

end CE.Regex
