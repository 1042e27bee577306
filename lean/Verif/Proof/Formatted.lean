import Verif.Spec.Formatted
import Verif.Proof.Verbose
import Verif.Prop.Segments

/-!
# Formatted regexes
-/

namespace CE.Verbose
open Spec Regex Spec.Pat

/-- The tokens of a part. -/
def partRaw : Part → List RTok
  | .piece p => [.tok (pieceHead p) (pieceTok p)]
  | .quant q lazily => .tok (quantTok q).1 (quantTok q).2 :: if lazily then [.tok '?' .quest] else []
  | .opening o => [.tok '(' (openTok o)]
  | .closing => [.tok ')' .close]
  | .bar => [.tok '|' .bar]
  | .first => [.tok '^' .bol]
  | .last => [.tok '$' .eol]

def partsRaw (ps : List Part) : List RTok := (ps.map partRaw).flatten

theorem rawOne_opening {o : Opening} (hv : ∀ n, o.name = some n → LegalName n) {r : List Char}
    (hr : o = .number → r.head? ≠ some '?') : rawOne '(' (o.write ++ r) = .ok (.tok '(' (openTok o), r) := by
  cases o with
  | number =>
    have := hr rfl
    refine rawOne_of ?_
    cases r with
    | nil => rfl
    | cons c r => exact groupOpen_other _ (by simpa using this)
  | noCapture => rfl
  | named b n =>
    have hl := hv n rfl
    refine rawOne_of ?_
    cases b with
    | true =>
      have e : Opening.write (.named true n) ++ r = '?' :: 'P' :: '<' :: (n ++ '>' :: r) := by simp [Opening.write]
      rw [e]
      simp only [lexOne, groupOpen, capName_valid (legal_valid hl)]
      rfl
    | false =>
      have e : Opening.write (.named false n) ++ r = '?' :: '<' :: (n ++ '>' :: r) := by simp [Opening.write]
      rw [e]
      exact groupOpen_name hl _

/-- With the flag `x`, a token is read as without if nothing in it could be skipped. -/
theorem one_on {c : Char} {r q : List Char} {t : Tok} (h : rawOne c r = .ok (.tok c t, q)) (ha : astray c t r q = false) :
    one true c r = .ok (.tok c t, q) := by
  rcases rawOne_cases h with ⟨q', rfl, rfl, hf, hq⟩ | ⟨hf, u, hu, e⟩
  · obtain ⟨l, colon, hr, he, hk, e⟩ := Regex.flagsTok_cases hq
    cases colon <;> cases e
  · cases e
    simp [one, hf, hu, ha]

theorem not_skippable {c : Char} (h : ¬ White c ∧ c ≠ '#') : skippable c = false := by
  cases hs : skippable c with
  | false => rfl
  | true =>
    simp only [skippable, Bool.or_eq_true, beq_iff_eq, blank_iff] at hs
    rcases hs with hs | hs
    · exact absurd hs h.1
    · exact absurd hs h.2

theorem skip_head {c : Char} (h : ¬ White c ∧ c ≠ '#') (r : List Char) : skip true (c :: r) = c :: r := by
  have hb : isBlank c = false := by
    cases hb : isBlank c with
    | false => rfl
    | true => exact absurd ((blank_iff c).1 hb) h.1
  simp [skip, skipBlank, hb, h.2]

/-- How many groups are open after some parts. -/
def deep : Nat → List Part → Option Nat
  | n, [] => some n
  | n, .opening _ :: ps => deep (n + 1) ps
  | 0, .closing :: _ => none
  | n + 1, .closing :: ps => deep n ps
  | n, _ :: ps => deep n ps

theorem skip_quest {r : List Char} (h : (skip true r).head? ≠ some '?') : r.head? ≠ some '?' := by
  cases r with
  | nil => simp
  | cons c r =>
    rintro hc
    simp only [List.head?_cons, Option.some.injEq] at hc
    subst hc
    rw [skip_head (by decide)] at h
    exact h rfl

theorem piece_head {p : Pat.Piece} (hv : p.Valid) : pieceHead p ≠ '?' := by
  intro h
  obtain ⟨t, h1, h2⟩ := rawOne_piece hv []
  rw [h, List.append_nil] at h2
  have h3 : rawOne '?' t = .ok (.tok '?' .quest, t) := rfl
  rw [h3] at h2
  cases p <;> simp [pieceTok] at h2

theorem compact_head {c : Char} {t : List Char} (h : Compact (c :: t)) : ¬ White c ∧ c ≠ '#' := by
  by_cases hc : c = '\\'
  · subst hc; decide
  · unfold Compact at h
    split at h
    · next e => cases e; exact absurd rfl hc
    · exact h c (by simp)

theorem compact_tail {c : Char} {t : List Char} (h : Compact (c :: t)) : (t.drop (if c == '\\' then 1 else 0)).any skippable = false := by
  rw [List.any_eq_false]
  intro d hd
  rw [not_skippable]
  · simp
  · by_cases hc : c = '\\'
    · subst hc
      cases t with
      | nil => simp at hd
      | cons e t => exact h d (by simpa using hd)
    · unfold Compact at h
      split at h
      · next e => cases e; exact absurd rfl hc
      · rw [if_neg (by simpa using hc)] at hd
        exact h d (by simp at hd; simp [hd])

theorem legal_white {n : List Char} (h : LegalName n) : ∀ d ∈ n, ¬ White d ∧ d ≠ '#' := by
  have key : ∀ d : Char, (d.isAlpha ∨ d.isDigit ∨ d ∈ ['_', '.', '[', ']']) → ¬ White d ∧ d ≠ '#' := by
    intro d hd
    simp only [Char.isAlpha, Char.isUpper, Char.isLower, Char.isDigit, UInt32.le_iff_toNat_le, ge_iff_le, Bool.or_eq_true, Bool.and_eq_true, decide_eq_true_eq,
      List.mem_cons, List.not_mem_nil, or_false] at hd
    have hk : ∀ n : Nat, (65 ≤ n ∧ n ≤ 90 ∨ 97 ≤ n ∧ n ≤ 122) ∨ 48 ≤ n ∧ n ≤ 57 → d.toNat = n → ¬ White d ∧ d ≠ '#' := by
      intro n hn hd
      refine ⟨?_, ?_⟩
      · simp only [White, List.mem_cons, List.not_mem_nil, or_false, hd]; omega
      · rintro rfl; revert hd; show (35 = n → False); omega
    rcases hd with hd | hd | rfl | rfl | rfl | rfl
    · exact hk d.toNat (.inl (by first | exact hd | exact hd.symm)) rfl
    · exact hk d.toNat (.inr hd) rfl
    all_goals decide
  intro d hd
  cases n with
  | nil => exact h.elim
  | cons c r =>
    rcases List.mem_cons.1 hd with rfl | hd
    · exact key _ (by rcases h.1 with h | rfl; · exact .inl h
                      · exact .inr (.inr (by decide)))
    · exact key d (h.2 d hd)

/-- How a part begins. -/
theorem part_head {p : Part} (hv : p.Valid) : ∃ c t, p.write = c :: t ∧ (¬ White c ∧ c ≠ '#') ∧ (p.asks = false → c ≠ '?') := by
  cases p with
  | piece p =>
    obtain ⟨t, h1, -⟩ := rawOne_piece hv.1 []
    have h2 := hv.2
    rw [h1] at h2
    exact ⟨_, t, h1, compact_head h2, fun _ => piece_head hv.1⟩
  | quant q l =>
    cases q with
    | optional => exact ⟨'?', _, rfl, by decide, fun h => absurd h (by simp [Part.asks])⟩
    | any => exact ⟨'*', _, rfl, by decide, fun _ => by decide⟩
    | some => exact ⟨'+', _, rfl, by decide, fun _ => by decide⟩
    | exactly m => exact ⟨'{', _, rfl, by decide, fun _ => by decide⟩
    | atLeast m => exact ⟨'{', _, rfl, by decide, fun _ => by decide⟩
    | between m n => exact ⟨'{', _, rfl, by decide, fun _ => by decide⟩
  | opening o => exact ⟨'(', _, rfl, by decide, fun _ => by decide⟩
  | closing => exact ⟨')', _, rfl, by decide, fun _ => by decide⟩
  | bar => exact ⟨'|', _, rfl, by decide, fun _ => by decide⟩
  | first => exact ⟨'^', _, rfl, by decide, fun _ => by decide⟩
  | last => exact ⟨'$', _, rfl, by decide, fun _ => by decide⟩

theorem consumed (t r : List Char) : (t ++ r).take ((t ++ r).length - r.length) = t := by simp

/-- The tokens of a part, without the flag. -/
theorem lexRaw_part {p : Part} (hv : p.Valid) {r : List Char} (hr : p.touchy = true → r.head? ≠ some '?') :
    lexRaw (p.write ++ r) = putRaw (partRaw p) (lexRaw r) := by
  cases p with
  | piece p =>
    obtain ⟨t, h1, h2⟩ := rawOne_piece hv.1 r
    simp only [Part.write, h1]
    exact lexRaw_cons h2
  | quant q l =>
    have hq : ∀ r, lexRaw (q.write ++ r) = putRaw [.tok (quantTok q).1 (quantTok q).2] (lexRaw r) := fun r => by
      obtain ⟨t, h1, h2⟩ := rawOne_quant hv r
      rw [h1]
      exact lexRaw_cons h2
    cases l with
    | false => simpa [Part.write, partRaw] using hq r
    | true =>
      have hz : lexRaw ('?' :: r) = putRaw [.tok '?' .quest] (lexRaw r) := lexRaw_cons rfl
      simp [Part.write, partRaw, hq, hz, putRaw_putRaw]
  | opening o => exact lexRaw_cons (rawOne_opening hv fun ho => hr (by rw [ho]; rfl))
  | closing => exact lexRaw_cons rfl
  | bar => exact lexRaw_cons rfl
  | first => exact lexRaw_cons rfl
  | last => exact lexRaw_cons rfl

/-- The tokens of a part, with the flag. -/
theorem run_part {p : Part} (hv : p.Valid) {r : List Char} (hr : p.touchy = true → (skip true r).head? ≠ some '?') (n m : Nat)
    (hd : deep n [p] = some m) (st : List Bool) :
    run true (List.replicate n true ++ st) (p.write ++ r) = putRaw (partRaw p) (run true (List.replicate m true ++ st) r) := by
  cases p with
  | piece p =>
    obtain ⟨t, h1, h2⟩ := rawOne_piece hv.1 r
    have h3 := hv.2
    rw [h1] at h3
    have hm : n = m := by cases n <;> simpa [deep] using hd
    subst hm
    simp only [Part.write, h1]
    have ha : ∀ u : Tok, pieceTok p = u → astray (pieceHead p) (pieceTok p) (t ++ r) r = false := fun u hu => by
      have := compact_tail h3
      cases p <;> simpa only [pieceTok, astray, consumed] using this
    rw [List.cons_append, run_cons (skip_head (compact_head h3) _) (one_on h2 (ha _ rfl))]
    cases p <;> rfl
  | quant q l =>
    have hm : n = m := by cases n <;> simpa [deep] using hd
    subst hm
    have hq : ∀ r, (skip true r).head? ≠ some '?' ∨ r.head? = some '?' → run true (List.replicate n true ++ st) (q.write ++ r) =
        putRaw [.tok (quantTok q).1 (quantTok q).2] (run true (List.replicate n true ++ st) r) := fun r hr => by
      obtain ⟨t, h1, h2⟩ := rawOne_quant hv r
      have ha : (r.head?.any skippable && (skipBlank false r).head? == some '?') = false := by
        rcases hr with hr | hr
        · have : ((skipBlank false r).head? == some '?') = false := by simpa [skip] using hr
          rw [this, Bool.and_false]
        · rw [hr]; rfl
      have hb : ¬ White (quantTok q).1 ∧ (quantTok q).1 ≠ '#' := by cases q <;> (simp only [quantTok]; decide)
      rw [h1, List.cons_append, run_cons (skip_head hb _) (one_on h2 (by cases q <;> exact ha))]
      cases q <;> rfl
    cases l with
    | false => simpa [Part.write, partRaw] using hq r (.inl (hr rfl))
    | true =>
      have h1 := hr rfl
      have hz : run true (List.replicate n true ++ st) ('?' :: r) = putRaw [.tok '?' .quest] (run true (List.replicate n true ++ st) r) := by
        rw [run_cons (x := true) (c := '?') (r := r) (t := .tok '?' .quest) (q := r) (skip_head (by decide) _) (one_on rfl ?_)]
        · rfl
        · have : ((skipBlank false r).head? == some '?') = false := by simpa [skip] using h1
          simp only [astray, this, Bool.and_false]
      simp only [Part.write, if_true, List.append_assoc, List.cons_append, List.nil_append]
      rw [hq ('?' :: r) (.inr rfl), hz, putRaw_putRaw]
      rfl
  | opening o =>
    have hm : n + 1 = m := by simpa [deep] using hd
    subst hm
    have h1 := rawOne_opening hv (r := r) fun ho => skip_quest (hr (by rw [ho]; rfl))
    have ha : astray '(' (openTok o) (o.write ++ r) r = false := by
      cases o with
      | number =>
        have h2 := hr rfl
        simp only [openTok, astray, Opening.write, List.nil_append]
        simpa [skip] using h2
      | noCapture => simp only [openTok, astray, consumed]; decide
      | named b k =>
        have h2 := legal_white (hv k rfl)
        have h3 : k.any skippable = false := by
          rw [List.any_eq_false]
          intro d hd
          rw [not_skippable (h2 d hd)]
          simp
        simp only [openTok, astray, consumed]
        cases b <;> simp [Opening.write, h3] <;> decide
    show run true (List.replicate n true ++ st) ('(' :: (o.write ++ r)) = _
    rw [run_cons (skip_head (by decide) _) (one_on h1 ha)]
    cases o <;> rfl
  | closing =>
    cases n with
    | zero => simp [deep] at hd
    | succ n =>
      have hm : n = m := by simpa [deep] using hd
      subst hm
      exact run_cons (skip_head (by decide) _) (one_on (q := r) (t := .close) rfl (by simp [astray]))
  | bar =>
    have hm : n = m := by cases n <;> simpa [deep] using hd
    subst hm
    exact run_cons (skip_head (by decide) _) (one_on (q := r) (t := .bar) rfl (by simp [astray]))
  | first =>
    have hm : n = m := by cases n <;> simpa [deep] using hd
    subst hm
    exact run_cons (skip_head (by decide) _) (one_on (q := r) (t := .bol) rfl (by simp [astray]))
  | last =>
    have hm : n = m := by cases n <;> simpa [deep] using hd
    subst hm
    exact run_cons (skip_head (by decide) _) (one_on (q := r) (t := .eol) rfl (by simp [astray]))

/-! ## Formatted parts -/

theorem deep_cons (n : Nat) (p : Part) (ps : List Part) : deep n (p :: ps) = (deep n [p]).bind fun m => deep m ps := by
  cases p <;> cases n <;> rfl

theorem formats_head {ps : List Part} {b : List Char} {k : Bool} (h : Formats ps b k) (hp : ∀ q ∈ ps.head?, q.asks = false)
    {s : List Char} (hs : k = true → (skip true s).head? ≠ some '?') (hn : k = false → '\n' ∉ s) :
    (skip true (b ++ s)).head? ≠ some '?' := by
  induction h with
  | nil => exact hs rfl
  | white hc _ ih =>
    rw [List.cons_append, skip_white hc]
    exact ih hp hs hn
  | @part p ps b k hv _ _ ih =>
    obtain ⟨c, t, h1, h2, h3⟩ := part_head hv
    rw [h1, List.cons_append, List.cons_append, skip_head h2]
    have := h3 (hp p rfl)
    simpa using this
  | @comment w ps b k hw _ ih =>
    have : skip true ('#' :: w ++ '\n' :: b ++ s) = skip true (b ++ s) := by
      simp only [List.cons_append, List.append_assoc]
      rw [skip_hash, skip_comment hw]
      rfl
    rw [this]
    exact ih hp hs hn
  | @last w hw =>
    have : skip true ('#' :: w ++ s) = [] := by
      rw [List.cons_append, skip_hash, skip_last (by simp [hw, hn rfl])]
    rw [this]
    simp

theorem run_formats {ps : List Part} {b : List Char} {k : Bool} (h : Formats ps b k) (st : List Bool) {s : List Char}
    (hs : k = true → (skip true s).head? ≠ some '?') (hn : k = false → '\n' ∉ s) : ∀ n m, deep n ps = some m →
    run true (List.replicate n true ++ st) (b ++ s) =
      putRaw (partsRaw ps) (if k then run true (List.replicate m true ++ st) s else .ok []) := by
  induction h with
  | nil =>
    intro n m hd
    cases hd
    exact (putRaw_nil _).symm
  | white hc _ ih =>
    intro n m hd
    rw [List.cons_append, run_skip (skip_white hc _)]
    exact ih hs hn n m hd
  | @part p ps b k hv ht hf ih =>
    intro n m hd
    rw [deep_cons] at hd
    obtain ⟨i, h1, h2⟩ := Option.bind_eq_some_iff.1 hd
    rw [List.append_assoc, run_part hv (fun h => formats_head hf (ht h) hs hn) n i h1, ih hs hn i m h2, putRaw_putRaw]
    rfl
  | @comment w ps b k hw _ ih =>
    intro n m hd
    have : skip true ('#' :: w ++ '\n' :: b ++ s) = skip true (b ++ s) := by
      simp only [List.cons_append, List.append_assoc]
      rw [skip_hash, skip_comment hw]
      rfl
    rw [run_skip this]
    exact ih hs hn n m hd
  | @last w hw =>
    intro n m hd
    have : skip true ('#' :: w ++ s) = [] := by
      rw [List.cons_append, skip_hash, skip_last (by simp [hw, hn rfl])]
    exact run_nil this

theorem parts_head {ps : List Part} {b : List Char} {k : Bool} (h : Formats ps b k) (hp : ∀ q ∈ ps.head?, q.asks = false)
    {s : List Char} (hs : s.head? ≠ some '?') : (writeParts ps ++ s).head? ≠ some '?' := by
  induction h with
  | nil => exact hs
  | white _ _ ih => exact ih hp
  | @part p ps b k hv _ _ ih =>
    obtain ⟨c, t, h1, -, h3⟩ := part_head hv
    have := h3 (hp p rfl)
    simpa [writeParts, h1] using this
  | comment _ _ ih => exact ih hp
  | last => exact hs

theorem lexRaw_parts {ps : List Part} {b : List Char} {k : Bool} (h : Formats ps b k) {s : List Char} (hs : s.head? ≠ some '?') :
    lexRaw (writeParts ps ++ s) = putRaw (partsRaw ps) (lexRaw s) := by
  induction h with
  | nil => exact (putRaw_nil _).symm
  | white _ _ ih => exact ih
  | @part p ps b k hv ht hf ih =>
    have e : writeParts (p :: ps) ++ s = p.write ++ (writeParts ps ++ s) := by simp [writeParts]
    rw [e, lexRaw_part hv fun h => parts_head hf (ht h) hs, ih, putRaw_putRaw]
    rfl
  | comment _ _ ih => exact ih
  | last => exact (putRaw_nil _).symm

/-! ## Groups -/

theorem depth_under (f : Flags) (c : Char) (t : Tok) (n : Nat) (ts : List Tok) (h : t ≠ .group ∧ t ≠ .close ∧ ∀ n, t ≠ .capture n) :
    depth n (t.under f c :: ts) = depth n ts := by
  have : ∀ u : Tok, (u ≠ .group ∧ u ≠ .close ∧ ∀ n, u ≠ .capture n) → depth n (u :: ts) = depth n ts := by
    intro u hu
    cases u <;> cases n <;> simp_all [depth]
  refine this _ ?_
  cases t <;> first
    | exact h
    | (simp only [Tok.under]; split <;> first | (simp; done) | (split <;> simp))

/-- A token outside of groups. -/
theorem resolve_other {t : Tok} (h : t ≠ .group ∧ t ≠ .close ∧ ∀ n, t ≠ .capture n) (f : Flags) (fs : List Flags) (c : Char) (ts : List RTok) :
    resolve f fs (.tok c t :: ts) = prep [t.under f c] (resolve f fs ts) := by
  rw [resolve_tok]
  cases t <;> first | rfl | simp at h

theorem depth_parts : ∀ (ps : List Part) (f : Flags) (fs : List Flags) (vs : List Tok) (n : Nat), resolve f fs (partsRaw ps) = .ok vs →
    depth n vs = deep n ps
  | [], f, fs, vs, n, h => by cases h; cases n <;> rfl
  | p :: ps, f, fs, vs, n, h => by
    have other : ∀ c t us, (t ≠ .group ∧ t ≠ .close ∧ ∀ n, t ≠ .capture n) → resolve f fs (.tok c t :: us) = .ok vs →
        ∃ ws, resolve f fs us = .ok ws ∧ ∀ n, depth n vs = depth n ws := by
      intro c t us ht h
      rw [resolve_other ht] at h
      obtain ⟨ws, hw, rfl⟩ := prep_eq_ok h
      exact ⟨ws, hw, fun n => depth_under f c t n ws ht⟩
    cases p with
    | piece p =>
      obtain ⟨ws, h1, h2⟩ := other _ _ _ (by cases p <;> simp [pieceTok]) h
      rw [h2, depth_parts ps f fs ws n h1]
      cases n <;> rfl
    | quant q l =>
      have hq : (quantTok q).2 ≠ .group ∧ (quantTok q).2 ≠ .close ∧ ∀ n, (quantTok q).2 ≠ .capture n := by cases q <;> simp [quantTok]
      cases l with
      | false =>
        obtain ⟨ws, h1, h2⟩ := other _ _ _ hq h
        rw [h2, depth_parts ps f fs ws n h1]
        cases n <;> rfl
      | true =>
        rw [show partsRaw (.quant q true :: ps) = .tok (quantTok q).1 (quantTok q).2 :: .tok '?' .quest :: partsRaw ps from rfl,
          resolve_other hq] at h
        obtain ⟨us, h1, rfl⟩ := prep_eq_ok h
        rw [resolve_other (by simp)] at h1
        obtain ⟨ws, h3, rfl⟩ := prep_eq_ok h1
        rw [List.singleton_append, depth_under _ _ _ _ _ hq, List.singleton_append, depth_under _ _ _ _ _ (by simp), depth_parts ps f fs ws n h3]
        cases n <;> rfl
    | opening o =>
      rw [show partsRaw (.opening o :: ps) = .tok '(' (openTok o) :: partsRaw ps from rfl, resolve_tok] at h
      obtain ⟨ws, h1, rfl⟩ := prep_eq_ok h
      cases o <;> (
        simp only [openTok, RTok.step] at h1 ⊢
        have := depth_parts ps _ _ ws (n + 1) h1
        simpa [depth, deep] using this)
    | closing =>
      rw [show partsRaw (.closing :: ps) = .tok ')' .close :: partsRaw ps from rfl, resolve_tok] at h
      obtain ⟨ws, h1, rfl⟩ := prep_eq_ok h
      cases n with
      | zero => rfl
      | succ n => exact depth_parts ps _ _ ws n h1
    | bar =>
      obtain ⟨ws, h1, h2⟩ := other _ _ _ (by simp) h
      rw [h2, depth_parts ps f fs ws n h1]
      cases n <;> rfl
    | first =>
      obtain ⟨ws, h1, h2⟩ := other _ _ _ (by simp) h
      rw [h2, depth_parts ps f fs ws n h1]
      cases n <;> rfl
    | last =>
      obtain ⟨ws, h1, h2⟩ := other _ _ _ (by simp) h
      rw [h2, depth_parts ps f fs ws n h1]
      cases n <;> rfl

/-- A repetition operator is not the first of such tokens. -/
theorem repeats_parts {ps : List Part} (h : Headed ps) (us : List RTok) (hu : repeats us = false) : repeats (partsRaw ps ++ us) = false := by
  cases ps with
  | nil => exact hu
  | cons p ps =>
    have := h p rfl
    cases p with
    | quant q l => simp [Part.isQuant] at this
    | piece p => cases p <;> rfl
    | opening o => cases o <;> rfl
    | _ => rfl

end CE.Verbose
