import Verif.Proof.Pieces

/-! # Closed form of `alternation` -/

namespace CE
open Spec

/-- Branches each preceded by `/`. -/
def slashed (bs : List (List Piece)) : List Char := (bs.map (fun b => '/' :: renderPieces b)).flatten

@[simp] theorem slashed_nil : slashed [] = [] := rfl
@[simp] theorem slashed_cons (b : List Piece) (bs) : slashed (b :: bs) = '/' :: renderPieces b ++ slashed bs := by
  simp [slashed]

theorem renderBranches_cons (b : List Piece) (bs) : renderBranches (b :: bs) = renderPieces b ++ slashed bs := by
  induction bs generalizing b with
  | nil => simp [renderBranches]
  | cons b' bs ih => simp [renderBranches, ih]

/-- One complete branch read from `cs`. -/
def ReadsBranch (cs : List Char) (b : List Piece) (v : List Char) : Prop :=
  Reads cs b v ∧ endsBranch v ∧ b ≠ []

/-- Further branches, each after a `/`. -/
inductive ReadsBr : List Char → List (List Piece) → List Char → Prop
  | nil (cs) : ReadsBr cs [] cs
  | cons (r b v bs rest) : ReadsBranch r b v → ReadsBr v bs rest → ReadsBr ('/' :: r) (b :: bs) rest

/-- A non-empty list of branches. -/
def ReadsBranches (cs : List Char) (bs : List (List Piece)) (rest : List Char) : Prop :=
  ∃ b bs' v, bs = b :: bs' ∧ ReadsBranch cs b v ∧ ReadsBr v bs' rest

theorem endsBranch_stop {cs : List Char} (h : endsBranch cs) :
    (erun isWithoutWhitespace cs).1 = [] ∧ cs.head? ≠ some '\\' := by
  constructor
  · apply erun_stop class_text _ (by decide)
    intro c hc
    have := h c hc
    simp [textStops]; grind
  · intro hc; have := h _ hc; simp at this

theorem pieceFail_of_ends {s : Span} (h : endsBranch s.frag) : pieceFail s = none :=
  (pieceFail_none (pieceOk_none_of_ends h)).2 h

theorem ReadsBranch.valid {cs b v} (h : ReadsBranch cs b v) : ValidPieces b ∧ b ≠ [] := ⟨h.1.valid, h.2.2⟩

theorem ReadsBranch.complete {b : List Piece} (hb : ValidPieces b) (hne : b ≠ []) {v : List Char}
    (hv : endsBranch v) : ReadsBranch (renderPieces b ++ v) b v :=
  ⟨.complete hb v (fun _ _ _ => endsBranch_stop hv), hv, hne⟩

theorem ReadsBr.append {cs bs rest} (h : ReadsBr cs bs rest) : cs = slashed bs ++ rest := by
  induction h with
  | nil => simp
  | cons r b v bs rest hb _ ih => rw [hb.1.append, ih]; simp

theorem ReadsBr.ends {cs bs rest} (h : ReadsBr cs bs rest) (hc : endsBranch cs) : endsBranch rest := by
  induction h with
  | nil => exact hc
  | cons r b v bs rest hb _ ih => exact ih hb.2.1

theorem ReadsBr.valid {cs bs rest} (h : ReadsBr cs bs rest) : ∀ b ∈ bs, ValidPieces b ∧ b ≠ [] := by
  induction h with
  | nil => simp
  | cons r b v bs rest hb _ ih =>
    intro b' hb'
    rcases List.mem_cons.1 hb' with rfl | hb'
    · exact hb.valid
    · exact ih b' hb'

theorem endsBranch_slash (r : List Char) : endsBranch ('/' :: r) := by
  intro c hc; simp at hc; simp [← hc]

theorem endsBranch_slashed (bs) {rest : List Char} (h : endsBranch rest) : endsBranch (slashed bs ++ rest) := by
  cases bs with
  | nil => simpa using h
  | cons b bs => simpa using endsBranch_slash _

theorem ReadsBr.complete {bs : List (List Piece)} (hb : ∀ b ∈ bs, ValidPieces b ∧ b ≠ []) {rest : List Char}
    (hr : endsBranch rest) : ReadsBr (slashed bs ++ rest) bs rest := by
  induction bs with
  | nil => exact .nil _
  | cons b bs ih =>
    have h := hb b (by simp)
    have h2 : ReadsBranch (renderPieces b ++ (slashed bs ++ rest)) b (slashed bs ++ rest) :=
      .complete h.1 h.2 (endsBranch_slashed bs hr)
    have := ReadsBr.cons _ _ _ bs rest h2 (ih (fun b' hb' => hb b' (by simp [hb'])))
    simpa using this

theorem ReadsBranches.append {cs bs rest} (h : ReadsBranches cs bs rest) : cs = renderBranches bs ++ rest := by
  obtain ⟨b, bs', v, rfl, h1, h2⟩ := h
  rw [renderBranches_cons, h1.1.append, h2.append]; simp

theorem ReadsBranches.valid {cs bs rest} (h : ReadsBranches cs bs rest) :
    (∀ b ∈ bs, ValidPieces b ∧ b ≠ []) ∧ bs ≠ [] ∧ endsBranch rest := by
  obtain ⟨b, bs', v, rfl, h1, h2⟩ := h
  refine ⟨?_, by simp, h2.ends h1.2.1⟩
  intro b' hb'
  rcases List.mem_cons.1 hb' with rfl | hb'
  · exact h1.valid
  · exact h2.valid b' hb'

theorem ReadsBranches.complete {bs : List (List Piece)} (hb : ∀ b ∈ bs, ValidPieces b ∧ b ≠ []) (hne : bs ≠ [])
    {rest : List Char} (hr : endsBranch rest) : ReadsBranches (renderBranches bs ++ rest) bs rest := by
  cases bs with
  | nil => exact absurd rfl hne
  | cons b bs =>
    have h := hb b (by simp)
    refine ⟨b, bs, slashed bs ++ rest, rfl, ?_, .complete (fun b' hb' => hb b' (by simp [hb'])) hr⟩
    rw [renderBranches_cons, List.append_assoc]
    exact .complete h.1 h.2 (endsBranch_slashed bs hr)

/-! ## Locations -/

def locateSlashed (s : Span) (pre : List Char) : List (List Piece) → Alternation
  | [] => []
  | b :: bs => locatePieces s (pre ++ ['/']) b :: locateSlashed s (pre ++ '/' :: renderPieces b) bs

theorem locateBranches_cons (s : Span) (pre) (b : List Piece) (bs) :
    locateBranches s pre (b :: bs) = locatePieces s pre b :: locateSlashed s (pre ++ renderPieces b) bs := by
  induction bs generalizing pre b with
  | nil => simp [locateBranches, locateSlashed]
  | cons b' bs ih =>
    rw [locateBranches, ih]
    simp [locateSlashed]

theorem locateSlashed_sub (s : Span) (pre f : List Char) (bs) (pre' : List Char) :
    locateSlashed (s.sub pre f) pre' bs = locateSlashed s (pre ++ pre') bs := by
  induction bs generalizing pre' with
  | nil => rfl
  | cons b bs ih => simp [locateSlashed, locatePieces_sub, ih]

/-! ## The loop of `separated_list1` -/

theorem many1_branch (s : Span) {b v} (h : ReadsBranch s.frag b v) :
    many1 alternative s = .ok (s.sub (renderPieces b) v, locatePieces s [] b) := by
  rw [many1_eq s h.1 (pieceOk_none_of_ends h.2.1), pieceFail_of_ends (by simpa using h.2.1)]
  simp [h.2.2]

theorem many1_none (s : Span) (h : endsBranch s.frag) :
    many1 alternative s = .error (.error (.other s .many1)) := by
  rw [many1_eq s (.nil _) (pieceOk_none_of_ends h)]
  simp [renderPieces, pieceFail_of_ends h]

theorem many1_fail (s : Span) {b v e} (h : Reads s.frag b v) (hn : pieceOk v = none)
    (hf : pieceFail (s.sub (renderPieces b) v) = some e) : many1 alternative s = .error (.failure e) := by
  rw [many1_eq s h hn, hf]

/-- What stops the loop at `rest`: no `/`, or a `/` without a branch after it. -/
def brStop (rest : List Char) : Prop :=
  rest.head? ≠ some '/' ∨ ∃ r, rest = '/' :: r ∧ endsBranch r

theorem blen_branch {r b v} (h : ReadsBranch r b v) : blen v < blen ('/' :: r) := by
  rw [h.1.append]; simp; omega

theorem sepLoop_ok (s : Span) {bs rest} (h : ReadsBr s.frag bs rest) (hr : brStop rest) (fuel : Nat)
    (hf : blen s.frag < fuel) :
    sepLoop (tag ['/']) (many1 alternative) fuel s = .ok (s.sub (slashed bs) rest, locateSlashed s [] bs) := by
  induction fuel generalizing s bs with
  | zero => omega
  | succ fuel ih =>
    unfold sepLoop
    generalize hcs : s.frag = cs at h
    cases h with
    | nil =>
      have hs : s.sub (slashed []) rest = s := by rw [← hcs]; simp
      rw [hs]
      rcases hr with hr | ⟨r, rfl, hr⟩
      · rw [tag1_ne '/' s (by rw [hcs]; exact hr)]
        rfl
      · rw [tag1_cons '/' r s hcs]
        simp only
        rw [many1_none _ (by simpa using hr)]
        rfl
    | cons r b v bs _ hb hbs =>
      rw [tag1_cons '/' r s hcs]
      simp only
      rw [many1_branch (s.sub ['/'] r) (b := b) (v := v) (by simpa using hb)]
      have hlt := blen_branch hb
      simp only [Span.sub_sub]
      have hne : ¬ (s.sub (['/'] ++ renderPieces b) v).inputLen = s.inputLen := by
        rw [Span.sub_inputLen]; show ¬ blen v = blen s.frag; rw [hcs]; omega
      rw [if_neg hne, ih (s.sub _ v) (by simpa using hbs) (by rw [hcs] at hf; rw [Span.sub_frag]; omega)]
      simp [locateSlashed, locatePieces_sub, locateSlashed_sub]

theorem sepLoop_fail (s : Span) {bs r b v e} (h : ReadsBr s.frag bs ('/' :: r)) (hb : Reads r b v)
    (hn : pieceOk v = none) (he : pieceFail (s.sub (slashed bs ++ '/' :: renderPieces b) v) = some e) (fuel : Nat)
    (hf : blen s.frag < fuel) :
    sepLoop (tag ['/']) (many1 alternative) fuel s = .error (.failure e) := by
  induction fuel generalizing s bs with
  | zero => omega
  | succ fuel ih =>
    unfold sepLoop
    generalize hcs : s.frag = cs at h
    generalize hrr : '/' :: r = rr at h
    cases h with
    | nil =>
      subst hrr
      rw [tag1_cons '/' r s hcs]
      simp only
      rw [many1_fail (s.sub ['/'] r) (b := b) (v := v) (e := e) (by simpa using hb) hn (by simpa using he)]
    | cons r' b' v' bs _ hb' hbs =>
      subst hrr
      rw [tag1_cons '/' r' s hcs]
      simp only
      rw [many1_branch (s.sub ['/'] r') (b := b') (v := v') (by simpa using hb')]
      have hlt := blen_branch hb'
      simp only [Span.sub_sub]
      have hne : ¬ (s.sub (['/'] ++ renderPieces b') v').inputLen = s.inputLen := by
        rw [Span.sub_inputLen]; show ¬ blen v' = blen s.frag; rw [hcs]; omega
      rw [if_neg hne, ih (s.sub _ v') (bs := bs) (by simpa using hbs) (by simpa using he)
        (by rw [hcs] at hf; rw [Span.sub_frag]; omega)]

/-- Any input can be read as branches up to a stop or a failing piece. -/
theorem exists_readsBr (s : Span) (hc : endsBranch s.frag) : ∃ bs rest, ReadsBr s.frag bs rest ∧
    (brStop rest ∨ ∃ r b v e, rest = '/' :: r ∧ Reads r b v ∧ pieceOk v = none ∧
      pieceFail (s.sub (slashed bs ++ '/' :: renderPieces b) v) = some e) := by
  generalize hn : blen s.frag = n
  induction n using Nat.strongRecOn generalizing s with
  | ind n ih =>
    by_cases hh : s.frag.head? = some '/'
    · obtain ⟨r, hr⟩ := eq_cons_of_head? hh
      obtain ⟨b, v, h1, h2⟩ := exists_reads r
      cases hp : pieceFail (s.sub ('/' :: renderPieces b) v) with
      | some e => exact ⟨[], s.frag, .nil _, .inr ⟨r, b, v, e, hr, h1, h2, by simpa using hp⟩⟩
      | none =>
        have hv := (pieceFail_none (by simpa using h2)).1 hp
        simp only [Span.sub_frag] at hv
        by_cases hb : b = []
        · subst hb
          cases h1
          exact ⟨[], s.frag, .nil _, .inl (.inr ⟨r, hr, hv⟩)⟩
        · have hbr : ReadsBranch r b v := ⟨h1, hv, hb⟩
          have := blen_branch hbr
          obtain ⟨bs, rest, h3, h4⟩ := ih (blen v) (by rw [← hn, hr]; exact this)
            (s.sub ('/' :: renderPieces b) v) (by simpa using hv) (by simp)
          refine ⟨b :: bs, rest, by rw [hr]; exact .cons _ _ _ _ _ hbr (by simpa using h3), ?_⟩
          simpa using h4
    · exact ⟨[], s.frag, .nil _, .inl (.inl hh)⟩

/-! ## `alternation` -/

theorem sepList_ok (s : Span) {bs rest} (h : ReadsBranches s.frag bs rest) (hr : brStop rest) :
    separatedList1 (tag ['/']) (many1 alternative) s = .ok (s.sub (renderBranches bs) rest, locateBranches s [] bs) := by
  obtain ⟨b, bs', v, rfl, h1, h2⟩ := h
  unfold separatedList1
  rw [many1_branch s h1]
  simp only
  rw [sepLoop_ok (s.sub (renderPieces b) v) (by simpa using h2) hr _ (by simp)]
  simp [renderBranches_cons, locateBranches_cons, locateSlashed_sub]

/-- Only-optional branches. -/
def onlyOpt (bs : List (List Piece)) : Bool := bs.any (fun b => b.all (fun q => !q.isText))

theorem isOptional_locate (s pre) (q : Piece) : (q.locate s pre).isOptional = !q.isText := by
  cases q <;> rfl

theorem locatePieces_all (s pre) (b : List Piece) :
    (locatePieces s pre b).all Alternative.isOptional = b.all (fun q => !q.isText) := by
  induction b generalizing pre with
  | nil => rfl
  | cons q b ih => simp only [locatePieces, List.all_cons, ih, isOptional_locate]

theorem containsOnlyOptional_locate (s pre) (bs : List (List Piece)) :
    Alternation.containsOnlyOptional (locateBranches s pre bs) = onlyOpt bs := by
  unfold Alternation.containsOnlyOptional onlyOpt
  induction bs generalizing pre with
  | nil => rfl
  | cons b bs ih => simp only [locateBranches, List.any_cons, ih, locatePieces_all]

theorem spanLen_pieces (s pre) (b : List Piece) :
    ((locatePieces s pre b).map Alternative.spanLen).sum = blen (renderPieces b) := by
  induction b generalizing pre with
  | nil => simp [locatePieces, renderPieces]
  | cons q b ih =>
    simp only [locatePieces, List.map_cons, List.sum_cons, ih, renderPieces_cons, blen_append]
    cases q <;> simp [Piece.locate, Alternative.spanLen, Piece.render]; omega

theorem spanLen_slashed (s pre) (bs : List (List Piece)) :
    (((locateSlashed s pre bs).flatten).map Alternative.spanLen).sum + (locateSlashed s pre bs).length
      = blen (slashed bs) := by
  induction bs generalizing pre with
  | nil => simp [locateSlashed]
  | cons b bs ih =>
    have := ih (pre ++ '/' :: renderPieces b)
    simp only [locateSlashed, List.flatten_cons, List.map_append, List.sum_append, List.length_cons,
      spanLen_pieces, slashed_cons, blen_append, blen_cons, us_slash]
    omega

theorem spanLen_locate (s pre) (bs : List (List Piece)) (h : bs ≠ []) :
    Alternation.spanLen (locateBranches s pre bs) = some (blen (renderBranches bs)) := by
  cases bs with
  | nil => exact absurd rfl h
  | cons b bs =>
    have h1 := spanLen_slashed s (pre ++ renderPieces b) bs
    have h2 := spanLen_pieces s pre b
    unfold Alternation.spanLen
    rw [locateBranches_cons, renderBranches_cons]
    simp only [List.flatten_cons, List.map_append, List.sum_append, List.length_cons, h2, blen_append]
    rw [if_neg (by omega)]
    congr 1; omega

theorem locateBranches_length (s pre) (bs) : (locateBranches s pre bs).length = bs.length := by
  induction bs generalizing pre with
  | nil => rfl
  | cons b bs ih => simp [locateBranches, ih]

theorem alternation_no_branch_slash (s : Span) (r) (h : s.frag = '/' :: r) :
    alternation s = .error (.failure (.emptyAlternation (s.sub [] ['/']))) := by
  unfold alternation alternationHead separatedList1
  rw [many1_none s (by rw [h]; exact endsBranch_slash r)]
  simp only [peek, tag1_cons '/' r s h]
  rw [failTake_prefix s ['/'] r _ 1 (by simpa using h) (by simp)]

theorem alternation_no_branch (s : Span) (h : endsBranch s.frag) (hs : s.frag.head? ≠ some '/') :
    alternation s = .error (.error (.other s .many1)) := by
  unfold alternation alternationHead separatedList1
  rw [many1_none s h]
  simp only [peek, tag1_ne '/' s hs]

theorem alternation_fail_first (s : Span) {b v e} (h : Reads s.frag b v) (hn : pieceOk v = none)
    (hf : pieceFail (s.sub (renderPieces b) v) = some e) : alternation s = .error (.failure e) := by
  unfold alternation alternationHead separatedList1
  rw [many1_fail s h hn hf]

theorem alternation_fail_later (s : Span) {bs r b v e} (h : ReadsBranches s.frag bs ('/' :: r)) (hb : Reads r b v)
    (hn : pieceOk v = none)
    (he : pieceFail (s.sub (renderBranches bs ++ '/' :: renderPieces b) v) = some e) :
    alternation s = .error (.failure e) := by
  obtain ⟨b', bs', v', rfl, h1, h2⟩ := h
  unfold alternation alternationHead separatedList1
  rw [many1_branch s h1]
  simp only
  rw [sepLoop_fail (s.sub (renderPieces b') v') (bs := bs') (r := r) (b := b) (v := v) (e := e)
    (by simpa using h2) hb hn (by simpa [renderBranches_cons] using he) _ (by simp)]

theorem alternation_empty (s : Span) {bs r} (h : ReadsBranches s.frag bs ('/' :: r)) (hr : endsBranch r) :
    alternation s = .error (.failure (.emptyAlternation (s.sub (renderBranches bs) ['/']))) := by
  unfold alternation alternationHead
  rw [sepList_ok s h (.inr ⟨r, rfl, hr⟩)]
  simp only [peek]
  rw [tag1_cons '/' r _ (by simp)]
  simp

theorem alternation_ok (s : Span) {bs rest} (h : ReadsBranches s.frag bs rest) (hr : rest.head? ≠ some '/') :
    alternation s =
      if bs.length = 1 then .error (.error (.other (s.sub (renderBranches bs) rest) .tag))
      else if onlyOpt bs then .error (.failure (.onlyOptionalInAlternation (s.sub [] (renderBranches bs))))
      else .ok (s.sub (renderBranches bs) rest, locateBranches s [] bs) := by
  unfold alternation alternationHead
  rw [sepList_ok s h (.inl hr)]
  simp only [peek]
  rw [tag1_ne '/' _ (by simpa using hr)]
  simp only [locateBranches_length]
  by_cases hl : bs.length = 1
  · rw [if_pos hl, if_pos hl]
  · rw [if_neg hl, if_neg hl]
    simp only [containsOnlyOptional_locate, spanLen_locate s [] bs h.valid.2.1]
    rw [failTake_prefix s (renderBranches bs) rest _ _ h.append rfl]

/-- The cases of `alternation`: exhaustive (and, `alternation` being a function, each determines the result). -/
inductive AltCase (s : Span) : Prop
  | noBranchSlash (r) (h : s.frag = '/' :: r)
  | noBranch (h : endsBranch s.frag) (hs : s.frag.head? ≠ some '/')
  | failFirst (b v e) (h : Reads s.frag b v) (hn : pieceOk v = none)
      (hf : pieceFail (s.sub (renderPieces b) v) = some e)
  | failLater (bs r b v e) (h : ReadsBranches s.frag bs ('/' :: r)) (hb : Reads r b v) (hn : pieceOk v = none)
      (he : pieceFail (s.sub (renderBranches bs ++ '/' :: renderPieces b) v) = some e)
  | empty (bs r) (h : ReadsBranches s.frag bs ('/' :: r)) (hr : endsBranch r)
  | full (bs rest) (h : ReadsBranches s.frag bs rest) (hr : rest.head? ≠ some '/')

theorem altCase (s : Span) : AltCase s := by
  obtain ⟨b, v, h1, h2⟩ := exists_reads s.frag
  cases hp : pieceFail (s.sub (renderPieces b) v) with
  | some e => exact .failFirst b v e h1 h2 hp
  | none =>
    have hv := (pieceFail_none (by simpa using h2)).1 hp
    simp only [Span.sub_frag] at hv
    by_cases hb : b = []
    · subst hb
      generalize hcs : s.frag = cs at h1
      cases h1
      by_cases hs : s.frag.head? = some '/'
      · obtain ⟨r, hr⟩ := eq_cons_of_head? hs
        exact .noBranchSlash r hr
      · exact .noBranch (by rw [hcs]; exact hv) hs
    · have hbr : ReadsBranch s.frag b v := ⟨h1, hv, hb⟩
      obtain ⟨bs, rest, h3, h4⟩ := exists_readsBr (s.sub (renderPieces b) v) (by simpa using hv)
      simp only [Span.sub_frag, Span.sub_sub] at h3 h4
      have hB : ReadsBranches s.frag (b :: bs) rest := ⟨b, bs, v, rfl, hbr, h3⟩
      rcases h4 with (h4 | ⟨r, rfl, h4⟩) | ⟨r, b', v', e, rfl, h5, h6, h7⟩
      · exact .full _ _ hB h4
      · exact .empty _ _ hB h4
      · exact .failLater _ r b' v' e hB h5 h6 (by rw [renderBranches_cons]; simpa using h7)

end CE
