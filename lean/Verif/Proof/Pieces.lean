import Verif.Proof.ParamOpt

/-! # Closed forms of `alternative` and its repetition -/

namespace CE
open Spec

/-! ## Well-escaped runs -/

/-- `p` is the class of plain characters of a text context with the given stop characters. -/
def ClassOf (p : Char → Bool) (stops : List Char) : Prop := ∀ c, p c = true ↔ c ≠ '\\' ∧ c ∉ stops

theorem class_text : ClassOf isWithoutWhitespace textStops := by
  intro c; simp [isWithoutWhitespace, textStops]; grind
theorem class_opt : ClassOf isInOptional optStops := by
  intro c; simp [isInOptional, optStops]; grind
theorem class_name : ClassOf isName nameStops := by
  intro c; simp [isName, nameStops]; grind

theorem reserved_contains (c : Char) : RESERVED_CHARS.contains c = true ↔ c ∈ reserved := by
  simp [RESERVED_CHARS, reserved]

section
variable {p : Char → Bool} {stops : List Char}

theorem erun_cons_class (h : ClassOf p stops) {c : Char} (cs : List Char) (hc : c ≠ '\\') (hs : c ∉ stops) :
    erun p (c :: cs) = (c :: (erun p cs).1, (erun p cs).2) := by
  unfold erun
  rw [run_cons_ne cs hc]
  simp [(h c).2 ⟨hc, hs⟩]

theorem erun_cons_stop (h : ClassOf p stops) {c : Char} (cs : List Char) (hc : c ≠ '\\') (hs : c ∈ stops) :
    erun p (c :: cs) = ([], c :: cs) := by
  unfold erun
  rw [run_cons_ne cs hc]
  have : p c = false := by
    cases hp : p c with
    | false => rfl
    | true => exact absurd hs ((h c).1 hp).2
  simp [this]

theorem erun_cons_esc {d : Char} (cs : List Char) (hd : d ∈ reserved) :
    erun p ('\\' :: d :: cs) = ('\\' :: d :: (erun p cs).1, (erun p cs).2) := by
  unfold erun
  have := (reserved_contains d).2 hd
  simp only [run, this, if_true]

theorem erun_cons_badesc {d : Char} (cs : List Char) (hd : d ∉ reserved) :
    erun p ('\\' :: d :: cs) = ([], '\\' :: d :: cs) := by
  unfold erun
  have : RESERVED_CHARS.contains d = false := by
    cases hp : RESERVED_CHARS.contains d with
    | false => rfl
    | true => exact absurd ((reserved_contains d).1 hp) hd
  simp only [run, this, if_true]; simp

theorem erun_bs : erun p ['\\'] = ([], ['\\']) := by
  simp [erun, run]

theorem erun_escd (h : ClassOf p stops) (cs : List Char) : Escd stops (erun p cs).1 := by
  unfold erun
  fun_induction run p '\\' RESERVED_CHARS.contains cs
  · exact .nil
  next c hc => exact .char _ _ hc.1 ((h _).1 hc.2).2 .nil
  · exact .nil
  next d cs he ih => exact .esc _ _ ((reserved_contains d).1 he) ih
  · exact .nil
  next c d cs hc hp ih => exact .char _ _ hc ((h _).1 hp).2 ih
  · exact .nil

/-- A well-escaped text followed by something that cannot continue it is the run. -/
theorem erun_of_escd (h : ClassOf p stops) {t : List Char} (ht : Escd stops t) (rest : List Char)
    (hr : (erun p rest).1 = []) : erun p (t ++ rest) = (t, rest) := by
  induction ht with
  | nil =>
    have := erun_append p rest
    rw [hr] at this
    simp only [List.nil_append] at this ⊢
    exact Prod.ext hr this
  | char c cs hc hs _ ih => rw [List.cons_append, erun_cons_class h _ hc hs, ih]
  | esc d cs hd _ ih => rw [List.cons_append, List.cons_append, erun_cons_esc _ hd, ih]

theorem erun_stop (h : ClassOf p stops) {rest : List Char}
    (hr : ∀ c, rest.head? = some c → c ∈ stops) (hb : '\\' ∉ stops) : (erun p rest).1 = [] := by
  cases rest with
  | nil => simp [erun_nil]
  | cons c cs =>
    have hc := hr c rfl
    rw [erun_cons_stop h cs (by rintro rfl; exact hb hc) hc]

theorem erun_rest_idem (p : Char → Bool) (cs : List Char) : (erun p (erun p cs).2).1 = [] := by
  unfold erun
  fun_induction run p '\\' RESERVED_CHARS.contains cs <;> simp_all [run]
  next c hc => rw [if_neg]; rintro ⟨h1, h2⟩; simp [hc h1] at h2

end

/-! ## `alternative` -/

theorem textParser_eq (s : Span) : textParser s =
    match escOut s (erun isWithoutWhitespace s.frag).1 (erun isWithoutWhitespace s.frag).2 with
    | .error e => .error e
    | .ok r => if (erun isWithoutWhitespace s.frag).1 = [] then .error (.error (.other s .verify)) else .ok r := by
  unfold textParser verify
  rw [escapedReservedChars0_eq _ (by decide)]
  cases h : escOut s (erun isWithoutWhitespace s.frag).1 (erun isWithoutWhitespace s.frag).2 with
  | error e => rfl
  | ok a =>
    obtain ⟨rfl, -⟩ := escOut_ok h
    simp only [Span.sub_inputLen, PErr.fromErrorKind]
    by_cases ht : (erun isWithoutWhitespace s.frag).1 = []
    · simp [ht]
    · have := blen_pos_of_ne_nil ht
      simp [ht]

/-- The first piece of a branch, if one can be read. -/
def pieceOk (cs : List Char) : Option (Piece × List Char) :=
  match optOk cs with
  | some (t, v) => some (.opt t, v)
  | none =>
    if cs.head? = some '(' then none
    else if (erun isWithoutWhitespace cs).1 = [] then none
    else if (erun isWithoutWhitespace cs).2.head? = some '\\' then none
    else some (.text (erun isWithoutWhitespace cs).1, (erun isWithoutWhitespace cs).2)

/-- The irrecoverable error of reading a piece, if any. -/
def pieceFail (s : Span) : Option PErr :=
  if s.frag.head? = some '(' then
    match optSpec s with
    | .error (.failure e) => some e
    | _ => none
  else
    match escOut s (erun isWithoutWhitespace s.frag).1 (erun isWithoutWhitespace s.frag).2 with
    | .error (.failure e) => some e
    | _ => none

/-- No piece starts here. -/
def endsBranch (cs : List Char) : Prop := ∀ c, cs.head? = some c → c = ' ' ∨ c = '{' ∨ c = '/'

instance (cs : List Char) : Decidable (endsBranch cs) := by
  unfold endsBranch
  cases cs with
  | nil => exact .isTrue (by simp)
  | cons c r => exact decidable_of_iff (c = ' ' ∨ c = '{' ∨ c = '/') (by simp)

theorem optOk_head {cs : List Char} {t v : List Char} (h : optOk cs = some (t, v)) :
    cs = '(' :: t ++ ')' :: v ∧ t ≠ [] ∧ Escd optStops t := by
  have h2 := optSpec_of_optOk (s := Span.new cs) (by simpa [Span.new] using h)
  obtain ⟨t', v', h3, h4, -⟩ := optSpec_ok h2
  simp only [Span.new] at h3 h4
  rw [h] at h3; simp only [Option.some.injEq, Prod.mk.injEq] at h3; obtain ⟨rfl, rfl⟩ := h3
  refine ⟨h4, ?_⟩
  unfold optOk at h
  split at h
  · split at h
    · split at h
      · simp at h
      · simp only [Option.some.injEq, Prod.mk.injEq] at h
        obtain ⟨rfl, -⟩ := h
        exact ⟨by assumption, erun_escd class_opt _⟩
    · simp at h
  · simp at h

theorem alternative_eq (s : Span) : alternative s =
    match pieceOk s.frag with
    | some (q, v) => .ok (s.sub q.render v, q.locate s [])
    | none =>
      match pieceFail s with
      | some e => .error (.failure e)
      | none => .error (.error (.other s .alt)) := by
  unfold alternative alt altS
  simp only [P.lift, pmap, List.map, optional_eq]
  by_cases hh : s.frag.head? = some '('
  · unfold pieceOk pieceFail
    rw [if_pos hh, if_pos hh]
    cases ho : optOk s.frag with
    | some tv =>
      obtain ⟨t, v⟩ := tv
      rw [optSpec_of_optOk ho]
      simp [Piece.render, Piece.locate]
    | none =>
      cases hs : optSpec s with
      | ok a =>
        obtain ⟨t, v, h, -⟩ := optSpec_ok (s := s) (r := a.1) (o := a.2) hs
        rw [ho] at h; simp at h
      | error e =>
        obtain ⟨-, ⟨pe, rfl⟩ | rfl⟩ := optSpec_err hs
        · simp
        · exfalso
          obtain ⟨r, hr⟩ := eq_cons_of_head? hh
          unfold optSpec at hs
          rw [hr] at hs
          simp only at hs
          split at hs
          next e he => obtain ⟨pe, rfl, -⟩ := escOut_err he; simp at hs
          split at hs
          · split at hs <;> simp at hs
          · simp at hs
  · have ho : optOk s.frag = none := by
      cases ho : optOk s.frag with
      | none => rfl
      | some tv =>
        have := (optOk_head (t := tv.1) (v := tv.2) ho).1
        rw [this] at hh; simp at hh
    have hos : optSpec s = .error (.error (.other s .tag)) := by
      unfold optSpec
      split
      next r hr => rw [hr] at hh; simp at hh
      rfl
    unfold pieceOk pieceFail
    rw [ho, hos, if_neg hh, if_neg hh]
    simp only [altGo, P.lift, pmap, textParser_eq]
    cases he : escOut s (erun isWithoutWhitespace s.frag).1 (erun isWithoutWhitespace s.frag).2 with
    | error e =>
      obtain ⟨pe, rfl, hb⟩ := escOut_err he
      simp only [hb, if_true, ite_self]
    | ok a =>
      obtain ⟨rfl, hb⟩ := escOut_ok he
      by_cases ht : (erun isWithoutWhitespace s.frag).1 = []
      · simp [ht, PErr.or, PErr.append, PErr.fromErrorKind]
      · simp [ht, hb, Piece.render, Piece.locate]

theorem pieceOk_sound {cs : List Char} {q : Piece} {v : List Char} (h : pieceOk cs = some (q, v)) :
    cs = q.render ++ v ∧ q.Valid ∧ (q.isText = true → (erun isWithoutWhitespace v).1 = [] ∧ v.head? ≠ some '\\') := by
  unfold pieceOk at h
  split at h
  next t v' ho =>
    simp only [Option.some.injEq, Prod.mk.injEq] at h
    obtain ⟨rfl, rfl⟩ := h
    have := optOk_head ho
    exact ⟨by simp [Piece.render, this.1], this.2, by simp [Piece.isText]⟩
  next ho =>
    split at h
    · simp at h
    split at h
    · simp at h
    next ht =>
      split at h
      · simp at h
      next hb =>
        simp only [Option.some.injEq, Prod.mk.injEq] at h
        obtain ⟨rfl, rfl⟩ := h
        exact ⟨(erun_append _ _).symm, ⟨ht, erun_escd class_text _⟩, fun _ => ⟨erun_rest_idem _ _, hb⟩⟩

theorem optOk_complete {t : List Char} (hne : t ≠ []) (ht : Escd optStops t) (v : List Char) :
    optOk ('(' :: (t ++ [')']) ++ v) = some (t, v) := by
  have : erun isInOptional (t ++ ')' :: v) = (t, ')' :: v) :=
    erun_of_escd class_opt ht _ (by rw [erun_cons_stop class_opt _ (by decide) (by decide)])
  simp [optOk, this, hne]

theorem parOk_complete {t : List Char} (ht : Escd nameStops t) (v : List Char) :
    parOk ('{' :: (t ++ ['}']) ++ v) = some (t, v) := by
  have : erun isName (t ++ '}' :: v) = (t, '}' :: v) :=
    erun_of_escd class_name ht _ (by rw [erun_cons_stop class_name _ (by decide) (by decide)])
  simp [parOk, this]

theorem parOk_sound {cs : List Char} {t v : List Char} (h : parOk cs = some (t, v)) :
    cs = '{' :: (t ++ ['}']) ++ v ∧ Escd nameStops t := by
  unfold parOk at h
  split at h
  next r =>
    split at h
    next v' hv =>
      simp only [Option.some.injEq, Prod.mk.injEq] at h
      obtain ⟨rfl, rfl⟩ := h
      have := erun_append isName r
      rw [hv] at this
      exact ⟨by simp [this], erun_escd class_name _⟩
    · simp at h
  · simp at h

theorem escd_text_head {t : List Char} (hne : t ≠ []) (ht : Escd textStops t) :
    ∃ c r, t = c :: r ∧ c ∉ textStops := by
  cases ht with
  | nil => exact absurd rfl hne
  | char c cs hc hs _ => exact ⟨c, cs, rfl, hs⟩
  | esc d cs hd _ => exact ⟨'\\', _, rfl, by decide⟩

theorem optOk_head_none {cs : List Char} (h : cs.head? ≠ some '(') : optOk cs = none := by
  cases ho : optOk cs with
  | none => rfl
  | some tv => have := (optOk_head (t := tv.1) (v := tv.2) ho).1; rw [this] at h; simp at h

theorem pieceOk_complete {q : Piece} (hq : q.Valid) (v : List Char)
    (hv : q.isText = true → (erun isWithoutWhitespace v).1 = [] ∧ v.head? ≠ some '\\') :
    pieceOk (q.render ++ v) = some (q, v) := by
  cases q with
  | opt t =>
    have := optOk_complete hq.1 hq.2 v
    unfold pieceOk
    rw [Piece.render, this]
  | text t =>
    obtain ⟨c, r, rfl, hc⟩ := escd_text_head hq.1 hq.2
    have hh : (c :: r ++ v).head? ≠ some '(' := by
      simp; rintro rfl; exact hc (by decide)
    obtain ⟨hv1, hv2⟩ := hv rfl
    have he := erun_of_escd class_text hq.2 v hv1
    show pieceOk (c :: r ++ v) = _
    unfold pieceOk
    rw [optOk_head_none hh]
    simp only [he, if_neg hh]
    simp [hv2]

theorem pieceOk_none_of_ends {cs : List Char} (h : endsBranch cs) : pieceOk cs = none := by
  cases hp : pieceOk cs with
  | none => rfl
  | some qv =>
    obtain ⟨q, v⟩ := qv
    obtain ⟨h1, h2, -⟩ := pieceOk_sound hp
    cases q with
    | opt t => rw [h1] at h; have := h '(' (by simp [Piece.render]); simp at this
    | text t =>
      obtain ⟨c, r, rfl, hc⟩ := escd_text_head h2.1 h2.2
      have := h c (by rw [h1]; simp [Piece.render])
      exfalso; apply hc; simp [textStops]; grind

/-- Without an irrecoverable error, the end of the pieces is the end of the branch. -/
theorem pieceFail_none {s : Span} (h : pieceOk s.frag = none) : pieceFail s = none ↔ endsBranch s.frag := by
  have hal := alternative_eq s
  rw [h] at hal
  constructor
  · intro hf
    rw [hf] at hal
    intro c hc
    by_cases h0 : c = '('
    · subst h0
      exfalso
      unfold pieceFail at hf
      rw [if_pos hc] at hf
      have ho : optOk s.frag = none := by
        unfold pieceOk at h; split at h
        · simp at h
        · assumption
      cases hs : optSpec s with
      | ok a =>
        obtain ⟨t, v, h', -⟩ := optSpec_ok (s := s) (r := a.1) (o := a.2) hs
        rw [ho] at h'; simp at h'
      | error e =>
        obtain ⟨-, ⟨pe, rfl⟩ | rfl⟩ := optSpec_err hs
        · rw [hs] at hf; simp at hf
        · obtain ⟨r, hr⟩ := eq_cons_of_head? hc
          unfold optSpec at hs
          rw [hr] at hs
          simp only at hs
          split at hs
          next e he => obtain ⟨pe, rfl, -⟩ := escOut_err he; simp at hs
          split at hs
          · split at hs <;> simp at hs
          · simp at hs
    · have hh : s.frag.head? ≠ some '(' := by rw [hc]; simpa using h0
      unfold pieceOk at h
      unfold pieceFail at hf
      rw [optOk_head_none hh] at h
      rw [if_neg hh] at hf h
      obtain ⟨r, hr⟩ := eq_cons_of_head? hc
      have hnb : (erun isWithoutWhitespace s.frag).2.head? ≠ some '\\' := by
        intro hb
        cases he : escOut s (erun isWithoutWhitespace s.frag).1 (erun isWithoutWhitespace s.frag).2 with
        | error e => obtain ⟨pe, rfl, -⟩ := escOut_err he; rw [he] at hf; simp at hf
        | ok a => exact (escOut_ok he).2 hb
      by_cases ht : (erun isWithoutWhitespace s.frag).1 = []
      · have happ := erun_append isWithoutWhitespace s.frag
        rw [ht] at happ
        simp only [List.nil_append] at happ
        rw [happ, hc] at hnb
        apply Classical.byContradiction
        intro hcon
        have : c ∉ textStops := by simp [textStops]; grind
        rw [hr, erun_cons_class class_text r (by simpa using hnb) this] at ht
        simp at ht
      · simp [ht, hnb] at h
  · intro he
    unfold pieceFail
    have hh : s.frag.head? ≠ some '(' := by
      intro hc; have := he _ hc; simp at this
    rw [if_neg hh]
    have hb : (erun isWithoutWhitespace s.frag).1 = [] := by
      apply erun_stop class_text _ (by decide)
      intro c hc
      have := he c hc
      simp [textStops]; grind
    have happ := erun_append isWithoutWhitespace s.frag
    rw [hb] at happ
    simp only [List.nil_append] at happ
    rw [escOut_ne]
    rw [happ]; intro hc; have := he _ hc; simp at this

/-! ## `many1(alternative)` -/

/-- What `many1(alternative)` reads, as a relation: pieces `b` from `cs`, leaving `rest`. -/
inductive Reads : List Char → List Piece → List Char → Prop
  | nil (cs) : Reads cs [] cs
  | cons (cs q v b rest) : pieceOk cs = some (q, v) → Reads v b rest → Reads cs (q :: b) rest

theorem renderPieces_cons (q : Piece) (b : List Piece) : renderPieces (q :: b) = q.render ++ renderPieces b := by
  simp [renderPieces]

theorem Reads.append {cs rest} {b : List Piece} (h : Reads cs b rest) : cs = renderPieces b ++ rest := by
  induction h with
  | nil => simp [renderPieces]
  | cons cs q v b rest hp _ ih => rw [(pieceOk_sound hp).1, renderPieces_cons, ih, List.append_assoc]

theorem pieceOk_text_next {cs v v' : List Char} {q q' : Piece} (h : pieceOk cs = some (q, v))
    (h' : pieceOk v = some (q', v')) (ht : q.isText = true) : q'.isText = false := by
  cases q' with
  | opt t => rfl
  | text t =>
    obtain ⟨h1, h2⟩ := (pieceOk_sound h).2.2 ht
    unfold pieceOk at h'
    split at h'
    · simp at h'
    · simp [h1] at h'

theorem Reads.valid {cs rest} {b : List Piece} (h : Reads cs b rest) : ValidPieces b := by
  induction h with
  | nil => exact ⟨by simp, trivial⟩
  | cons cs q v b rest hp hr ih =>
    refine ⟨by intro p hp'; rcases List.mem_cons.1 hp' with rfl | hp'; exact (pieceOk_sound hp).2.1; exact ih.1 p hp', ?_⟩
    cases hr with
    | nil => trivial
    | cons _ q' v' b' _ hp' hr' =>
      refine ⟨?_, ih.2⟩
      rintro ⟨h1, h2⟩
      rw [pieceOk_text_next hp hp' h1] at h2
      simp at h2

/-- The text after a text piece. -/
theorem Reads.stop {cs rest} {b : List Piece} (h : Reads cs b rest) (q : Piece) (hq : b.getLast? = some q)
    (ht : q.isText = true) : (erun isWithoutWhitespace rest).1 = [] ∧ rest.head? ≠ some '\\' := by
  induction h with
  | nil => simp at hq
  | cons cs q' v b rest hp hr ih =>
    cases hr with
    | nil => simp at hq; subst hq; exact (pieceOk_sound hp).2.2 ht
    | cons _ q2 v2 b2 _ hp2 hr2 => exact ih (by simpa [List.getLast?_cons_cons] using hq)

theorem erun_render_opt (t v : List Char) :
    (erun isWithoutWhitespace ((Piece.opt t).render ++ v)).1 = [] ∧ ((Piece.opt t).render ++ v).head? ≠ some '\\' := by
  constructor
  · exact erun_stop class_text (by simp [Piece.render, textStops]) (by decide)
  · simp [Piece.render]

theorem Reads.complete {b : List Piece} (hb : ValidPieces b) (rest : List Char)
    (hs : ∀ q, b.getLast? = some q → q.isText = true →
      (erun isWithoutWhitespace rest).1 = [] ∧ rest.head? ≠ some '\\') :
    Reads (renderPieces b ++ rest) b rest := by
  induction b with
  | nil => simp [renderPieces]; exact .nil _
  | cons q b ih =>
    rw [renderPieces_cons, List.append_assoc]
    refine .cons _ q (renderPieces b ++ rest) b rest (pieceOk_complete (hb.1 q (by simp)) _ ?_) (ih ⟨?_, ?_⟩ ?_)
    · intro ht
      cases b with
      | nil => simpa [renderPieces] using hs q (by simp) ht
      | cons q' b' =>
        have := hb.2.1
        cases q' with
        | text t => exact absurd ⟨ht, rfl⟩ this
        | opt t =>
          rw [renderPieces_cons, List.append_assoc]
          exact erun_render_opt t _
    · intro p hp; exact hb.1 p (List.mem_cons_of_mem _ hp)
    · cases b with
      | nil => trivial
      | cons q' b' => exact hb.2.2
    · intro q' hq' ht
      cases b with
      | nil => simp at hq'
      | cons q2 b' => exact hs q' (by simpa [List.getLast?_cons_cons] using hq') ht

theorem Reads.functional {cs b rest b' rest'} (h : Reads cs b rest) (h' : Reads cs b' rest')
    (hr : pieceOk rest = none) (hr' : pieceOk rest' = none) : b = b' ∧ rest = rest' := by
  induction h generalizing b' with
  | nil cs =>
    cases h' with
    | nil => exact ⟨rfl, rfl⟩
    | cons _ q v b _ hp _ => rw [hr] at hp; simp at hp
  | cons cs q v b rest hp hre ih =>
    cases h' with
    | nil => rw [hr'] at hp; simp at hp
    | cons _ q' v' b' _ hp' hre' =>
      rw [hp] at hp'
      simp only [Option.some.injEq, Prod.mk.injEq] at hp'
      obtain ⟨rfl, rfl⟩ := hp'
      obtain ⟨rfl, rfl⟩ := ih hre' hr
      exact ⟨rfl, rfl⟩

theorem pieceOk_blen {cs q v} (h : pieceOk cs = some (q, v)) : blen v < blen cs := by
  obtain ⟨h1, h2, -⟩ := pieceOk_sound h
  rw [h1]
  have : q.render ≠ [] := by
    cases q with
    | text t => exact h2.1
    | opt t => simp [Piece.render]
  have := blen_pos_of_ne_nil this
  simp; omega

theorem exists_reads (cs : List Char) : ∃ b rest, Reads cs b rest ∧ pieceOk rest = none := by
  generalize hn : blen cs = n
  induction n using Nat.strongRecOn generalizing cs with
  | ind n ih =>
    cases hp : pieceOk cs with
    | none => exact ⟨[], cs, .nil _, hp⟩
    | some qv =>
      obtain ⟨q, v⟩ := qv
      obtain ⟨b, rest, h1, h2⟩ := ih (blen v) (by have := pieceOk_blen hp; omega) v rfl
      exact ⟨q :: b, rest, .cons _ _ _ _ _ hp h1, h2⟩

theorem locate_sub (s : Span) (pre : List Char) (f : List Char) (q : Piece) (pre' : List Char) :
    q.locate (s.sub pre f) pre' = q.locate s (pre ++ pre') := by
  cases q <;> simp [Piece.locate]

theorem locatePieces_sub (s : Span) (pre f : List Char) (b : List Piece) (pre' : List Char) :
    locatePieces (s.sub pre f) pre' b = locatePieces s (pre ++ pre') b := by
  induction b generalizing pre' with
  | nil => rfl
  | cons q b ih => simp [locatePieces, locate_sub, ih]

/-- Closed form of the loop of `many1(alternative)`. -/
theorem many1Loop_eq (s : Span) {b : List Piece} {rest : List Char} (h : Reads s.frag b rest)
    (hr : pieceOk rest = none) (fuel : Nat) (hf : blen s.frag < fuel) :
    many1Loop alternative fuel s =
      match pieceFail (s.sub (renderPieces b) rest) with
      | some e => .error (.failure e)
      | none => .ok (s.sub (renderPieces b) rest, locatePieces s [] b) := by
  induction fuel generalizing s b with
  | zero => omega
  | succ fuel ih =>
    unfold many1Loop
    rw [alternative_eq]
    generalize hcs : s.frag = cs at h
    cases h with
    | nil =>
      rw [hr]
      have hs : s.sub (renderPieces []) rest = s := by rw [← hcs]; simp [renderPieces]
      rw [hs]
      cases pieceFail s <;> simp [locatePieces]
    | cons _ q v b _ hp hre =>
      rw [hp]
      have hlt := pieceOk_blen hp
      have hne : ¬ (s.sub q.render v).inputLen = s.inputLen := by
        rw [Span.sub_inputLen]; show ¬ blen v = blen s.frag; rw [hcs]; omega
      simp only [if_neg hne]
      rw [ih (s.sub q.render v) (by simpa using hre) (by rw [hcs] at hf; simp; omega)]
      simp only [Span.sub_sub, renderPieces_cons]
      cases pieceFail (s.sub (q.render ++ renderPieces b) rest) with
      | some e => rfl
      | none => simp [locatePieces, locatePieces_sub]

/-- Closed form of `many1(alternative)`. -/
theorem many1_eq (s : Span) {b : List Piece} {rest : List Char} (h : Reads s.frag b rest)
    (hr : pieceOk rest = none) :
    many1 alternative s =
      match pieceFail (s.sub (renderPieces b) rest) with
      | some e => .error (.failure e)
      | none =>
        if b = [] then .error (.error (.other s .many1))
        else .ok (s.sub (renderPieces b) rest, locatePieces s [] b) := by
  unfold many1
  rw [alternative_eq]
  generalize hcs : s.frag = cs at h
  cases h with
  | nil =>
    rw [hr]
    have hs : s.sub (renderPieces []) rest = s := by rw [← hcs]; simp [renderPieces]
    rw [hs]
    cases pieceFail s <;> simp [PErr.append, PErr.fromErrorKind]
  | cons _ q v b _ hp hre =>
    rw [hp]
    simp only
    rw [many1Loop_eq (s.sub q.render v) (by simpa using hre) hr _ (by simp)]
    simp only [Span.sub_sub, renderPieces_cons]
    cases pieceFail (s.sub (q.render ++ renderPieces b) rest) with
    | some e => rfl
    | none => simp [locatePieces, locatePieces_sub]

end CE
