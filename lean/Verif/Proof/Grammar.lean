import Verif.Proof.Expression
import Verif.Spec.Grammar

/-! # Canonical trees against the grammars -/

namespace CE
open Spec

/-! ## Normalising trees -/

theorem escd_append {stops a b} (ha : Escd stops a) (hb : Escd stops b) : Escd stops (a ++ b) := by
  induction ha with
  | nil => exact hb
  | char c cs h1 h2 _ ih => exact .char c _ h1 h2 ih
  | esc d cs h1 _ ih => exact .esc d _ h1 ih

theorem consPiece {q : Piece} (hq : q.Valid) {b : List Piece} (hb : ValidPieces b) :
    ∃ b', ValidPieces b' ∧ renderPieces b' = q.render ++ renderPieces b ∧
      b'.any Piece.isText = (q.isText || b.any Piece.isText) := by
  by_cases hadj : ∃ q' r, b = q' :: r ∧ Piece.Bad q q'
  · obtain ⟨q', r, rfl, h1, h2⟩ := hadj
    cases q with
    | opt t => simp [Piece.isText] at h1
    | text t =>
      cases q' with
      | opt t => simp [Piece.isText] at h2
      | text t' =>
        refine ⟨.text (t ++ t') :: r, ⟨?_, ?_⟩, by simp [renderPieces_cons, Piece.render], by simp [Piece.isText]⟩
        · intro p hp
          rcases List.mem_cons.1 hp with rfl | hp
          · have := hb.1 (.text t') (by simp)
            exact ⟨by simp [hq.1], escd_append hq.2 this.2⟩
          · exact hb.1 p (by simp [hp])
        · have := hb.2
          cases r with
          | nil => trivial
          | cons q2 r => exact ⟨fun h => this.1 ⟨rfl, h.2⟩, this.2⟩
  · refine ⟨q :: b, ⟨?_, ?_⟩, renderPieces_cons _ _, by simp⟩
    · intro p hp
      rcases List.mem_cons.1 hp with rfl | hp
      · exact hq
      · exact hb.1 p hp
    · cases b with
      | nil => trivial
      | cons q' r => exact ⟨fun h => hadj ⟨q', r, rfl, h⟩, hb.2⟩

theorem renderPieces_append (a b : List Piece) : renderPieces (a ++ b) = renderPieces a ++ renderPieces b := by
  simp [renderPieces]

theorem appendPieces {b b' : List Piece} (hb : ∀ p ∈ b, p.Valid) (hb' : ValidPieces b') :
    ∃ b'', ValidPieces b'' ∧ renderPieces b'' = renderPieces b ++ renderPieces b' ∧
      b''.any Piece.isText = (b.any Piece.isText || b'.any Piece.isText) := by
  induction b with
  | nil => exact ⟨b', hb', by simp [renderPieces], by simp⟩
  | cons q b ih =>
    obtain ⟨b1, h1, h2, h3⟩ := ih (fun p hp => hb p (by simp [hp]))
    obtain ⟨b2, h4, h5, h6⟩ := consPiece (hb q (by simp)) h1
    exact ⟨b2, h4, by simp [h5, h2, renderPieces_cons], by simp [h6, h3, Bool.or_assoc]⟩

/-- Valid branches. -/
def VB (bs : List (List Piece)) : Prop := ∀ b ∈ bs, ValidPieces b ∧ b.any Piece.isText = true

theorem joinBranches {bs : List (List Piece)} (h1 : VB bs) (hne : bs ≠ []) {b' : List Piece} {r : List (List Piece)}
    (hb' : ValidPieces b') (hr : VB r) :
    ∃ bs', VB bs' ∧ bs'.length = bs.length + r.length ∧
      renderBranches bs' = renderBranches bs ++ renderBranches (b' :: r) := by
  induction bs with
  | nil => exact absurd rfl hne
  | cons b bs ih =>
    cases bs with
    | nil =>
      have hb := h1 b (by simp)
      obtain ⟨b'', h2, h3, h4⟩ := appendPieces hb.1.1 hb'
      refine ⟨b'' :: r, ?_, by simp; omega, by simp [renderBranches_cons, h3]⟩
      intro x hx
      rcases List.mem_cons.1 hx with rfl | hx
      · exact ⟨h2, by rw [h4, hb.2]; rfl⟩
      · exact hr x hx
    | cons b2 bs =>
      obtain ⟨bs', h2, h3, h4⟩ := ih (fun x hx => h1 x (by simp at hx ⊢; right; exact hx)) (by simp)
      refine ⟨b :: bs', ?_, by simp at h3 ⊢; omega, ?_⟩
      · intro x hx
        rcases List.mem_cons.1 hx with rfl | hx
        · exact h1 x (by simp)
        · exact h2 x hx
      · cases bs' with
        | nil => simp at h3; omega
        | cons b3 bs3 => simp only [renderBranches] at h4 ⊢; rw [h4]; simp

theorem canonical_cons {e e' es} (hv : e.Valid) (h : Canonical (e' :: es)) (hb : ¬ Elem.Bad e e') :
    Canonical (e :: e' :: es) :=
  ⟨fun x hx => by rcases List.mem_cons.1 hx with rfl | hx; (all_goals first | exact hv | exact h.1 x hx), hb, h.2⟩

theorem canonical_single {e} (hv : e.Valid) : Canonical [e] :=
  ⟨fun x hx => by simp at hx; subst hx; exact hv, trivial⟩

/-- Changing the first element for another one with the same neighbours. -/
theorem canonical_replace {e e' es} (hv : e'.Valid) (h : Canonical (e :: es))
    (hb : ∀ x, Elem.Bad e' x → Elem.Bad e x) : Canonical (e' :: es) := by
  refine ⟨fun x hx => by rcases List.mem_cons.1 hx with rfl | hx; (all_goals first | exact hv | exact h.1 x (by simp [hx])), ?_⟩
  cases es with
  | nil => trivial
  | cons x es => exact ⟨fun hbad => h.2.1 (hb x hbad), h.2.2⟩

theorem consElem_alt (es : List Elem) : ∀ (bs : List (List Piece)), (Elem.alt bs).Valid → Canonical es →
    ∃ es', Canonical es' ∧ render es' = renderBranches bs ++ render es := by
  induction es with
  | nil => intro bs hv _; exact ⟨[.alt bs], canonical_single hv, by simp [render_cons, Elem.render]⟩
  | cons e es ih =>
    intro bs hv hc
    have hne : bs ≠ [] := by rintro rfl; simp [Elem.Valid] at hv
    have piece : ∀ q : Piece, e = q.toElem →
        ∃ es', Canonical es' ∧ render es' = renderBranches bs ++ render (e :: es) := by
      rintro q rfl
      have hq : q.Valid := by have := hc.1 q.toElem (by simp); cases q <;> exact this
      obtain ⟨bs', h1, h2, h3⟩ := joinBranches hv.2 hne (b' := [q]) (r := [])
        ⟨by simpa using hq, trivial⟩ (by simp [VB])
      obtain ⟨es', h4, h5⟩ := ih bs' ⟨by have := hv.1; simp at h2; omega, h1⟩ (canonical_tail hc)
      exact ⟨es', h4, by simp [h5, h3, render_cons, toElem_render, renderBranches, renderPieces]⟩
    cases e with
    | text t => exact piece (.text t) rfl
    | opt t => exact piece (.opt t) rfl
    | ws t => exact ⟨_, canonical_cons hv hc (by simp [Elem.Bad]), by simp [render_cons, Elem.render]⟩
    | param t => exact ⟨_, canonical_cons hv hc (by simp [Elem.Bad]), by simp [render_cons, Elem.render]⟩
    | alt bs2 =>
      have hv2 := hc.1 (.alt bs2) (by simp)
      cases bs2 with
      | nil => simp [Elem.Valid] at hv2
      | cons b2 r2 =>
        obtain ⟨bs', h1, h2, h3⟩ := joinBranches hv.2 hne (b' := b2) (r := r2) (hv2.2 b2 (by simp)).1
          (fun b hb => hv2.2 b (by simp [hb]))
        refine ⟨.alt bs' :: es, canonical_replace (e := .alt (b2 :: r2)) ⟨by have := hv.1; omega, h1⟩ hc ?_, ?_⟩
        · intro x hx; cases x <;> simp_all [Elem.Bad]
        · simp [render_cons, Elem.render, h3]

theorem consElem_piece {q : Piece} (hq : q.Valid) {es : List Elem} (hc : Canonical es) :
    ∃ es', Canonical es' ∧ render es' = q.render ++ render es := by
  have hqe : q.toElem.Valid := by cases q <;> exact hq
  cases es with
  | nil => exact ⟨[q.toElem], canonical_single hqe, by simp [render_cons, toElem_render]⟩
  | cons e es =>
    by_cases hb : Elem.Bad q.toElem e
    · cases e with
      | ws t => cases q <;> simp [Elem.Bad, Piece.toElem] at hb
      | param t => cases q <;> simp [Elem.Bad, Piece.toElem] at hb
      | opt t => cases q <;> simp [Elem.Bad, Piece.toElem] at hb
      | text t =>
        cases q with
        | opt t => simp [Elem.Bad, Piece.toElem] at hb
        | text t' =>
          have hv := hc.1 (.text t) (by simp)
          refine ⟨.text (t' ++ t) :: es, canonical_replace (e := .text t)
            ⟨by simp [hq.1], escd_append hq.2 hv.2⟩ hc ?_, ?_⟩
          · intro x hx; cases x <;> simp_all [Elem.Bad]
          · simp [render_cons, Elem.render, Piece.render]
      | alt bs =>
        have hv := hc.1 (.alt bs) (by simp)
        cases bs with
        | nil => simp [Elem.Valid] at hv
        | cons b bs =>
          obtain ⟨b', h1, h2, h3⟩ := consPiece hq (hv.2 b (by simp)).1
          refine ⟨.alt (b' :: bs) :: es, canonical_replace (e := .alt (b :: bs)) ⟨by simpa using hv.1, ?_⟩ hc ?_, ?_⟩
          · intro x hx
            rcases List.mem_cons.1 hx with rfl | hx
            · exact ⟨h1, by rw [h3, (hv.2 b (by simp)).2]; simp⟩
            · exact hv.2 x (by simp [hx])
          · intro x hx; cases x <;> simp_all [Elem.Bad]
          · simp [render_cons, Elem.render, renderBranches_cons, h2]
    · exact ⟨_, canonical_cons hqe hc hb, by simp [render_cons, toElem_render]⟩

/-- Putting any valid element in front of a canonical tree gives the text of a canonical tree. -/
theorem consElem {e : Elem} (he : e.Valid) {es : List Elem} (hc : Canonical es) :
    ∃ es', Canonical es' ∧ render es' = e.render ++ render es := by
  cases e with
  | text t => exact consElem_piece (q := .text t) he hc
  | opt t => exact consElem_piece (q := .opt t) he hc
  | alt bs => exact consElem_alt es bs he hc
  | param t =>
    cases es with
    | nil => exact ⟨[.param t], canonical_single he, by simp [render_cons]⟩
    | cons e' es => exact ⟨_, canonical_cons he hc (by simp [Elem.Bad]), by simp [render_cons]⟩
  | ws t =>
    cases es with
    | nil => exact ⟨[.ws t], canonical_single he, by simp [render_cons]⟩
    | cons e' es =>
      by_cases hb : Elem.Bad (.ws t) e'
      · cases e' with
        | ws t' =>
          have hv := hc.1 (.ws t') (by simp)
          refine ⟨.ws (t ++ t') :: es, canonical_replace (e := .ws t') ⟨by simp [he.1], ?_⟩ hc ?_, ?_⟩
          · intro c hcc
            rcases List.mem_append.1 hcc with h | h
            (all_goals first | exact he.2 c h | exact hv.2 c h)
          · intro x hx; cases x <;> simp_all [Elem.Bad]
          · simp [render_cons, Elem.render]
        | _ => simp [Elem.Bad] at hb
      · exact ⟨_, canonical_cons he hc hb, by simp [render_cons]⟩

/-! ## Grammar to trees -/

open Grammar

theorem charOr_stops_escd {excl stops : List Char} (h : ∀ c, c ∉ excl → c ≠ '\\' ∧ c ∉ stops) {w : List Char}
    (hw : charOr excl Relaxed.anyReserved w) : w ≠ [] ∧ Escd stops w := by
  rcases hw with ⟨c, rfl, hc⟩ | ⟨c, hc, rfl⟩
  · exact ⟨by simp, .char c [] (h c hc).1 (h c hc).2 .nil⟩
  · exact ⟨by simp, .esc c [] hc .nil⟩

theorem star_escd {excl stops : List Char} (h : ∀ c, c ∉ excl → c ≠ '\\' ∧ c ∉ stops) {w : List Char}
    (hw : star (charOr excl Relaxed.anyReserved) w) : Escd stops w := by
  induction hw with
  | nil => exact .nil
  | cons a b ha _ ih => exact escd_append (charOr_stops_escd h ha).2 ih

theorem plus_escd {excl stops : List Char} (h : ∀ c, c ∉ excl → c ≠ '\\' ∧ c ∉ stops) {w : List Char}
    (hw : plus (charOr excl Relaxed.anyReserved) w) : w ≠ [] ∧ Escd stops w := by
  obtain ⟨a, b, rfl, ha, hb⟩ := hw
  have := charOr_stops_escd h ha
  exact ⟨by simp [this.1], escd_append this.2 (star_escd h hb)⟩

theorem excl_text : ∀ c, c ∉ ' ' :: textToEscape → c ≠ '\\' ∧ c ∉ textStops := by
  intro c; simp [textToEscape, textStops]; grind
theorem excl_alt : ∀ c, c ∉ alternativeToEscape → c ≠ '\\' ∧ c ∉ textStops := by
  intro c; simp [alternativeToEscape, textStops]; grind
theorem excl_opt : ∀ c, c ∉ optionalToEscape → c ≠ '\\' ∧ c ∉ optStops := by
  intro c; simp [optionalToEscape, optStops]; grind
theorem excl_name : ∀ c, c ∉ nameToEscape → c ≠ '\\' ∧ c ∉ nameStops := by
  intro c; simp [nameToEscape, nameStops]; grind

theorem optional_piece {w} (h : Relaxed.optional w) : ∃ t, (Piece.opt t).Valid ∧ w = (Piece.opt t).render := by
  obtain ⟨a, b, rfl, rfl, c, d, rfl, hc, rfl⟩ := h
  exact ⟨c, plus_escd excl_opt hc, by simp [Piece.render]⟩

theorem altText_piece {w} (h : Relaxed.textInAlternative w) : (Piece.text w).Valid := charOr_stops_escd excl_alt h

theorem pieces_of_star {w} (h : star (or Relaxed.textInAlternative Relaxed.optional) w) :
    ∃ b, ValidPieces b ∧ renderPieces b = w := by
  induction h with
  | nil => exact ⟨[], ⟨by simp, trivial⟩, rfl⟩
  | cons a b ha _ ih =>
    obtain ⟨b', h1, rfl⟩ := ih
    rcases ha with ha | ha
    · obtain ⟨b2, h2, h3, -⟩ := consPiece (altText_piece ha) h1
      exact ⟨b2, h2, h3⟩
    · obtain ⟨t, ht, rfl⟩ := optional_piece ha
      obtain ⟨b2, h2, h3, -⟩ := consPiece ht h1
      exact ⟨b2, h2, h3⟩

theorem branch_of {w} (h : Relaxed.singleAlternation w) :
    ∃ b, ValidPieces b ∧ b.any Piece.isText = true ∧ renderPieces b = w := by
  obtain ⟨a, b, rfl, ha, c, d, rfl, hc, hd⟩ := h
  obtain ⟨b1, h1, rfl⟩ := pieces_of_star ha
  obtain ⟨b2, h2, rfl⟩ := pieces_of_star hd
  obtain ⟨b3, h3, h4, h5⟩ := consPiece (altText_piece hc) h2
  obtain ⟨b4, h6, h7, h8⟩ := appendPieces h1.1 h3
  exact ⟨b4, h6, by simp [h8, h5, Piece.isText], by rw [h7, h4]; rfl⟩

theorem slashed_of {w} (h : star (seq (chr '/') Relaxed.singleAlternation) w) : ∃ bs, VB bs ∧ slashed bs = w := by
  induction h with
  | nil => exact ⟨[], by simp [VB], rfl⟩
  | cons a b ha _ ih =>
    obtain ⟨bs, h1, rfl⟩ := ih
    obtain ⟨x, y, rfl, rfl, hy⟩ := ha
    obtain ⟨b', h2, h3, rfl⟩ := branch_of hy
    refine ⟨b' :: bs, ?_, by simp⟩
    intro x hx
    rcases List.mem_cons.1 hx with rfl | hx
    · exact ⟨h2, h3⟩
    · exact h1 x hx

theorem elem_of {w} (h : Relaxed.singleExpression w) : ∃ e : Elem, e.Valid ∧ e.render = w := by
  rcases h with h | h | h | h | h
  · obtain ⟨a, b, rfl, ha, c, d, rfl, hc, hd⟩ := h
    obtain ⟨b1, h1, h1', rfl⟩ := branch_of ha
    obtain ⟨x, y, rfl, rfl, hy⟩ := hc
    obtain ⟨b2, h2, h2', rfl⟩ := branch_of hy
    obtain ⟨bs, h3, rfl⟩ := slashed_of hd
    refine ⟨.alt (b1 :: b2 :: bs), ⟨by simp, ?_⟩, by simp [Elem.render, renderBranches_cons]⟩
    intro b hb
    simp only [List.mem_cons] at hb
    rcases hb with rfl | rfl | hb
    (all_goals first | exact ⟨h1, h1'⟩ | exact ⟨h2, h2'⟩ | exact h3 b hb)
  · obtain ⟨t, ht, rfl⟩ := optional_piece h
    exact ⟨.opt t, ht, rfl⟩
  · obtain ⟨a, b, rfl, rfl, c, d, rfl, hc, rfl⟩ := h
    exact ⟨.param c, star_escd excl_name hc, by simp [Elem.render]⟩
  · exact ⟨.text w, plus_escd excl_text h, rfl⟩
  · refine ⟨.ws w, ?_, rfl⟩
    obtain ⟨a, b, rfl, rfl, hb⟩ := h
    refine ⟨by simp, ?_⟩
    have : ∀ c ∈ b, c = ' ' := by
      induction hb with
      | nil => simp
      | cons x y hx _ ih => rw [hx]; simpa using ih
    simpa using this

theorem canonical_of_relaxed {w} (h : Relaxed.expression w) : ∃ es, Canonical es ∧ render es = w := by
  induction h with
  | nil => exact ⟨[], ⟨by simp, trivial⟩, rfl⟩
  | cons a b ha _ ih =>
    obtain ⟨es, h1, rfl⟩ := ih
    obtain ⟨e, h2, rfl⟩ := elem_of ha
    exact consElem h2 h1

/-! ## Trees to grammar -/

theorem star_of_escd {excl stops : List Char} (h : ∀ c, c ≠ '\\' → c ∉ stops → c ∉ excl) {w : List Char}
    (hw : Escd stops w) : star (charOr excl Relaxed.anyReserved) w := by
  induction hw with
  | nil => exact .nil
  | char c cs h1 h2 _ ih => exact .cons [c] cs (.inl ⟨c, rfl, h c h1 h2⟩) ih
  | esc d cs h1 _ ih => exact .cons ['\\', d] cs (.inr ⟨d, h1, rfl⟩) ih

theorem plus_of_star {A : Lang} {w : List Char} (hne : w ≠ []) (h : star A w) : plus A w := by
  induction h with
  | nil => exact absurd rfl hne
  | cons a b ha hb _ => exact ⟨a, b, rfl, ha, hb⟩

theorem excl_text' : ∀ c, c ≠ '\\' → c ∉ textStops → c ∉ ' ' :: textToEscape := by
  intro c; simp [textToEscape, textStops]; grind
theorem excl_alt' : ∀ c, c ≠ '\\' → c ∉ textStops → c ∉ alternativeToEscape := by
  intro c; simp [alternativeToEscape, textStops]; grind
theorem excl_opt' : ∀ c, c ≠ '\\' → c ∉ optStops → c ∉ optionalToEscape := by
  intro c; simp [optionalToEscape, optStops]; grind
theorem excl_name' : ∀ c, c ≠ '\\' → c ∉ nameStops → c ∉ nameToEscape := by
  intro c; simp [nameToEscape, nameStops]; grind

theorem relaxed_optional {t} (h : (Piece.opt t).Valid) : Relaxed.optional (Piece.opt t).render :=
  ⟨['('], t ++ [')'], rfl, rfl, t, [')'], rfl, plus_of_star h.1 (star_of_escd excl_opt' h.2), rfl⟩

theorem star_append {A : Lang} {a b : List Char} (ha : star A a) (hb : star A b) : star A (a ++ b) := by
  induction ha with
  | nil => exact hb
  | cons x y hx _ ih => rw [List.append_assoc]; exact .cons x _ hx ih

theorem star_mono {A B : Lang} (h : ∀ w, A w → B w) {w} (hw : star A w) : star B w := by
  induction hw with
  | nil => exact .nil
  | cons a b ha _ ih => exact .cons a b (h a ha) ih

theorem star_pieces {b : List Piece} (h : ∀ p ∈ b, p.Valid) :
    star (or Relaxed.textInAlternative Relaxed.optional) (renderPieces b) := by
  induction b with
  | nil => exact .nil
  | cons q b ih =>
    rw [renderPieces_cons]
    refine star_append ?_ (ih (fun p hp => h p (by simp [hp])))
    have hq := h q (by simp)
    cases q with
    | opt t => have := star.cons (A := or Relaxed.textInAlternative Relaxed.optional) _ [] (.inr (relaxed_optional hq)) .nil
               simpa using this
    | text t => exact star_mono (fun w hw => .inl hw) (star_of_escd excl_alt' hq.2)

theorem relaxed_branch {b : List Piece} (h : ∀ p ∈ b, p.Valid) (ht : b.any Piece.isText = true) :
    Relaxed.singleAlternation (renderPieces b) := by
  induction b with
  | nil => simp at ht
  | cons q b ih =>
    have hq := h q (by simp)
    have hb : ∀ p ∈ b, p.Valid := fun p hp => h p (by simp [hp])
    cases q with
    | opt t =>
      have := ih hb (by simpa [Piece.isText] using ht)
      obtain ⟨x, y, hxy, hx, hy⟩ := this
      refine ⟨(Piece.opt t).render ++ x, y, by rw [renderPieces_cons, hxy]; simp, .cons _ _ (.inr (relaxed_optional hq)) hx, hy⟩
    | text t =>
      obtain ⟨x, y, hxy, hx, hy⟩ := plus_of_star hq.1 (star_of_escd excl_alt' hq.2)
      refine ⟨[], renderPieces (.text t :: b), rfl, .nil, x, y ++ renderPieces b, ?_, hx, star_append (star_mono (fun w hw => .inl hw) hy) (star_pieces hb)⟩
      rw [renderPieces_cons, Piece.render, hxy]; simp

theorem relaxed_slashed {bs : List (List Piece)} (h : VB bs) :
    star (seq (chr '/') Relaxed.singleAlternation) (slashed bs) := by
  induction bs with
  | nil => exact .nil
  | cons b bs ih =>
    have hb := h b (by simp)
    rw [slashed_cons]
    exact .cons _ _ ⟨['/'], renderPieces b, rfl, rfl, relaxed_branch hb.1.1 hb.2⟩ (ih (fun x hx => h x (by simp [hx])))

theorem relaxed_elem {e : Elem} (h : e.Valid) : Relaxed.singleExpression e.render := by
  cases e with
  | alt bs =>
    left
    obtain ⟨h1, h2⟩ := h
    cases bs with
    | nil => simp at h1
    | cons b bs =>
      have hb := h2 b (by simp)
      refine ⟨renderPieces b, slashed bs, renderBranches_cons _ _, relaxed_branch hb.1.1 hb.2,
        plus_of_star ?_ (relaxed_slashed (fun x hx => h2 x (by simp [hx])))⟩
      cases bs with
      | nil => simp at h1
      | cons b' bs => simp
  | opt t => exact .inr (.inl (relaxed_optional h))
  | param t => exact .inr (.inr (.inl ⟨['{'], t ++ ['}'], rfl, rfl, t, ['}'], rfl, star_of_escd excl_name' h, rfl⟩))
  | text t => exact .inr (.inr (.inr (.inl (plus_of_star h.1 (star_of_escd excl_text' h.2)))))
  | ws t =>
    refine .inr (.inr (.inr (.inr (plus_of_star h.1 ?_))))
    obtain ⟨-, h⟩ := h
    show star _ t
    induction t with
    | nil => exact .nil
    | cons c t ih =>
      have := h c (by simp)
      subst this
      exact .cons [' '] t rfl (ih (fun c hc => h c (by simp [hc])))

theorem relaxed_of_canonical {es} (h : Canonical es) : Relaxed.expression (render es) := by
  have := h.1
  clear h
  induction es with
  | nil => exact .nil
  | cons e es ih =>
    rw [render_cons]
    exact .cons _ _ (relaxed_elem (this e (by simp))) (ih (fun x hx => this x (by simp [hx])))

/-! ## README grammar is included -/

theorem charOr_mono {excl e1 e2 : List Char} (h : ∀ c ∈ e1, c ∈ e2) {w} (hw : charOr excl e1 w) : charOr excl e2 w := by
  rcases hw with hw | ⟨c, hc, hw⟩
  · exact .inl hw
  · exact .inr ⟨c, h c hc, hw⟩

theorem plus_mono {A B : Lang} (h : ∀ w, A w → B w) {w} (hw : plus A w) : plus B w := by
  obtain ⟨a, b, rfl, ha, hb⟩ := hw
  exact ⟨a, b, rfl, h a ha, star_mono h hb⟩

theorem star_of_plus {A : Lang} {w} (h : plus A w) : star A w := by
  obtain ⟨a, b, rfl, ha, hb⟩ := h; exact .cons a b ha hb

theorem opt_readme {w} (h : Readme.optional w) : Relaxed.optional w := by
  obtain ⟨a, b, rfl, ha, c, d, rfl, hc, hd⟩ := h
  exact ⟨a, _, rfl, ha, c, d, rfl, plus_mono (fun w => charOr_mono (by decide)) hc, hd⟩

theorem alttext_readme {w} (h : Readme.textInAlternative w) : Relaxed.textInAlternative w := charOr_mono (by decide) h

theorem relaxedBranch_append_star {a b} (ha : Relaxed.singleAlternation a)
    (hb : star (or Relaxed.textInAlternative Relaxed.optional) b) : Relaxed.singleAlternation (a ++ b) := by
  obtain ⟨x, y, rfl, hx, c, d, rfl, hc, hd⟩ := ha
  exact ⟨x, c ++ (d ++ b), by simp, hx, c, d ++ b, rfl, hc, star_append hd hb⟩

theorem star_of_branch {a} (ha : Relaxed.singleAlternation a) :
    star (or Relaxed.textInAlternative Relaxed.optional) a := by
  obtain ⟨x, y, rfl, hx, c, d, rfl, hc, hd⟩ := ha
  exact star_append hx (.cons _ _ (.inl hc) hd)

theorem branch_readme {w} (h : Readme.singleAlternation w) : Relaxed.singleAlternation w := by
  obtain ⟨a, b, rfl, ha, hb⟩ := h
  have key : ∀ w, or (seq (plus Readme.textInAlternative) (star Readme.optional))
      (seq (plus Readme.optional) (plus Readme.textInAlternative)) w → Relaxed.singleAlternation w := by
    rintro w (⟨x, y, rfl, ⟨c, d, rfl, hc, hd⟩, hy⟩ | ⟨x, y, rfl, hx, ⟨c, d, rfl, hc, hd⟩⟩)
    · exact ⟨[], _, rfl, .nil, c, d ++ y, by simp, alttext_readme hc,
        star_append (star_mono (fun w hw => .inl (alttext_readme hw)) hd) (star_mono (fun w hw => .inr (opt_readme hw)) hy)⟩
    · exact ⟨x, _, rfl, star_mono (fun w hw => .inr (opt_readme hw)) (star_of_plus hx), c, d, rfl, alttext_readme hc,
        star_mono (fun w hw => .inl (alttext_readme hw)) hd⟩
  refine relaxedBranch_append_star (key a ha) ?_
  clear ha
  induction hb with
  | nil => exact .nil
  | cons x y hx _ ih => exact star_append (star_of_branch (key x hx)) ih

theorem single_readme {w} (h : Readme.singleExpression w) : Relaxed.singleExpression w := by
  rcases h with h | h | h | h | h
  · left
    obtain ⟨a, b, rfl, ha, hb⟩ := h
    refine ⟨a, b, rfl, branch_readme ha, plus_mono ?_ hb⟩
    rintro w ⟨x, y, rfl, hx, hy⟩
    exact ⟨x, y, rfl, hx, branch_readme hy⟩
  · exact .inr (.inl (opt_readme h))
  · right; right; left
    obtain ⟨a, b, rfl, ha, c, d, rfl, hc, hd⟩ := h
    exact ⟨a, _, rfl, ha, c, d, rfl, star_mono (fun w => charOr_mono (by decide)) hc, hd⟩
  · exact .inr (.inr (.inr (.inl (plus_mono (fun w => charOr_mono (by decide)) h))))
  · exact .inr (.inr (.inr (.inr h)))

theorem readme_relaxed {w} (h : Readme.expression w) : Relaxed.expression w := star_mono (fun _ => single_readme) h

/-! ## README strings never start with an escape of `)` -/

/-- Non-empty, and a leading backslash is followed by one of the characters which README allows to escape. -/
def Starts (w : List Char) : Prop :=
  ∃ c r, w = c :: r ∧ (c = '\\' → ∃ d r', r = d :: r' ∧ d ∈ [' ', '(', '{', '/', '\\'])

theorem Starts.append {a b} (h : Starts a) : Starts (a ++ b) := by
  obtain ⟨c, r, rfl, hc⟩ := h
  refine ⟨c, r ++ b, rfl, fun h => ?_⟩
  obtain ⟨d, r', rfl, hd⟩ := hc h
  exact ⟨d, r' ++ b, rfl, hd⟩

theorem starts_plus {A : Lang} (h : ∀ w, A w → Starts w) {w} (hw : plus A w) : Starts w := by
  obtain ⟨a, b, rfl, ha, -⟩ := hw; exact (h a ha).append

theorem starts_seq {A B : Lang} (h : ∀ w, A w → Starts w) {w} (hw : seq A B w) : Starts w := by
  obtain ⟨a, b, rfl, ha, -⟩ := hw; exact (h a ha).append

theorem starts_chr {c : Char} (h : c ≠ '\\') : ∀ w, chr c w → Starts w := by
  rintro w rfl; exact ⟨c, [], rfl, fun h' => absurd h' h⟩

theorem starts_charOr {excl esc : List Char} (h : '\\' ∈ excl) (h2 : ∀ c ∈ esc, c ∈ [' ', '(', '{', '/', '\\']) :
    ∀ w, charOr excl esc w → Starts w := by
  rintro w (⟨c, rfl, hc⟩ | ⟨c, hc, rfl⟩)
  · exact ⟨c, [], rfl, by rintro rfl; exact absurd h hc⟩
  · exact ⟨'\\', [c], rfl, fun _ => ⟨c, [], rfl, h2 c hc⟩⟩

theorem starts_readme {w} (h : Readme.singleExpression w) : Starts w := by
  rcases h with h | h | h | h | h
  · refine starts_seq (fun w hw => starts_plus ?_ hw) h
    rintro w (hw | hw)
    · exact starts_seq (fun w hw => starts_plus (starts_charOr (by decide) (by decide)) hw) hw
    · exact starts_seq (fun w hw => starts_plus (fun w hw => starts_seq (starts_chr (by decide)) hw) hw) hw
  · exact starts_seq (starts_chr (by decide)) h
  · exact starts_seq (starts_chr (by decide)) h
  · exact starts_plus (starts_charOr (by decide) (by decide)) h
  · exact starts_plus (starts_chr (by decide)) h

theorem not_readme_escaped_paren (r : List Char) : ¬ Readme.expression ('\\' :: ')' :: r) := by
  intro h
  generalize hw : '\\' :: ')' :: r = w at h
  cases h with
  | nil => simp at hw
  | cons a b ha hb =>
    obtain ⟨c, s, rfl, hc⟩ := starts_readme ha
    simp only [List.cons_append, List.cons.injEq] at hw
    obtain ⟨d, s', rfl, hd⟩ := hc hw.1.symm
    simp only [List.cons_append, List.cons.injEq] at hw
    rw [← hw.2.1] at hd
    simp at hd

end CE
