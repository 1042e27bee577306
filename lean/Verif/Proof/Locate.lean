import Verif.Proof.Expression
import Verif.Spec.Print

/-! # Lemmas about located trees -/

namespace CE
open Spec

theorem printAlternative_locate (s pre) (q : Piece) : printAlternative (q.locate s pre) = q.render := by
  cases q <;> simp [Piece.locate, printAlternative, Piece.render]

theorem print_locatePieces (s pre) (b : List Piece) :
    (locatePieces s pre b).flatMap printAlternative = renderPieces b := by
  induction b generalizing pre with
  | nil => rfl
  | cons q b ih => simp [locatePieces, printAlternative_locate, ih, renderPieces_cons]

theorem intercalate_locate (s pre) (bs : List (List Piece)) :
    ['/'].intercalate ((locateBranches s pre bs).map (fun b => b.flatMap printAlternative)) = renderBranches bs := by
  induction bs generalizing pre with
  | nil => simp [locateBranches, renderBranches]
  | cons b bs ih =>
    simp only [locateBranches, List.map_cons, print_locatePieces]
    cases bs with
    | nil => simp [locateBranches, renderBranches, List.intercalate]
    | cons b' bs =>
      have := ih (pre ++ renderPieces b ++ ['/'])
      simp only [locateBranches, List.map_cons, print_locatePieces, renderBranches] at this ⊢
      rw [← this]
      simp [List.intercalate]

theorem print_elem (s pre n) (e : Elem) : printSingle (e.locate s pre n) = e.render := by
  cases e with
  | alt bs => exact intercalate_locate s pre bs
  | _ => simp [Elem.locate, printSingle, Elem.render]

theorem print_locate (s pre n) (es : List Elem) : print (locate s pre n es) = render es := by
  induction es generalizing pre n with
  | nil => rfl
  | cons e es ih =>
    have := ih (pre ++ e.render) (n + e.params)
    unfold print at this ⊢
    simp [locate, print_elem, render_cons, this]

theorem ids_locate (s pre n) (es : List Elem) : ids (locate s pre n es) = List.range' n (nParams es) := by
  induction es generalizing pre n with
  | nil => rfl
  | cons e es ih =>
    have := ih (pre ++ e.render) (n + e.params)
    unfold ids at this ⊢
    simp only [locate, List.flatMap_cons, this]
    cases e <;> simp [Elem.locate, singleIds, Elem.params, nParams, List.range'_succ, Nat.add_comm]

theorem erase_pieces (s pre) (b : List Piece) : (locatePieces s pre b).map erasePiece = b := by
  induction b generalizing pre with
  | nil => rfl
  | cons q b ih => cases q <;> simp [locatePieces, ih, Piece.locate, erasePiece]

theorem erase_branches (s pre) (bs : List (List Piece)) :
    (locateBranches s pre bs).map (·.map erasePiece) = bs := by
  induction bs generalizing pre with
  | nil => rfl
  | cons b bs ih => simp [locateBranches, ih, erase_pieces]

theorem erase_elem (s pre n) (e : Elem) : eraseSingle (e.locate s pre n) = e := by
  cases e <;> simp [Elem.locate, eraseSingle, erase_branches]

theorem erase_locate (s pre n) (es : List Elem) : erase (locate s pre n es) = es := by
  induction es generalizing pre n with
  | nil => rfl
  | cons e es ih =>
    have := ih (pre ++ e.render) (n + e.params)
    unfold erase at this ⊢
    simp [locate, erase_elem, this]

theorem nlCount_eq_count (cs : List Char) : nlCount cs = cs.count '\n' := by
  induction cs with
  | nil => rfl
  | cons c cs ih =>
    rw [nlCount_cons, ih, List.count_cons]
    by_cases h : c = '\n' <;> simp [h, Nat.add_comm]

/-- Location relative to a start span. -/
def At (s : Span) (src : List Char) (sp : Span) : Prop := ∃ pre post, src = pre ++ sp.frag ++ post ∧ sp = s.sub pre sp.frag

theorem at_new {src : List Char} {sp : Span} (h : At (Span.new src) src sp) : LocatedIn src sp := by
  obtain ⟨pre, post, h1, h2⟩ := h
  refine ⟨pre, post, h1, ?_, ?_⟩
  · rw [h2]; simp [Span.new]
  · rw [h2]; simp [Span.new, nlCount_eq_count]

theorem pieces_at (s pre) (b : List Piece) (post : List Char) :
    ∀ a ∈ locatePieces s pre b, At s (pre ++ renderPieces b ++ post) (altSpan a) := by
  induction b generalizing pre with
  | nil => simp [locatePieces]
  | cons q b ih =>
    intro a ha
    simp only [locatePieces, List.mem_cons] at ha
    rcases ha with rfl | ha
    · cases q with
      | text t => exact ⟨pre, renderPieces b ++ post, by simp [altSpan, Piece.locate, renderPieces_cons, Piece.render],
          by simp [altSpan, Piece.locate]⟩
      | opt t => exact ⟨pre ++ ['('], [')'] ++ renderPieces b ++ post,
          by simp [altSpan, Piece.locate, renderPieces_cons, Piece.render], by simp [altSpan, Piece.locate]⟩
    · have := ih (pre ++ q.render) a ha
      simpa [renderPieces_cons] using this

theorem branches_at (s pre) (bs : List (List Piece)) (post : List Char) :
    ∀ b ∈ locateBranches s pre bs, ∀ a ∈ b, At s (pre ++ renderBranches bs ++ post) (altSpan a) := by
  induction bs generalizing pre with
  | nil => simp [locateBranches]
  | cons b bs ih =>
    intro b' hb' a ha
    simp only [locateBranches, List.mem_cons] at hb'
    rcases hb' with rfl | hb'
    · have := pieces_at s pre b (slashed bs ++ post) a ha
      simpa [renderBranches_cons] using this
    · cases bs with
      | nil => simp [locateBranches] at hb'
      | cons b2 bs =>
        have := ih (pre ++ renderPieces b ++ ['/']) b' hb' a ha
        simpa [renderBranches_cons] using this

theorem elem_at (s pre n) (e : Elem) (post : List Char) :
    ∀ sp ∈ singleSpans (e.locate s pre n), At s (pre ++ e.render ++ post) sp := by
  intro sp hsp
  cases e with
  | alt bs =>
    simp only [Elem.locate, singleSpans, List.mem_map, List.mem_flatten] at hsp
    obtain ⟨a, ⟨b, hb, ha⟩, rfl⟩ := hsp
    exact branches_at s pre bs post b hb a ha
  | opt t =>
    simp [Elem.locate, singleSpans] at hsp; subst hsp
    exact ⟨pre ++ ['('], [')'] ++ post, by simp [Elem.render], by simp⟩
  | param t =>
    simp [Elem.locate, singleSpans] at hsp; subst hsp
    exact ⟨pre ++ ['{'], ['}'] ++ post, by simp [Elem.render], by simp⟩
  | text t =>
    simp [Elem.locate, singleSpans] at hsp; subst hsp
    exact ⟨pre, post, by simp [Elem.render], by simp⟩
  | ws t =>
    simp [Elem.locate, singleSpans] at hsp; subst hsp
    exact ⟨pre, post, by simp [Elem.render], by simp⟩

theorem spans_at (s pre n) (es : List Elem) (post : List Char) :
    ∀ sp ∈ spans (locate s pre n es), At s (pre ++ render es ++ post) sp := by
  induction es generalizing pre n with
  | nil => simp [locate, spans]
  | cons e es ih =>
    intro sp hsp
    unfold spans at hsp ih
    simp only [locate, List.flatMap_cons, List.mem_append] at hsp
    rcases hsp with hsp | hsp
    · have := elem_at s pre n e (render es ++ post) sp hsp
      simpa [render_cons] using this
    · have := ih (pre ++ e.render) _ sp hsp
      simpa [render_cons] using this

/-! ## Order of spans -/

/-- Two spans are disjoint and in source order. -/
def Before (a b : Span) : Prop := a.offset + blen a.frag ≤ b.offset

/-- All spans lie in the byte range `[lo, hi]`, disjoint and in order. -/
def InRange (lo hi : Nat) (l : List Span) : Prop :=
  (∀ a ∈ l, lo ≤ a.offset ∧ a.offset + blen a.frag ≤ hi) ∧ l.Pairwise Before

theorem InRange.append {lo mid hi : Nat} {l l' : List Span} (h : InRange lo mid l) (h' : InRange mid hi l')
    (h1 : lo ≤ mid) (h2 : mid ≤ hi) : InRange lo hi (l ++ l') := by
  refine ⟨?_, List.pairwise_append.2 ⟨h.2, h'.2, ?_⟩⟩
  · intro a ha
    rcases List.mem_append.1 ha with ha | ha
    · have := h.1 a ha; omega
    · have := h'.1 a ha; omega
  · intro a ha b hb
    have := h.1 a ha
    have := h'.1 b hb
    unfold Before; omega

theorem InRange.mono {lo hi lo' hi' : Nat} {l : List Span} (h : InRange lo hi l) (h1 : lo' ≤ lo) (h2 : hi ≤ hi') :
    InRange lo' hi' l := ⟨fun a ha => by have := h.1 a ha; omega, h.2⟩

theorem inRange_single {lo hi : Nat} {a : Span} (h : lo ≤ a.offset ∧ a.offset + blen a.frag ≤ hi) :
    InRange lo hi [a] := ⟨by simpa using h, by simp⟩

theorem pieces_range (s pre) (b : List Piece) :
    InRange (s.offset + blen pre) (s.offset + blen (pre ++ renderPieces b)) ((locatePieces s pre b).map altSpan) := by
  induction b generalizing pre with
  | nil => exact ⟨by simp [locatePieces], by simp [locatePieces]⟩
  | cons q b ih =>
    simp only [locatePieces, List.map_cons]
    have h2 := ih (pre ++ q.render)
    rw [show ∀ (x : Span) l, x :: l = [x] ++ l by simp]
    have := InRange.append (lo := s.offset + blen pre) (mid := s.offset + blen (pre ++ q.render))
      (hi := s.offset + blen (pre ++ renderPieces (q :: b))) (l := [altSpan (q.locate s pre)])
      (inRange_single ?_) (by rw [renderPieces_cons, ← List.append_assoc]; exact h2) (by simp) (by simp [renderPieces_cons])
    · exact this
    · cases q <;> simp [Piece.locate, altSpan, Piece.render] <;> omega

theorem branches_range (s pre) (bs : List (List Piece)) :
    InRange (s.offset + blen pre) (s.offset + blen (pre ++ renderBranches bs))
      ((locateBranches s pre bs).flatten.map altSpan) := by
  induction bs generalizing pre with
  | nil => exact ⟨by simp [locateBranches], by simp [locateBranches]⟩
  | cons b bs ih =>
    simp only [locateBranches, List.flatten_cons, List.map_append]
    have h1 := pieces_range s pre b
    have h2 := ih (pre ++ renderPieces b ++ ['/'])
    cases bs with
    | nil => simpa [locateBranches, renderBranches] using h1
    | cons b' bs =>
      refine InRange.append (mid := s.offset + blen (pre ++ renderPieces b)) h1 (h2.mono ?_ ?_) ?_ ?_
      all_goals simp [renderBranches_cons]; try omega

theorem elem_range (s pre n) (e : Elem) :
    InRange (s.offset + blen pre) (s.offset + blen (pre ++ e.render)) (singleSpans (e.locate s pre n)) := by
  cases e with
  | alt bs => exact branches_range s pre bs
  | _ => exact inRange_single (by simp [Elem.render]; try omega)

theorem spans_range (s pre n) (es : List Elem) :
    InRange (s.offset + blen pre) (s.offset + blen (pre ++ render es)) (spans (locate s pre n es)) := by
  induction es generalizing pre n with
  | nil => exact ⟨by simp [locate, spans], by simp [locate, spans]⟩
  | cons e es ih =>
    have h2 := ih (pre ++ e.render) (n + e.params)
    unfold spans at h2 ⊢
    simp only [locate, List.flatMap_cons]
    refine InRange.append (elem_range s pre n e) ?_ ?_ ?_
    · rw [render_cons, ← List.append_assoc]; exact h2
    all_goals simp [render_cons]; try omega

end CE
