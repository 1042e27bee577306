import Verif.Model.Parse
import Verif.Spec.Ast

/-! # Basic lemmas about spans and primitive parsers -/

namespace CE

@[simp] theorem blen_nil : blen [] = 0 := rfl
@[simp] theorem blen_cons (c : Char) (cs : List Char) : blen (c :: cs) = c.utf8Size + blen cs := rfl
@[simp] theorem nlCount_nil : nlCount [] = 0 := rfl
theorem nlCount_cons (c : Char) (cs : List Char) :
    nlCount (c :: cs) = (if c = '\n' then 1 else 0) + nlCount cs := rfl

@[simp] theorem blen_append (a b : List Char) : blen (a ++ b) = blen a + blen b := by
  induction a with
  | nil => simp
  | cons c cs ih => simp [ih, Nat.add_assoc]

@[simp] theorem nlCount_append (a b : List Char) : nlCount (a ++ b) = nlCount a + nlCount b := by
  induction a with
  | nil => simp
  | cons c cs ih => simp [nlCount_cons, ih, Nat.add_assoc]

theorem utf8Size_pos (c : Char) : 0 < c.utf8Size := Char.utf8Size_pos c

theorem blen_pos_of_ne_nil {a : List Char} (h : a ≠ []) : 0 < blen a := by
  cases a with
  | nil => exact absurd rfl h
  | cons c cs => have := utf8Size_pos c; simp; omega

@[simp] theorem blen_eq_zero {a : List Char} : blen a = 0 ↔ a = [] := by
  constructor
  · intro h
    cases a with
    | nil => rfl
    | cons c cs => have := utf8Size_pos c; simp at h; omega
  · rintro rfl; rfl

theorem length_le_blen (a : List Char) : a.length ≤ blen a := by
  induction a with
  | nil => simp
  | cons c cs ih => have := utf8Size_pos c; simp; omega

@[simp] theorem splitBytes_zero (cs : List Char) : splitBytes 0 cs = some ([], cs) := by
  cases cs <;> rfl

theorem splitBytes_append (a b : List Char) : splitBytes (blen a) (a ++ b) = some (a, b) := by
  induction a with
  | nil => simp
  | cons c cs ih =>
    have hp := utf8Size_pos c
    obtain ⟨n, hn⟩ : ∃ n, c.utf8Size + blen cs = n + 1 := ⟨c.utf8Size + blen cs - 1, by omega⟩
    simp only [blen_cons, hn, List.cons_append, splitBytes]
    have h1 : c.utf8Size ≤ n + 1 := by omega
    have h2 : n + 1 - c.utf8Size = blen cs := by omega
    simp [h1, h2, ih]

@[simp] theorem Span.sub_frag (s : Span) (a f) : (s.sub a f).frag = f := by cases s; rfl
@[simp] theorem Span.sub_offset (s : Span) (a f) : (s.sub a f).offset = s.offset + blen a := by cases s; rfl
@[simp] theorem Span.sub_line (s : Span) (a f) : (s.sub a f).line = s.line + nlCount a := by cases s; rfl
@[simp] theorem Span.sub_inputLen (s : Span) (a f) : (s.sub a f).inputLen = blen f := by cases s; rfl
@[simp] theorem Span.sub_sub (s : Span) (a f b g) : (s.sub a f).sub b g = s.sub (a ++ b) g := by
  simp [Span.sub, Nat.add_assoc]
@[simp] theorem Span.sub_nil_frag (s : Span) : s.sub [] s.frag = s := by cases s; simp [Span.sub]

theorem Span.take_append (s : Span) (a b : List Char) (h : s.frag = a ++ b) :
    s.take (blen a) = some (s.sub [] a) := by
  simp [Span.take, h, splitBytes_append, Span.sub]

theorem Span.takeFrom_append (s : Span) (a b : List Char) (h : s.frag = a ++ b) :
    s.takeFrom (blen a) = some (s.sub a b) := by
  simp [Span.takeFrom, h, splitBytes_append, Span.sub]

theorem Span.takeSplit_append (s : Span) (a b : List Char) (h : s.frag = a ++ b) :
    s.takeSplit (blen a) = some (s.sub a b, s.sub [] a) := by
  simp [Span.takeSplit, s.take_append a b h, s.takeFrom_append a b h]

theorem Span.takeFrom_all (s : Span) : s.takeFrom s.inputLen = some (s.sub s.frag []) :=
  s.takeFrom_append s.frag [] (by simp)

theorem okAll_eq (s : Span) : okAll s = .ok (s.sub s.frag [], s) := by
  simp [okAll, s.takeFrom_all]

/-- `position` of the first non-`p` character against `takeWhile`/`dropWhile`. -/
theorem positionL_not (p : Char → Bool) (cs : List Char) :
    Span.positionL (fun c => !p c) cs =
      if cs.dropWhile p = [] then none else some (blen (cs.takeWhile p)) := by
  induction cs with
  | nil => simp [Span.positionL]
  | cons c cs ih =>
    simp only [Span.positionL, List.dropWhile_cons, List.takeWhile_cons]
    by_cases hc : p c
    · simp only [hc, ih]
      by_cases h : cs.dropWhile p = [] <;> simp [h]
    · simp [hc]

theorem takeWhile_append_dropWhile' (p : Char → Bool) (cs : List Char) :
    cs = cs.takeWhile p ++ cs.dropWhile p := by simp

theorem takeWhile_eq (p : Char → Bool) (s : Span) :
    takeWhile p s = .ok (s.sub (s.frag.takeWhile p) (s.frag.dropWhile p), s.sub [] (s.frag.takeWhile p)) := by
  have h := s.takeSplit_append _ _ (takeWhile_append_dropWhile' p s.frag)
  unfold takeWhile Span.position
  rw [positionL_not]
  by_cases hd : s.frag.dropWhile p = []
  · have hf : s.frag = s.frag.takeWhile p := by
      have := takeWhile_append_dropWhile' p s.frag
      rw [hd, List.append_nil] at this; exact this
    have hl : s.inputLen = blen (s.frag.takeWhile p) := by
      show blen s.frag = _
      rw [← hf]
    simp only [hd, if_true, hl, h, orPanic]
  · simp only [hd, if_false, h, orPanic]

theorem takeWhile1_eq (p : Char → Bool) (s : Span) :
    takeWhile1 p s =
      if s.frag.takeWhile p = [] then .error (.error (.other s .takeWhile1))
      else .ok (s.sub (s.frag.takeWhile p) (s.frag.dropWhile p), s.sub [] (s.frag.takeWhile p)) := by
  have h := s.takeSplit_append _ _ (takeWhile_append_dropWhile' p s.frag)
  unfold takeWhile1 Span.position
  rw [positionL_not]
  by_cases hd : s.frag.dropWhile p = []
  · have hf : s.frag = s.frag.takeWhile p := by
      have := takeWhile_append_dropWhile' p s.frag
      rw [hd, List.append_nil] at this; exact this
    have hl : s.inputLen = blen (s.frag.takeWhile p) := by
      show blen s.frag = _
      rw [← hf]
    simp only [hd, if_true, hl]
    by_cases ht : s.frag.takeWhile p = []
    · simp [ht, PErr.fromErrorKind]
    · rw [hd] at h
      simp [ht, h, orPanic]
  · simp only [hd, if_false]
    by_cases ht : s.frag.takeWhile p = []
    · simp [ht, PErr.fromErrorKind]
    · obtain ⟨n, hn⟩ : ∃ n, blen (s.frag.takeWhile p) = n + 1 :=
        ⟨blen (s.frag.takeWhile p) - 1, by have := blen_pos_of_ne_nil ht; omega⟩
      rw [hn] at h
      simp only [hn, ht, if_false, h, orPanic]

theorem tag_eq_ok (t r : List Char) (s : Span) (h : s.frag = t ++ r) :
    tag t s = .ok (s.sub t r, s.sub [] t) := by
  simp [tag, h, s.takeFrom_append t r h, s.take_append t r h]

theorem tag1_cons (c : Char) (r : List Char) (s : Span) (h : s.frag = c :: r) :
    tag [c] s = .ok (s.sub [c] r, s.sub [] [c]) := tag_eq_ok [c] r s h

theorem tag1_ne (c : Char) (s : Span) (h : s.frag.head? ≠ some c) :
    tag [c] s = .error (.error (.other s .tag)) := by
  unfold tag
  have : ¬ ([c].isPrefixOf s.frag = true) := by
    cases hf : s.frag with
    | nil => simp
    | cons d ds => rw [hf] at h; simp at h; simp; exact fun e => h e.symm
  simp [this, PErr.fromErrorKind]

@[simp] theorem us_lbrace : '{'.utf8Size = 1 := by decide
@[simp] theorem us_rbrace : '}'.utf8Size = 1 := by decide
@[simp] theorem us_lpar : '('.utf8Size = 1 := by decide
@[simp] theorem us_rpar : ')'.utf8Size = 1 := by decide
@[simp] theorem us_slash : '/'.utf8Size = 1 := by decide
@[simp] theorem us_bslash : '\\'.utf8Size = 1 := by decide
@[simp] theorem us_space : ' '.utf8Size = 1 := by decide

theorem eq_cons_of_head? {c : Char} {l : List Char} (h : l.head? = some c) : ∃ r, l = c :: r := by
  cases l with
  | nil => simp at h
  | cons x y => simp at h; exact ⟨y, by rw [h]⟩

end CE
