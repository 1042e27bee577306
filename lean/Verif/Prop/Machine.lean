import Verif.Proof.MachineExpr
import Verif.Prop.Total

/-!
# Fixed-width counters and the work of parsing: C58, C59
-/

set_option linter.unusedSimpArgs false

namespace CE
open Spec
namespace Machine

/-! ## Lower bounds -/

theorem sepList_cost_ge (K : Machine) (s : Span) :
    (many1 K.alternative s).cost ≤ (separatedList1 (K.tag ['/']) (many1 K.alternative) s).cost := by
  unfold separatedList1
  simp only [Metered.cost_bind]
  omega

theorem single_cost_ge (K : Machine) (s : Span) (n : Nat) :
    (many1 K.alternative s).cost ≤ (K.singleExpression s n).cost := by
  have h1 := sepList_cost_ge K s
  have h2 : (separatedList1 (K.tag ['/']) (many1 K.alternative) s).cost ≤ (K.alternationHead s).cost := by
    unfold alternationHead; simp only [Metered.cost_bind]; omega
  have h3 : (K.alternationHead s).cost ≤ (K.alternation s).cost := by
    unfold alternation; simp only [Metered.cost_bind]; omega
  have h4 : (K.alternation s).cost ≤ (K.singleExpression s n).cost := by
    unfold singleExpression altS; simp only [lift, pmap, Metered.cost_bind, Metered.res_bind]; omega
  omega

/-- `(a)` written `k` times. -/
def optionals : Nat → List Char
  | 0 => []
  | k + 1 => '(' :: 'a' :: ')' :: optionals k

theorem pieceOk_optionals (k : Nat) : pieceOk (optionals (k + 1)) = some (.opt ['a'], optionals k) := by
  have := pieceOk_complete (q := .opt ['a']) ⟨by simp, by
    exact .char _ _ (by decide) (by decide) .nil⟩ (optionals k) (by simp [Piece.isText])
  simpa [Piece.render, optionals] using this

theorem blen_optionals (k : Nat) : blen (optionals k) = 3 * k := by
  induction k with
  | zero => rfl
  | succ k ih =>
    simp only [optionals, blen_cons, ih]
    have h1 : '('.utf8Size = 1 := by decide
    have h2 : 'a'.utf8Size = 1 := by decide
    have h3 : ')'.utf8Size = 1 := by decide
    omega

theorem many1Loop_cost_ge {K : Machine} (k : Nat) {s : Span} (hs : s.frag = optionals k) (hf : Fits K s) (fuel : Nat)
    (hfu : blen s.frag < fuel) : k ≤ (many1Loop K.alternative fuel s).cost := by
  induction k generalizing s fuel with
  | zero => omega
  | succ k ih =>
    cases fuel with
    | zero => omega
    | succ fuel =>
      have ha := alternative_eq s
      rw [hs, pieceOk_optionals] at ha
      have hr := (alternative_run (K := K) hf).res
      simp only at ha
      rw [ha] at hr
      have hb : blen s.frag = 3 * (k + 1) := by rw [hs, blen_optionals]
      have hil : ¬ (s.sub (Piece.opt ['a']).render (optionals k)).inputLen = s.inputLen := by
        simp only [Span.inputLen, Span.sub_frag, hb, blen_optionals]; omega
      have := ih (s := s.sub (Piece.opt ['a']).render (optionals k)) (by simp)
        (hf.sub (by rw [hs]; rfl)) fuel (by simp [blen_optionals]; omega)
      unfold many1Loop
      simp only [Metered.cost_bind, hr, if_neg hil, tick_cost]
      omega

theorem many1_cost_ge {K : Machine} (k : Nat) {s : Span} (hs : s.frag = optionals k) (hf : Fits K s) :
    k ≤ (many1 K.alternative s).cost := by
  cases k with
  | zero => omega
  | succ k =>
    have ha := alternative_eq s
    rw [hs, pieceOk_optionals] at ha
    have hr := (alternative_run (K := K) hf).res
    simp only at ha
    rw [ha] at hr
    have := many1Loop_cost_ge (K := K) k (s := s.sub (Piece.opt ['a']).render (optionals k)) (by simp)
        (hf.sub (by rw [hs]; rfl)) ((s.sub (Piece.opt ['a']).render (optionals k)).inputLen + 1)
        (by simp [Span.inputLen])
    unfold many1
    simp only [Metered.cost_bind, hr, tick_cost]
    omega

theorem reads_optionals (k : Nat) : ∃ b, b.length = k ∧ Reads (optionals k) b [] := by
  induction k with
  | zero => exact ⟨[], rfl, .nil _⟩
  | succ k ih =>
    obtain ⟨b, h1, h2⟩ := ih
    exact ⟨_ :: b, by simp [h1], .cons _ _ _ _ _ (pieceOk_optionals k) h2⟩

theorem elemOk_optionals (k : Nat) : ElemOk (optionals (k + 1)) (.opt ['a']) (optionals k) := by
  obtain ⟨b, -, h2⟩ := reads_optionals k
  exact .piece (.opt ['a']) _ b []
    ⟨_, [], [], rfl, ⟨.cons _ _ _ _ _ (pieceOk_optionals k) h2, by intro c hc; simp at hc, by simp⟩, .nil _⟩
    (by simp) (pieceOk_optionals k)

theorem many0_cost_ge {K : Machine} (k : Nat) {s : Span} {n : Nat} (hs : s.frag = optionals k) (hf : Fits K s)
    (hn : n + 1 ≤ K.usizeMax ∨ n = 0) (fuel : Nat) (hfu : blen s.frag < fuel) :
    k * (k + 1) ≤ 2 * (many0Loop K.singleExpression fuel s n).cost := by
  induction k generalizing s fuel with
  | zero => omega
  | succ k ih =>
    cases fuel with
    | zero => omega
    | succ fuel =>
      have h1 := many1_cost_ge (k + 1) hs hf
      have h2 := single_cost_ge K s n
      have h3 := (single_parts (K := K) (n := n) hf hn).1
      rw [single_ok s (e := .opt ['a']) (v := optionals k) (by rw [hs]; exact elemOk_optionals k)] at h3
      have hb : blen s.frag = 3 * (k + 1) := by rw [hs, blen_optionals]
      have hil : ¬ (s.sub (Elem.opt ['a']).render (optionals k)).inputLen = s.inputLen := by
        simp only [Span.inputLen, Span.sub_frag, hb, blen_optionals]; omega
      have h4 := ih (s := s.sub (Elem.opt ['a']).render (optionals k)) (by simp)
        (hf.sub (by rw [hs]; rfl)) fuel (by simp [blen_optionals]; omega)
      unfold many0Loop
      simp only [Metered.cost_bind, h3, if_neg hil, tick_cost, Elem.params, Nat.add_zero]
      have h5 : (k + 1) * (k + 1 + 1) = k * (k + 1) + 2 * (k + 1) := by
        rw [Nat.mul_comm (k + 1) (k + 1 + 1), ← Nat.add_mul]
      omega

/-! ## Overflow -/

theorem nlCount_replicate (k : Nat) : nlCount (List.replicate k '\n') = k := by
  induction k with
  | zero => rfl
  | succ k ih => rw [List.replicate_succ]; simp [nlCount, ih]; omega

theorem blen_replicate (k : Nat) : blen (List.replicate k '\n') = k := by
  induction k with
  | zero => rfl
  | succ k ih =>
    have : '\n'.utf8Size = 1 := by decide
    rw [List.replicate_succ, blen_cons, ih]; omega

theorem position_none (k : Nat) (o l : Nat) :
    (⟨o, l, List.replicate k '\n'⟩ : Span).position (fun c => !isWithoutWhitespace c) = none := by
  have h := positionL_not isWithoutWhitespace (List.replicate k '\n')
  have hd : (List.replicate k '\n').dropWhile isWithoutWhitespace = [] := by
    induction k with
    | zero => rfl
    | succ k ih =>
      rw [List.replicate_succ, List.dropWhile_cons, if_pos (by decide)]
      exact ih (positionL_not _ _)
  rw [if_pos hd] at h
  exact h

theorem takeFrom_overflow (K : Machine) (o l : Nat) (h : K.u32Max < l + K.u32Max) :
    (K.takeFrom ⟨o, l, List.replicate K.u32Max '\n'⟩ K.u32Max).res = none := by
  have hsp : splitBytes K.u32Max (List.replicate K.u32Max '\n') = some (List.replicate K.u32Max '\n', []) := by
    have := splitBytes_append (List.replicate K.u32Max '\n') []
    rw [blen_replicate, List.append_nil] at this
    exact this
  unfold takeFrom
  simp only [hsp, nlCount_replicate]
  rw [Nat.mod_eq_of_lt (by omega), if_neg (by omega)]

/-- Reading a text of as many newlines as a `u32` can count, from line 1 on, overflows the line counter. -/
theorem takeWhile_overflow (K : Machine) :
    (K.takeWhile isWithoutWhitespace (Span.new (List.replicate K.u32Max '\n'))).res = .error .panic := by
  have h := takeFrom_overflow K 0 1 (by omega)
  have hp := position_none K.u32Max 0 1
  unfold takeWhile takeSplit position
  simp only [Span.new] at h hp ⊢
  simp only [Metered.res_bind, Metered.res_pure, hp, Span.inputLen, blen_replicate, h]
  rfl

theorem textParser_overflow (K : Machine) (h0 : 0 < K.u32Max) :
    (K.textParser (Span.new (List.replicate K.u32Max '\n'))).res = .error .panic := by
  have h := takeWhile_overflow K
  have hpos : 0 < (Span.new (List.replicate K.u32Max '\n')).inputLen := by
    simp [Span.new, Span.inputLen, blen_replicate, h0]
  unfold textParser verify escapedReservedChars0 mapErr escaped0 escaped0Loop
  simp only [Metered.res_bind, if_pos hpos, h, Metered.res_pure]

theorem optional_soft (K : Machine) {s : Span} (h : s.frag.head? ≠ some '(') :
    (K.optional s).res = .error (.error (.other s .tag)) := by
  have hp : ¬ ['('].isPrefixOf s.frag = true := by
    cases hc : s.frag with
    | nil => simp
    | cons c r => rw [hc] at h; simp at h ⊢; exact fun h' => h h'.symm
  unfold optional optionalF tag
  simp only [Metered.res_bind, if_neg hp, Metered.res_pure]
  rfl

theorem parse_overflow (K : Machine) (h0 : 0 < K.u32Max) : (K.parse (List.replicate K.u32Max '\n')).res = .panic := by
  have h := textParser_overflow K h0
  have ho := optional_soft K (s := Span.new (List.replicate K.u32Max '\n')) (by
    obtain ⟨k, hk⟩ : ∃ k, K.u32Max = k + 1 := ⟨K.u32Max - 1, by omega⟩
    simp [Span.new, hk, List.replicate_succ])
  have ha : (K.alternative (Span.new (List.replicate K.u32Max '\n'))).res = .error .panic := by
    unfold alternative alt altS
    simp only [List.map, lift, pmap, altGo, Metered.res_bind, Metered.res_pure, ho, h]
  have hm : (many1 K.alternative (Span.new (List.replicate K.u32Max '\n'))).res = .error .panic := by
    unfold many1
    simp only [Metered.res_bind, Metered.res_pure, ha]
  have hl : (K.alternation (Span.new (List.replicate K.u32Max '\n'))).res = .error .panic := by
    unfold alternation alternationHead separatedList1
    simp only [Metered.res_bind, Metered.res_pure, hm]
  have hs : (K.singleExpression (Span.new (List.replicate K.u32Max '\n')) 0).res = (.error .panic, 0) := by
    unfold singleExpression altS
    simp only [lift, pmap, Metered.res_bind, Metered.res_pure, hl]
  unfold parse expression many0 many0Loop
  simp only [Metered.res_bind, Metered.res_pure, hs]

theorem nlCount_le_blen (cs : List Char) : nlCount cs ≤ blen cs := by
  induction cs with
  | nil => simp [nlCount]
  | cons c cs ih =>
    have := utf8Size_pos c
    simp only [nlCount, blen_cons]
    split <;> omega

/-- A 32-bit target. For `/repo/src/ast.rs:26`. -/
def bits32 : Machine := ⟨2 ^ 32 - 1, 2 ^ 32 - 1⟩

end Machine

/-! ## C58 -/

/-- **C58.** Unless the text has as many newlines as a `u32` can count, no counter overflows in `Expression::parse`: the
result is the one computed with unbounded numbers. (`blen src < K.usizeMax` holds of every string there can be: Rust
limits the size of objects to `isize::MAX`.) -/
theorem C58_no_overflow (K : Machine) (src : List Char) (h1 : blen src < K.usizeMax) (h2 : nlCount src < K.u32Max) :
    (K.parse src).res = Expression.parse src :=
  (Machine.parse_parts h1 (by omega)).1

/-- On 64-bit targets: every string below 4 GiB, and every longer one with fewer than 2^32 - 1 newlines. -/
theorem C58_64bit (src : List Char) (h1 : blen src < 2 ^ 63) (h2 : blen src < 2 ^ 32 - 1 ∨ nlCount src < 2 ^ 32 - 1) :
    (Machine.bits64.parse src).res = Expression.parse src ∧ (Machine.bits64.parse src).res ≠ .panic := by
  have hn := Machine.nlCount_le_blen src
  have h : (Machine.bits64.parse src).res = Expression.parse src :=
    C58_no_overflow _ src (by simp only [Machine.bits64]; omega) (by simp only [Machine.bits64]; omega)
  exact ⟨h, by rw [h]; exact (C08_parse_no_panic src).1⟩

/-- On 32-bit targets: every string there can be. -/
theorem C58_32bit (src : List Char) (h1 : blen src < 2 ^ 31) :
    (Machine.bits32.parse src).res = Expression.parse src ∧ (Machine.bits32.parse src).res ≠ .panic := by
  have hn := Machine.nlCount_le_blen src
  have h : (Machine.bits32.parse src).res = Expression.parse src :=
    C58_no_overflow _ src (by simp only [Machine.bits32]; omega) (by simp only [Machine.bits32]; omega)
  exact ⟨h, by rw [h]; exact (C08_parse_no_panic src).1⟩

/-- The bound on newlines is sharp: 2^32 - 1 newlines overflow the line counter of a 64-bit target. -/
theorem C58_sharp (K : Machine) (h : 0 < K.u32Max) :
    ∃ src, nlCount src = K.u32Max ∧ blen src = K.u32Max ∧ (K.parse src).res = .panic :=
  ⟨_, Machine.nlCount_replicate _, Machine.blen_replicate _, Machine.parse_overflow K h⟩

/-- Skipping 2^32 newlines at once leaves the line number as it is, as the number of newlines is truncated to a `u32`:
lines are then wrong without any panic. -/
theorem C58_truncated (K : Machine) (s : Span) (b : List Char)
    (hs : s.frag = List.replicate (K.u32Max + 1) '\n' ++ b) (h1 : s.offset + (K.u32Max + 1) ≤ K.usizeMax)
    (h2 : s.line ≤ K.u32Max) : (K.takeFrom s (K.u32Max + 1)).res = some ⟨s.offset + (K.u32Max + 1), s.line, b⟩ := by
  have hsp := splitBytes_append (List.replicate (K.u32Max + 1) '\n') b
  rw [Machine.blen_replicate] at hsp
  unfold Machine.takeFrom
  simp only [hs, hsp, Machine.nlCount_replicate, Nat.mod_self, Nat.add_zero]
  rw [if_pos ⟨h1, h2⟩]

/-- On a machine that counts lines up to 3, `x` is reported in line 1 instead of 5. -/
example : (Machine.parse ⟨1000, 3⟩ "\n\n\n\n x".toList).res =
    .ok [.text ⟨0, 1, "\n\n\n\n".toList⟩, .whitespaces ⟨4, 1, [' ']⟩, .text ⟨5, 1, ['x']⟩] := by rfl

/-- The same for each public parser, applied to any part of a text and with any count of parameters that is not the
largest `usize`. -/
theorem C58_parsers (K : Machine) (s : Span) (n : Nat) (h1 : s.offset + blen s.frag < K.usizeMax)
    (h2 : s.line + nlCount s.frag ≤ K.u32Max) (hn : n < K.usizeMax) :
    (K.parameter s n).res = parameter s n ∧ (K.optional s).res = optional s ∧ (K.alternative s).res = alternative s ∧
    (K.alternation s).res = alternation s ∧ (K.singleExpression s n).res = singleExpression s n ∧
    (K.expression s).res = expression s := by
  have hf : Fits K s := ⟨h1, h2⟩
  refine ⟨(Machine.parameter_run hf (by omega)).res, (Machine.optional_run hf).res, (Machine.alternative_run hf).res,
    (Machine.alternation_run hf).res, (Machine.single_parts hf (by omega)).1, ?_⟩
  have := (Machine.many0_run (K := K) (blen s.frag) hf (n := 0) (by omega) (Nat.le_refl _) (s.inputLen + 1)
    (by simp [Span.inputLen])).1
  unfold Machine.expression expression Machine.many0 many0
  simp only [Metered.res_bind, this, Metered.res_pure]

/-- With the largest `usize` as the count, reading a parameter panics, unlike with any smaller one. -/
theorem C58_parameter_count (K : Machine) (h1 : 3 ≤ K.usizeMax) (h2 : 1 ≤ K.u32Max) :
    (K.parameter (Span.new "{}".toList) K.usizeMax).res.1 = .error .panic := by
  have hf : Fits K (Span.new "{}".toList) :=
    ⟨by simp only [Span.new]; show 0 + 2 < _; omega, by simp only [Span.new]; show 1 + 0 ≤ _; omega⟩
  have hf1 : Fits K ⟨1, 1, ['}']⟩ := ⟨by show 1 + 1 < _; omega, by show 1 + 0 ≤ _; omega⟩
  have t1 := (Machine.tag_run hf '{' (by decide)).res
  have t2 := (Machine.escaped_run (p := isName) (by decide) hf1).res
  have t3 := (Machine.tag_run hf1 '}' (by decide)).res
  have e1 : tag ['{'] (Span.new "{}".toList) = .ok (⟨1, 1, ['}']⟩, ⟨0, 1, ['{']⟩) := by rfl
  have e2 : escapedReservedChars0 (takeWhile isName) ⟨1, 1, ['}']⟩ = .ok (⟨1, 1, ['}']⟩, ⟨1, 1, []⟩) := by rfl
  have e3 : tag ['}'] ⟨1, 1, ['}']⟩ = .ok (⟨2, 1, []⟩, ⟨1, 1, ['}']⟩) := by rfl
  rw [e1] at t1; rw [e2] at t2; rw [e3] at t3
  have hadd : K.add K.usizeMax 1 = none := by unfold Machine.add; rw [if_neg (by omega)]
  unfold Machine.parameter Machine.parameterF
  simp only [Metered.res_bind, Metered.res_pure, t1, t2, t3, Machine.mapErr, hadd]

example : ∃ src, src ≠ [] ∧ blen src < 2 ^ 63 ∧ blen src < 2 ^ 32 - 1 := ⟨['a'], by simp, by decide, by decide⟩

/-! ## C59 -/

/-- **C59.** The work of `Expression::parse` is at most proportional to the length of the text times the number of its
`(`, plus one. -/
theorem C59_work (K : Machine) (src : List Char) (h1 : blen src < K.usizeMax) (h2 : nlCount src < K.u32Max) :
    (K.parse src).cost ≤ 1500 * (blen src + 1) * (src.count '(' + 1) :=
  (Machine.parse_parts h1 (by omega)).2

/-- Without optionals it is linear. -/
theorem C59_linear (K : Machine) (src : List Char) (h1 : blen src < K.usizeMax) (h2 : nlCount src < K.u32Max)
    (h : '(' ∉ src) : (K.parse src).cost ≤ 1500 * (blen src + 1) := by
  have := C59_work K src h1 h2
  rw [List.count_eq_zero_of_not_mem h] at this
  simpa using this

/-- It is never more than quadratic ... -/
theorem C59_quadratic (K : Machine) (src : List Char) (h1 : blen src < K.usizeMax) (h2 : nlCount src < K.u32Max) :
    (K.parse src).cost ≤ 1500 * (blen src + 1) * (blen src + 1) := by
  have h3 : src.count '(' ≤ blen src := by
    clear h1 h2
    induction src with
    | nil => simp
    | cons c cs ih =>
      have := utf8Size_pos c
      rw [List.count_cons, blen_cons]
      split <;> omega
  exact Nat.le_trans (C59_work K src h1 h2) (Nat.mul_le_mul_left _ (by omega))

/-- ... and with optionals it can be quadratic: `(a)(a)(a)...` is read again from each optional on, in search of an
alternation. -/
theorem C59_quadratic_reached (K : Machine) (k : Nat) (h1 : 3 * k < K.usizeMax) (h2 : 1 ≤ K.u32Max) :
    ∃ src, blen src = 3 * k ∧ k * k ≤ 2 * (K.parse src).cost ∧ ∃ e, Expression.parse src = .ok e := by
  have hnl : nlCount (Machine.optionals k) = 0 := by
    clear h1
    induction k with
    | zero => rfl
    | succ k ih => simp [Machine.optionals, nlCount_cons, ih]
  have hb := Machine.blen_optionals k
  refine ⟨Machine.optionals k, hb, ?_, ?_⟩
  · have hf : Fits K (Span.new (Machine.optionals k)) := Machine.fits_new (by omega) (by omega)
    have := Machine.many0_cost_ge k (s := Span.new (Machine.optionals k)) (n := 0) rfl hf (.inr rfl)
      ((Span.new (Machine.optionals k)).inputLen + 1) (by simp [Span.inputLen])
    have h3 : k * k ≤ k * (k + 1) := Nat.mul_le_mul_left _ (by omega)
    unfold Machine.parse Machine.expression Machine.many0
    simp only [Metered.cost_bind, Metered.cost_pure]
    omega
  · have hr : ∃ es, ReadsElems (Machine.optionals k) es [] := by
      clear h1 hnl hb
      induction k with
      | zero => exact ⟨[], .nil _⟩
      | succ k ih =>
        obtain ⟨es, h⟩ := ih
        exact ⟨_, .cons _ _ _ _ _ (Machine.elemOk_optionals k) h⟩
    obtain ⟨es, hes⟩ := hr
    have := many0_ok (Span.new (Machine.optionals k)) hes 0 ((Span.new (Machine.optionals k)).inputLen + 1)
      (by simp [Span.inputLen])
    refine ⟨locate (Span.new (Machine.optionals k)) [] 0 es, ?_⟩
    unfold Expression.parse expression many0
    rw [this]
    simp

/-- The hypotheses hold of a text with an alternation, an optional, a parameter and a newline. -/
example : let src := "a(b)/c {int}\n".toList
    blen src < Machine.bits64.usizeMax ∧ nlCount src < Machine.bits64.u32Max ∧
    ∃ e, (Machine.bits64.parse src).res = .ok e := by
  exact ⟨by decide, by decide, _, rfl⟩

end CE
