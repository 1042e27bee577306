import Verif.Spec.Values
import Verif.Proof.HirPrint
import Verif.Prop.Expand

/-! # C64: values -/

namespace CE
open Spec Spec.Values
open Regex (Classes Cap Re decimal_ne_nil isDigit_decimal)

theorem num_digits {U : Classes} (hU : AsciiDigits U) {x : List Char} (h : Num x) : Digits U x := by
  refine ⟨h.1, fun c hc => (hU c ?_).2 (h.2 c hc)⟩
  have := h.2 c hc
  simp only [Char.isDigit, Bool.and_eq_true, decide_eq_true_eq] at this
  have h2 : c.val.toNat ≤ 57 := this.2
  show c.val.toNat < 128
  omega

theorem num0_digits {U : Classes} (hU : AsciiDigits U) {x : List Char} (h : Num0 x) : Digits0 U x := by
  cases x with
  | nil => intro c hc; cases hc
  | cons a x => exact (num_digits hU ⟨by simp, h⟩).2

theorem digits_num {U : Classes} (hU : AsciiDigits U) {x : List Char} (ha : Ascii x) (h : Digits U x) : Num x :=
  ⟨h.1, fun c hc => (hU c (ha c hc)).1 (h.2 c hc)⟩

theorem digits0_num {U : Classes} (hU : AsciiDigits U) {x : List Char} (ha : Ascii x) (h : Digits0 U x) : Num0 x :=
  fun c hc => (hU c (ha c hc)).1 (h c hc)

theorem num_toDigits (n : Nat) : Num (Nat.toDigits 10 n) :=
  ⟨decimal_ne_nil n, fun _ hc => isDigit_decimal hc⟩

theorem readNat_of_num {x : List Char} (h : Num x) : readNat x = some (digitsValue x) := by
  unfold readNat
  rw [if_pos ⟨h.1, by simpa [Num0] using h.2⟩]

theorem num_of_readNat {x : List Char} {n : Nat} (h : readNat x = some n) : Num x ∧ n = digitsValue x := by
  unfold readNat at h
  split at h
  · rename_i hx
    simp only [Option.some.injEq] at h
    exact ⟨⟨hx.1, by simpa [Num0] using hx.2⟩, h.symm⟩
  · cases h

theorem readNat_toDigits (n : Nat) : readNat (Nat.toDigits 10 n) = some n := by
  rw [readNat_of_num (num_toDigits n)]
  exact congrArg some (Nat.ofDigitChars_ten_toDigits (n := n))

theorem readInt_num {x : List Char} (h : Num x) : readInt x = some (digitsValue x : Int) := by
  cases x with
  | nil => exact absurd rfl h.1
  | cons c d =>
    have hc := h.2 c (by simp)
    simp only [readInt]
    rw [if_neg (by rintro rfl; simp at hc), if_neg (by rintro rfl; simp at hc), readNat_of_num h]
    rfl

/-! ## Integers -/

theorem printInt_lang {U : Classes} (hU : AsciiDigits U) (n : Int) : Builtin.int.Lang U (printInt n) := by
  cases n with
  | ofNat n => exact ⟨_, num_digits hU (num_toDigits n), .inl rfl⟩
  | negSucc n => exact ⟨_, num_digits hU (num_toDigits (n + 1)), .inr rfl⟩

/-- C64: `{int}` matches and captures every integer Rust prints. -/
theorem C64_int_printed : ∃ c, Expression.regex ['{', 'i', 'n', 't', '}'] = .ok c ∧ ∀ (U : Classes), AsciiDigits U → ∀ n : Int,
    c.re.IsMatch U (printInt n) ∧ ∀ pre x post l, c.re.Finds U (printInt n) pre x post l → l = [⟨1, 0, printInt n⟩] := by
  obtain ⟨c, hc, h⟩ := C39_builtin .int
  refine ⟨c, hc, fun U hU n => ⟨(h U _).1.2 (printInt_lang hU n), fun pre x post l hf => ((h U _).2 pre x post l hf).2.2.2⟩⟩

/-- C64: ... and Rust reads it back. -/
theorem C64_int_read_back (n : Int) : readInt (printInt n) = some n := by
  cases n with
  | ofNat n =>
    unfold printInt
    rw [readInt_num (num_toDigits n)]
    have := readNat_toDigits n
    rw [readNat_of_num (num_toDigits n), Option.some.injEq] at this
    rw [this]; rfl
  | negSucc n =>
    show (readNat (Nat.toDigits 10 (n + 1))).map (fun n : Nat => -(n : Int)) = _
    rw [readNat_toDigits]; rfl

/-- C64: with the type of the value, too. -/
theorem C64_signed_read_back (bits : Nat) (n : Int) (h : -(2 : Int) ^ (bits - 1) ≤ n ∧ n < (2 : Int) ^ (bits - 1)) :
    readSigned bits (printInt n) = some n := by
  unfold readSigned
  rw [C64_int_read_back]
  simp [Option.filter, h]

/-- C64: Rust reads every ASCII text which `{int}` matches; a fixed-width type reads it unless the value is out of range. -/
theorem C64_int_readable (U : Classes) (hU : AsciiDigits U) (x : List Char) (ha : Ascii x) (h : Builtin.int.Lang U x) :
    ∃ n, readInt x = some n ∧
      ∀ bits, readSigned bits x = none ↔ ¬ (-(2 : Int) ^ (bits - 1) ≤ n ∧ n < (2 : Int) ^ (bits - 1)) := by
  have key : ∃ n, readInt x = some n := by
    obtain ⟨d, hd, rfl | rfl⟩ := h
    · exact ⟨_, readInt_num (digits_num hU ha hd)⟩
    · have := digits_num hU (fun c hc => ha c (by simp [hc])) hd
      refine ⟨-(digitsValue d : Int), ?_⟩
      simp only [readInt, if_true]
      rw [readNat_of_num this]; rfl
  obtain ⟨n, hn⟩ := key
  refine ⟨n, hn, fun bits => ?_⟩
  unfold readSigned
  rw [hn]
  simp [Option.filter]

/-- C64: all that Rust reads and `{int}` does not match has a plus sign. -/
theorem C64_int_missing (U : Classes) (hU : AsciiDigits U) (x : List Char) (n : Int) (h : readInt x = some n) :
    Builtin.int.Lang U x ∨ ∃ d, x = '+' :: d := by
  cases x with
  | nil => cases h
  | cons c d =>
    simp only [readInt] at h
    split at h
    · rename_i hc
      subst hc
      simp only [Option.map_eq_some_iff] at h
      obtain ⟨m, hm, -⟩ := h
      exact .inl ⟨d, num_digits hU (num_of_readNat hm).1, .inr rfl⟩
    · split at h
      · rename_i hc
        subst hc
        exact .inr ⟨d, rfl⟩
      · simp only [Option.map_eq_some_iff] at h
        obtain ⟨m, hm, -⟩ := h
        exact .inl ⟨_, num_digits hU (num_of_readNat hm).1, .inl rfl⟩

/-- A plus sign is not matched, although Rust reads it. -/
theorem C64_int_plus (U : Classes) (hU : AsciiDigits U) : ¬ Builtin.int.Lang U ['+', '5'] ∧ readInt ['+', '5'] = some 5 := by
  refine ⟨?_, by decide⟩
  rintro ⟨d, hd, rfl | h⟩
  · exact absurd ((hU '+' (by decide)).1 (hd.2 '+' (by simp))) (by decide)
  · simp at h

/-- C64: other digits than those of ASCII, of which `regex` knows many, are matched, but not read. -/
theorem C64_int_unicode (U : Classes) (c : Char) (hc : U.digit c) (hn : ¬ c.toNat < 128) :
    Builtin.int.Lang U [c] ∧ readInt [c] = none := by
  refine ⟨⟨[c], ⟨by simp, by simpa [Digits0] using hc⟩, .inl rfl⟩, ?_⟩
  have h1 : c ≠ '-' := by rintro rfl; exact hn (by decide)
  have h2 : c ≠ '+' := by rintro rfl; exact hn (by decide)
  have h3 : c.isDigit = false := by
    rw [← Bool.not_eq_true]
    intro h
    simp only [Char.isDigit, Bool.and_eq_true, decide_eq_true_eq] at h
    have h2 : c.val.toNat ≤ 57 := h.2
    exact hn (show c.val.toNat < 128 by omega)
  simp [readInt, h1, h2, readNat, h3]

/-! ## Floats -/

/-- C64: `{float}` matches and captures everything Rust prints for a float. -/
theorem C64_float_printed : ∃ c, Expression.regex ['{', 'f', 'l', 'o', 'a', 't', '}'] = .ok c ∧
    ∀ (U : Classes), AsciiDigits U → ∀ t, PrintedFloat t →
      c.re.IsMatch U t ∧ ∀ pre x post l, c.re.Finds U t pre x post l → l = [⟨1, 0, t⟩] := by
  obtain ⟨c, hc, h⟩ := C39_builtin .float
  refine ⟨c, hc, fun U hU t ht => ⟨(h U _).1.2 ?_, fun pre x post l hf => ((h U _).2 pre x post l hf).2.2.2⟩⟩
  obtain ⟨s, b, rfl, hs, hb⟩ := ht
  refine ⟨s, b, rfl, by rcases hs with rfl | rfl <;> simp [Sign], ?_⟩
  rcases hb with rfl | rfl | ⟨a, f, e, rfl, ha, hf, he⟩
  · exact .inl rfl
  · exact .inr (.inl rfl)
  · refine .inr (.inr ⟨a ++ f, e, rfl, ?_, ?_⟩)
    · rcases hf with rfl | ⟨d, rfl, hd⟩
      · rw [List.append_nil]; exact .inl (num_digits hU ha)
      · exact .inr ⟨a, d, rfl, num0_digits hU ha.2, num0_digits hU hd.2, .inl ha.1⟩
    · rcases he with rfl | ⟨c, s, d, rfl, hc, hs, hd⟩
      · exact .inl rfl
      · exact .inr ⟨c, s, d, rfl, hc, by rcases hs with rfl | rfl <;> simp [Sign], num_digits hU hd⟩

theorem ascii_append {a b : List Char} : Ascii (a ++ b) ↔ Ascii a ∧ Ascii b := by
  simp only [Ascii, List.mem_append]
  exact ⟨fun h => ⟨fun c hc => h c (.inl hc), fun c hc => h c (.inr hc)⟩,
    fun h c hc => hc.elim (h.1 c) (h.2 c)⟩

theorem ascii_cons {a : Char} {b : List Char} : Ascii (a :: b) ↔ a.toNat < 128 ∧ Ascii b := by
  simp [Ascii]

/-- C64: Rust reads every ASCII text which `{float}` matches. Of the texts Rust reads, `{float}` matches all numbers, and
`inf` and `NaN` in this spelling. -/
theorem C64_float_readable (U : Classes) (hU : AsciiDigits U) (x : List Char) (ha : Ascii x) :
    Builtin.float.Lang U x ↔
      ReadableFloat x ∧ ∃ s b, x = s ++ b ∧ (s = [] ∨ s = ['+'] ∨ s = ['-']) ∧
        (b = ['i', 'n', 'f'] ∨ b = ['N', 'a', 'N'] ∨ FloatNumber b) := by
  have key : ∀ b, Ascii b → ((∃ m e, b = m ++ e ∧ Mantissa U m ∧ (e = [] ∨ Exponent U e)) ↔ FloatNumber b) := by
    intro b hb
    constructor
    · rintro ⟨m, e, rfl, hm, he⟩
      obtain ⟨am, ae⟩ := ascii_append.1 hb
      refine ⟨m, e, rfl, ?_, ?_⟩
      · rcases hm with hm | ⟨a, b, rfl, h1, h2, h3⟩
        · exact .inl (digits_num hU am hm)
        · obtain ⟨aa, ab⟩ := ascii_append.1 am
          have ab := (ascii_cons.1 ab).2
          rcases h3 with h3 | h3
          · exact .inr (.inl ⟨a, b, rfl, ⟨h3, digits0_num hU aa h1⟩, digits0_num hU ab h2⟩)
          · exact .inr (.inr ⟨a, b, rfl, digits0_num hU aa h1, h3, digits0_num hU ab h2⟩)
      · rcases he with rfl | ⟨c, s, d, rfl, hc, hs, hd⟩
        · exact .inl rfl
        · exact .inr ⟨c, s, d, rfl, hc, hs, digits_num hU (ascii_append.1 (ascii_cons.1 ae).2).2 hd⟩
    · rintro ⟨m, e, rfl, hm, he⟩
      refine ⟨m, e, rfl, ?_, ?_⟩
      · rcases hm with hm | ⟨a, b, rfl, h1, h2⟩ | ⟨a, b, rfl, h1, h2⟩
        · exact .inl (num_digits hU hm)
        · exact .inr ⟨a, b, rfl, num0_digits hU h1.2, num0_digits hU h2, .inl h1.1⟩
        · exact .inr ⟨a, b, rfl, num0_digits hU h1, num0_digits hU h2.2, .inr h2.1⟩
      · rcases he with rfl | ⟨c, s, d, rfl, hc, hs, hd⟩
        · exact .inl rfl
        · exact .inr ⟨c, s, d, rfl, hc, hs, num_digits hU hd⟩
  constructor
  · rintro ⟨s, b, rfl, hs, hb⟩
    have ab := (ascii_append.1 ha).2
    rw [key b ab] at hb
    refine ⟨⟨s, b, rfl, hs, ?_⟩, s, b, rfl, hs, hb⟩
    rcases hb with rfl | rfl | hb
    · exact .inl (by unfold FloatWord; decide)
    · exact .inl (by unfold FloatWord; decide)
    · exact .inr hb
  · rintro ⟨-, s, b, rfl, hs, hb⟩
    rw [← key b (ascii_append.1 ha).2] at hb
    exact ⟨s, b, rfl, hs, hb⟩

/-! ## Strings and words -/

theorem quoted_Quoted {q : Char} (hq : q ≠ '\n') (x : List Char) : Quoted q (quoted q x) := by
  induction x with
  | nil => exact .nil
  | cons c x ih =>
    unfold quoted at ih ⊢
    rw [List.flatMap_cons]
    split
    · rename_i h
      refine .pair c _ ?_ ih
      rcases h with rfl | rfl
      · exact hq
      · decide
    · rename_i h
      rw [not_or] at h
      exact .char c _ h.1 h.2 ih

/-- C64: putting backslashes can be undone. -/
theorem C64_unquoted (q : Char) (x : List Char) : unquoted (quoted q x) = x := by
  induction x with
  | nil => rfl
  | cons c x ih =>
    unfold quoted at ih ⊢
    rw [List.flatMap_cons]
    split
    · show unquoted ('\\' :: c :: x.flatMap _) = _
      unfold unquoted
      rw [if_pos rfl, ih]
    · rename_i h
      rw [not_or] at h
      generalize x.flatMap _ = y at *
      cases y with
      | nil => rw [← ih]; rfl
      | cons d y =>
        show unquoted (c :: d :: y) = _
        unfold unquoted
        rw [if_neg h.2, ih]

/-- C64: every text whatsoever can be given to `{string}`, in either quotes; what is captured is the text between the
quotes, from which the text is recovered by removing the backslashes (which the regex does not do). -/
theorem C64_string (x : List Char) : ∃ c, Expression.regex ['{', 's', 't', 'r', 'i', 'n', 'g', '}'] = .ok c ∧ ∀ (U : Classes) (q : Char),
    q = '"' ∨ q = '\'' → c.re.IsMatch U (q :: (quoted q x ++ [q])) ∧ ∀ pre y post l,
      c.re.Finds U (q :: (quoted q x ++ [q])) pre y post l →
        ∃ g, l = [⟨g, 1, quoted q x⟩] ∧ g = (if q = '"' then 1 else 2) ∧ unquoted (quoted q x) = x := by
  obtain ⟨c, hc, h⟩ := C39_builtin .string
  refine ⟨c, hc, fun U q hq => ⟨(h U _).1.2 ⟨q, _, hq, rfl, quoted_Quoted (by rcases hq with rfl | rfl <;> decide) x⟩, ?_⟩⟩
  intro pre y post l hf
  obtain ⟨i, ⟨h1, h2⟩ | ⟨h1, h2⟩⟩ := ((h U _).2 pre y post l hf).2.2.2
  · have h3 := List.cons.inj h1
    obtain ⟨rfl, h4⟩ := h3
    rw [List.append_cancel_right h4]
    exact ⟨_, h2, rfl, by rw [← List.append_cancel_right h4, C64_unquoted]⟩
  · have h3 := List.cons.inj h1
    obtain ⟨rfl, h4⟩ := h3
    rw [List.append_cancel_right h4]
    exact ⟨_, h2, rfl, by rw [← List.append_cancel_right h4, C64_unquoted]⟩

/-! ## Examples -/

/-- The ASCII classes satisfy the hypothesis. -/
example : AsciiDigits ⟨fun c => c.isDigit = true, fun c => c = ' ', fun c => c.isAlphanum = true, fun _ _ => False, fun _ _ => False⟩ := fun _ _ => Iff.rfl

/-- So do classes with a digit outside ASCII: the Arabic-Indic digit 3. -/
example : ∃ U : Classes, AsciiDigits U ∧ U.digit '٣' :=
  ⟨⟨fun c => c.isDigit = true ∨ c = '٣', fun c => c = ' ', fun _ => True, fun _ _ => False, fun _ _ => False⟩,
    fun c hc => ⟨fun h => h.resolve_right (by rintro rfl; exact absurd hc (by decide)), .inl⟩, .inr rfl⟩

example : printInt (-42) = ['-', '4', '2'] ∧ readInt ['-', '4', '2'] = some (-42) ∧ readInt ['4', '+'] = none ∧
    readSigned 8 ['1', '2', '8'] = none ∧ readSigned 8 ['-', '1', '2', '8'] = some (-128) := by decide

/-- `1.5e-7` is printed by Rust. -/
example : PrintedFloat ['1', '.', '5', 'e', '-', '7'] :=
  ⟨[], _, rfl, .inl rfl, .inr (.inr ⟨['1'], ['.', '5'], ['e', '-', '7'], rfl, ⟨by simp, by simp [Num0]⟩,
    .inr ⟨['5'], rfl, by simp, by simp [Num0]⟩, .inr ⟨'e', ['-'], ['7'], rfl, .inl rfl, .inr rfl, by simp, by simp [Num0]⟩⟩)⟩

/-- `infinity` is read by Rust. -/
example : ReadableFloat ['I', 'n', 'f', 'i', 'n', 'i', 't', 'y'] := ⟨[], _, rfl, .inl rfl, .inl (by unfold FloatWord; decide)⟩

example : quoted '"' ['a', '"', '\\', '\''] = ['a', '\\', '"', '\\', '\\', '\''] := by decide

end CE
