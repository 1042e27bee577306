import Verif.Proof.Builtin

/-! # What the patterns of the built-in parameters match -/

namespace CE.Regex
open CE.Spec

variable {U : Classes}

/-- `r` has no groups and matches exactly the texts in `L`, in every context. -/
def Plain (U : Classes) (r : Re) (L : List Char → Prop) : Prop :=
  ∀ g pre x post l, r.Match U g pre x post l ↔ L x ∧ l = []

theorem Plain.congr {r : Re} {L L' : List Char → Prop} (h : Plain U r L) (hL : ∀ x, L x ↔ L' x) : Plain U r L' := by
  intro g pre x post l
  rw [h g pre x post l, hL]

theorem Plain.lit (c : Char) : Plain U (.lit c) (· = [c]) := fun _ _ _ _ _ => Iff.rfl

theorem Plain.cls (k : Cls) : Plain U (.cls k) (fun x => ∃ c, k.mem U c ∧ x = [c]) := fun _ _ _ _ _ => Iff.rfl

theorem Plain.cat {a b : Re} {L M : List Char → Prop} (ha : Plain U a L) (hb : Plain U b M) :
    Plain U (.cat a b) (fun x => ∃ y z, x = y ++ z ∧ L y ∧ M z) := by
  intro g pre x post l
  rw [Re.Match]
  constructor
  · rintro ⟨y, z, k, m, rfl, rfl, h1, h2⟩
    obtain ⟨p1, rfl⟩ := (ha _ _ _ _ _).1 h1
    obtain ⟨p2, rfl⟩ := (hb _ _ _ _ _).1 h2
    exact ⟨⟨y, z, rfl, p1, p2⟩, rfl⟩
  · rintro ⟨⟨y, z, rfl, h1, h2⟩, rfl⟩
    exact ⟨y, z, [], [], rfl, rfl, (ha _ _ _ _ _).2 ⟨h1, rfl⟩, (hb _ _ _ _ _).2 ⟨h2, rfl⟩⟩

theorem Plain.alt {a b : Re} {L M : List Char → Prop} (ha : Plain U a L) (hb : Plain U b M) :
    Plain U (.alt a b) (fun x => L x ∨ M x) := by
  intro g pre x post l
  rw [Re.Match, ha _ _ _ _ _, hb _ _ _ _ _]
  constructor
  · rintro (⟨h, rfl⟩ | ⟨h, rfl⟩)
    · exact ⟨.inl h, rfl⟩
    · exact ⟨.inr h, rfl⟩
  · rintro ⟨h | h, rfl⟩
    · exact .inl ⟨h, rfl⟩
    · exact .inr ⟨h, rfl⟩

theorem Plain.quest {a : Re} {L : List Char → Prop} {b : Bool} (ha : Plain U a L) :
    Plain U (.rep a 0 (some 1) b) (fun x => x = [] ∨ L x) := by
  intro g pre x post l
  rw [Re.Match, repeats_quest, ha _ _ _ _ _]
  constructor
  · rintro (⟨h, rfl⟩ | ⟨h, rfl⟩)
    · exact ⟨.inl h, rfl⟩
    · exact ⟨.inr h, rfl⟩
  · rintro ⟨h | h, rfl⟩
    · exact .inl ⟨h, rfl⟩
    · exact .inr ⟨h, rfl⟩

theorem Plain.single {a : Re} {Q : Char → Prop} (ha : Plain U a (fun x => ∃ c, Q c ∧ x = [c])) (m : Nat) {b : Bool} :
    Plain U (.rep a m none b) (fun x => m ≤ x.length ∧ ∀ c ∈ x, Q c) := by
  intro g pre x post l
  rw [Re.Match, repeats_single (Q := Q) (ha g) m pre x post l, and_assoc]

theorem mem_digitCls (c : Char) : digitCls.mem U c ↔ U.digit c := by
  simp [digitCls, Cls.mem, CItem.mem, Perl.mem]

theorem plain_digits : Plain U reDigits (Digits U) :=
  (Plain.single (Plain.cls _) 1).congr fun x => by
    simp only [Digits, Digits0, mem_digitCls, Nat.succ_le_iff, List.length_pos_iff]

theorem plain_digits0 : Plain U reDigits0 (Digits0 U) :=
  (Plain.single (Plain.cls _) 0).congr fun x => by simp [Digits0, mem_digitCls]

theorem plain_sign : Plain U reSign Sign :=
  (Plain.quest (Plain.cls _)).congr fun x => by
    simp only [Sign, Cls.mem]
    constructor
    · rintro (rfl | ⟨c, ⟨i, hi, hc⟩, rfl⟩)
      · exact .inl rfl
      · simp at hi
        rcases hi with rfl | rfl <;> simp [CItem.mem] at hc <;> subst hc <;> simp
    · rintro (rfl | rfl | rfl)
      · exact .inl rfl
      · exact .inr ⟨'+', ⟨.single '+', by simp, rfl⟩, rfl⟩
      · exact .inr ⟨'-', ⟨.single '-', by simp, rfl⟩, rfl⟩

theorem match_cap {n : Option (List Char)} {r : Re} {L : List Char → Prop} (h : Plain U r L) (g : Nat)
    (pre x post : List Char) (l : List Cap) :
    (Re.cap n r).Match U g pre x post l ↔ L x ∧ l = [⟨g, pre.length, x⟩] := by
  rw [Re.Match]
  constructor
  · rintro ⟨k, h1, rfl⟩
    obtain ⟨p1, rfl⟩ := (h _ _ _ _ _).1 h1
    exact ⟨p1, rfl⟩
  · rintro ⟨h1, rfl⟩
    exact ⟨[], (h _ _ _ _ _).2 ⟨h1, rfl⟩, rfl⟩

theorem match_int (g : Nat) (pre x post : List Char) (l : List Cap) :
    intRe.Match U g pre x post l ↔ Builtin.int.Lang U x ∧ Builtin.int.Captures g pre.length x l := by
  unfold intRe
  rw [match_cap (((Plain.quest (Plain.lit '-')).cat plain_digits).alt plain_digits)]
  simp only [Builtin.Captures, Builtin.Lang]
  refine and_congr_left fun _ => ?_
  constructor
  · rintro (⟨y, z, rfl, (rfl | rfl), hz⟩ | h)
    · exact ⟨z, hz, .inl rfl⟩
    · exact ⟨z, hz, .inr rfl⟩
    · exact ⟨x, h, .inl rfl⟩
  · rintro ⟨d, hd, (rfl | rfl)⟩
    · exact .inr hd
    · exact .inl ⟨['-'], d, rfl, .inr rfl, hd⟩

theorem plain_mantissa : Plain U mantissaRe (Mantissa U) :=
  (plain_digits.alt ((plain_digits.cat ((Plain.lit '.').cat plain_digits0)).alt
    (plain_digits0.cat ((Plain.lit '.').cat plain_digits)))).congr fun x => by
    simp only [Mantissa]
    constructor
    · rintro (h | ⟨y, z, rfl, h1, ⟨_, b, rfl, rfl, h2⟩⟩ | ⟨y, z, rfl, h1, ⟨_, b, rfl, rfl, h2⟩⟩)
      · exact .inl h
      · exact .inr ⟨y, b, rfl, h1.2, h2, .inl h1.1⟩
      · exact .inr ⟨y, b, rfl, h1, h2.2, .inr h2.1⟩
    · rintro (h | ⟨a, b, rfl, h1, h2, (h | h)⟩)
      · exact .inl h
      · exact .inr (.inl ⟨a, '.' :: b, rfl, ⟨h, h1⟩, ['.'], b, rfl, rfl, h2⟩)
      · exact .inr (.inr ⟨a, '.' :: b, rfl, h1, ['.'], b, rfl, rfl, h, h2⟩)

theorem plain_exponent : Plain U exponentRe (fun x => x = [] ∨ Exponent U x) :=
  (Plain.quest ((Plain.cls _).cat (plain_sign.cat plain_digits))).congr fun x => by
    refine or_congr_right ?_
    simp only [Exponent, Cls.mem]
    constructor
    · rintro ⟨_, _, rfl, ⟨c, ⟨i, hi, hc⟩, rfl⟩, s, d, rfl, hs, hd⟩
      refine ⟨c, s, d, rfl, ?_, hs, hd⟩
      simp at hi
      rcases hi with rfl | rfl <;> simp [CItem.mem] at hc <;> simp [hc]
    · rintro ⟨c, s, d, rfl, hc, hs, hd⟩
      refine ⟨[c], s ++ d, rfl, ⟨c, ?_, rfl⟩, s, d, rfl, hs, hd⟩
      rcases hc with rfl | rfl
      · exact ⟨.single 'e', by simp, rfl⟩
      · exact ⟨.single 'E', by simp, rfl⟩

theorem plain_word3 (a b c : Char) : Plain U (.cat (.lit a) (.cat (.lit b) (.lit c))) (· = [a, b, c]) :=
  ((Plain.lit a).cat ((Plain.lit b).cat (Plain.lit c))).congr fun x => by
    constructor
    · rintro ⟨_, _, rfl, rfl, _, _, rfl, rfl, rfl⟩; rfl
    · rintro rfl; exact ⟨[a], [b, c], rfl, rfl, [b], [c], rfl, rfl, rfl⟩

theorem match_float (g : Nat) (pre x post : List Char) (l : List Cap) :
    floatRe.Match U g pre x post l ↔ Builtin.float.Lang U x ∧ Builtin.float.Captures g pre.length x l := by
  unfold floatRe
  rw [match_cap (plain_sign.cat ((plain_word3 'i' 'n' 'f').alt ((plain_word3 'N' 'a' 'N').alt
    (plain_mantissa.cat plain_exponent))))]
  simp only [Builtin.Captures, Builtin.Lang]

theorem match_word (g : Nat) (pre x post : List Char) (l : List Cap) :
    wordRe.Match U g pre x post l ↔ Builtin.word.Lang U x ∧ Builtin.word.Captures g pre.length x l := by
  unfold wordRe
  rw [match_cap (Plain.single (Plain.cls _) 1)]
  simp only [Builtin.Captures, Builtin.Lang]
  refine and_congr_left fun _ => ?_
  simp only [Nat.succ_le_iff, List.length_pos_iff]
  refine and_congr_right fun _ => ?_
  simp [Cls.mem, CItem.mem, Perl.mem]

theorem plain_dot : Plain U .dot (fun x => ∃ c, c ≠ '\n' ∧ x = [c]) := fun _ _ _ _ _ => Iff.rfl

theorem match_anon (g : Nat) (pre x post : List Char) (l : List Cap) :
    anonRe.Match U g pre x post l ↔ Builtin.anonymous.Lang U x ∧ Builtin.anonymous.Captures g pre.length x l := by
  unfold anonRe
  rw [match_cap (Plain.single plain_dot 0)]
  simp only [Builtin.Captures, Builtin.Lang]
  refine and_congr_left fun _ => ?_
  constructor
  · rintro ⟨_, h⟩ hn; exact h _ hn rfl
  · intro h; exact ⟨Nat.zero_le _, fun c hc hn => h (hn ▸ hc)⟩

/-! ## `string` -/

/-- Characters other than `q` and backslash. -/
def Unquoted (q : Char) (x : List Char) : Prop := ∀ c ∈ x, c ≠ q ∧ c ≠ '\\'

theorem plain_notQuote (q : Char) : Plain U (notQuote q) (Unquoted q) :=
  (Plain.single (Plain.cls _) 0).congr fun x => by
    simp [Unquoted, Cls.mem, CItem.mem]

/-- A backslash, a character, unquoted characters. -/
def EscRun (q : Char) (x : List Char) : Prop := ∃ c y, x = '\\' :: c :: y ∧ c ≠ '\n' ∧ Unquoted q y

theorem plain_escRun (q : Char) : Plain U (.cat (.lit '\\') (.cat .dot (notQuote q))) (EscRun q) :=
  ((Plain.lit '\\').cat (plain_dot.cat (plain_notQuote q))).congr fun x => by
    constructor
    · rintro ⟨_, _, rfl, rfl, _, y, rfl, ⟨c, hc, rfl⟩, hy⟩; exact ⟨c, y, rfl, hc, hy⟩
    · rintro ⟨c, y, rfl, hc, hy⟩; exact ⟨['\\'], c :: y, rfl, rfl, [c], y, rfl, ⟨c, hc, rfl⟩, hy⟩

theorem quoted_append {q : Char} {x y : List Char} (h : Unquoted q x) (h' : Quoted q y) : Quoted q (x ++ y) := by
  induction x with
  | nil => exact h'
  | cons c x ih =>
    exact .char _ _ (h c (by simp)).1 (h c (by simp)).2 (ih fun d hd => h d (by simp [hd]))

theorem match_runs_quoted (q : Char) {P : Matches} (hP : ∀ pre x post l, P pre x post l ↔ EscRun q x ∧ l = [])
    {n : Option Nat} {m : Nat} {pre x post : List Char} {l : List Cap} (h : Repeats P m n pre x post l) :
    Quoted q x ∧ l = [] := by
  induction h with
  | done => exact ⟨.nil, rfl⟩
  | more m n pre x y post l k hne h1 h2 ih =>
    obtain ⟨⟨c, z, rfl, hc, hz⟩, rfl⟩ := (hP _ _ _ _).1 h1
    exact ⟨.pair _ _ hc (quoted_append hz ih.1), by simp [ih.2]⟩

theorem runs_of_quoted (q : Char) {P : Matches} (hP : ∀ pre x post l, P pre x post l ↔ EscRun q x ∧ l = [])
    {x : List Char} (h : Quoted q x) : ∃ y z, x = y ++ z ∧ Unquoted q y ∧ ∀ pre post, Repeats P 0 none pre z post [] := by
  induction h with
  | nil => exact ⟨[], [], rfl, fun _ h => by simp at h, fun _ _ => .done _ _ _⟩
  | char c cs h1 h2 _ ih =>
    obtain ⟨y, z, rfl, hy, hz⟩ := ih
    refine ⟨c :: y, z, rfl, ?_, hz⟩
    intro d hd
    rcases List.mem_cons.1 hd with rfl | hd
    · exact ⟨h1, h2⟩
    · exact hy d hd
  | pair c cs h1 _ ih =>
    obtain ⟨y, z, rfl, hy, hz⟩ := ih
    refine ⟨[], '\\' :: c :: (y ++ z), rfl, fun _ h => by simp at h, fun pre post => ?_⟩
    have := Repeats.more (P := P) 0 none pre ('\\' :: c :: y) z post [] [] (by simp)
      ((hP _ _ _ _).2 ⟨⟨c, y, rfl, h1, hy⟩, rfl⟩) (hz _ _)
    simpa using this

theorem plain_quoted (q : Char) : Plain U (.cat (notQuote q)
    (.rep (.cat (.lit '\\') (.cat .dot (notQuote q))) 0 none true)) (Quoted q) := by
  intro g pre x post l
  rw [Re.Match]
  constructor
  · rintro ⟨y, z, k, m, rfl, rfl, h1, h2⟩
    obtain ⟨p1, rfl⟩ := (plain_notQuote q _ _ _ _ _).1 h1
    obtain ⟨p2, rfl⟩ := match_runs_quoted q (plain_escRun q _) h2
    exact ⟨quoted_append p1 p2, rfl⟩
  · rintro ⟨h, rfl⟩
    obtain ⟨y, z, rfl, hy, hz⟩ := runs_of_quoted q (plain_escRun (U := U) q (g + (notQuote q).groups.length)) h
    exact ⟨y, z, [], [], rfl, rfl, (plain_notQuote q _ _ _ _ _).2 ⟨hy, rfl⟩, hz _ _⟩

theorem match_quoted (q : Char) (id k g : Nat) (pre x post : List Char) (l : List Cap) :
    (quotedRe q id k).Match U g pre x post l ↔ ∃ i, x = q :: (i ++ [q]) ∧ Quoted q i ∧ l = [⟨g, pre.length + 1, i⟩] := by
  unfold quotedRe
  rw [Re.Match]
  constructor
  · rintro ⟨y, z, _, _, rfl, rfl, ⟨rfl, rfl⟩, h⟩
    rw [Re.Match] at h
    obtain ⟨y', z', _, _, rfl, rfl, h1, ⟨rfl, rfl⟩⟩ := h
    obtain ⟨p1, rfl⟩ := (match_cap (plain_quoted q) _ _ _ _ _).1 h1
    exact ⟨y', rfl, p1, by simp [Re.groups]⟩
  · rintro ⟨i, rfl, hi, rfl⟩
    refine ⟨[q], i ++ [q], [], [⟨g, pre.length + 1, i⟩], rfl, rfl, ⟨rfl, rfl⟩, ?_⟩
    rw [Re.Match]
    refine ⟨i, [q], [⟨g, pre.length + 1, i⟩], [], rfl, rfl, ?_, ⟨rfl, rfl⟩⟩
    refine (match_cap (plain_quoted q) _ _ _ _ _).2 ⟨hi, by simp [Re.groups]⟩

theorem groups_quoted (q : Char) (id k : Nat) : (quotedRe q id k).groups = [some (groupName id k)] := rfl

theorem match_string (id g : Nat) (pre x post : List Char) (l : List Cap) :
    (stringRe id).Match U g pre x post l ↔ Builtin.string.Lang U x ∧ Builtin.string.Captures g pre.length x l := by
  unfold stringRe
  rw [Re.Match, match_quoted, match_quoted, groups_quoted]
  simp only [Builtin.Captures, Builtin.Lang, List.length_singleton]
  constructor
  · rintro (⟨i, rfl, hi, rfl⟩ | ⟨i, rfl, hi, rfl⟩)
    · exact ⟨⟨'"', i, .inl rfl, rfl, hi⟩, i, .inl ⟨rfl, rfl⟩⟩
    · exact ⟨⟨'\'', i, .inr rfl, rfl, hi⟩, i, .inr ⟨rfl, rfl⟩⟩
  · rintro ⟨⟨q, i, hq, rfl, hi⟩, j, (⟨h1, rfl⟩ | ⟨h1, rfl⟩)⟩
    · simp only [List.cons.injEq] at h1
      obtain ⟨rfl, h1⟩ := h1
      simp at h1; subst h1
      exact .inl ⟨i, rfl, hi, rfl⟩
    · simp only [List.cons.injEq] at h1
      obtain ⟨rfl, h1⟩ := h1
      simp at h1; subst h1
      exact .inr ⟨i, rfl, hi, rfl⟩

end CE.Regex
