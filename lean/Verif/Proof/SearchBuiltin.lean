import Verif.Proof.Search
import Verif.Proof.Sorts
import Verif.Proof.ExpandBuiltin
import Verif.Spec.Prefer

/-! # The order in which the texts of built-in parameters are tried -/

namespace CE.Regex
open CE.Spec

variable {T : Tests}

def Longer (a b : Try) : Prop := b.1.length < a.1.length

theorem mem_plain {r : Re} {L : List Char → Prop} (hs : r.solid = true) (hp : Plain T.classes r L) {g : Nat}
    {pre rest : List Char} {a : Try} :
    a ∈ r.tries T g pre rest ↔ (∃ post, rest = a.1 ++ post) ∧ L a.1 ∧ a.2 = [] := by
  obtain ⟨x, l⟩ := a
  rw [mem_tries r hs]
  constructor
  · rintro ⟨post, h1, h2⟩; exact ⟨⟨post, h1⟩, (hp _ _ _ _ _).1 h2⟩
  · rintro ⟨⟨post, h1⟩, h2⟩; exact ⟨post, h1, (hp _ _ _ _ _).2 h2⟩

/-! ## Repetitions -/

theorem sorts_run {body : List Char → List Char → List Try} {q : Char → Bool} (hb : ∀ p r, body p r = oneChar q r)
    (fuel : Nat) : ∀ m pre rest, Sorts Longer (repTries body true fuel m none pre rest) := by
  have hdone : ∀ m : Nat, Sorts Longer (if m = 0 then [([], [])] else [] : List Try) := fun m => by
    split
    · exact .single _
    · exact .nil
  induction fuel with
  | zero => intro m pre rest; exact hdone m
  | succ fuel ih =>
    intro m pre rest
    simp only [repTries, hb, if_true, reduceCtorEq, if_false]
    refine .append ?_ (hdone m) ?_
    · refine Sorts.flatMap (B1 := Longer) (B2 := fun _ => Longer) ?_ (fun a _ => ih _ _ _) ?_ ?_
      · refine .of_eq fun a ha b hb => ?_
        obtain ⟨c, p, h1, -, h2, h3⟩ := mem_oneChar.1 (List.mem_filter.1 ha).1
        obtain ⟨c', p', h1', -, h2', h3'⟩ := mem_oneChar.1 (List.mem_filter.1 hb).1
        rw [h1, h2, h2'] at h1'
        simp at h1'
        exact Prod.ext (by rw [h2, h2', h1'.1]) (by rw [h3, h3'])
      · intro a ha b hb h
        obtain ⟨c, p, h1, -, h2, h3⟩ := mem_oneChar.1 (List.mem_filter.1 ha).1
        obtain ⟨c', p', h1', -, h2', h3'⟩ := mem_oneChar.1 (List.mem_filter.1 hb).1
        simp [Longer, h2, h2'] at h
      · intro a _ x _ y _ h
        simp only [Longer, List.length_append] at h ⊢; omega
    · intro a ha b hb
      right
      obtain ⟨y, z, k, j, h1, -, h2, -⟩ := mem_andThen.1 ha
      obtain ⟨c, p, -, -, h3, -⟩ := mem_oneChar.1 (List.mem_filter.1 h2).1
      have : b = ([], []) := by
        split at hb
        · exact List.mem_singleton.1 hb
        · cases hb
      simp [Longer, this, h1, h3]

theorem repTries_stop (body : List Char → List Char → List Try) (fuel : Nat) (pre rest : List Char) :
    repTries body true fuel 0 (some 0) pre rest = [([], [])] := by
  cases fuel <;> simp [repTries]

theorem tries_quest {r : Re} (hs : r.solid = true) (hn : r.nonEmpty = true) (g : Nat) (pre rest : List Char) :
    (Re.rep r 0 (some 1) true).tries T g pre rest = r.tries T g pre rest ++ [([], [])] := by
  have hne : ∀ a ∈ r.tries T g pre rest, a.1 ≠ [] ∧ ∃ post, rest = a.1 ++ post := by
    rintro ⟨x, l⟩ ha
    obtain ⟨post, h1, h2⟩ := (mem_tries r hs _ _ _ _ _).1 ha
    exact ⟨fun hx => nonEmpty_sound r hn _ _ _ _ ((show x = [] from hx) ▸ h2), post, h1⟩
  rw [Re.tries]
  cases rest with
  | nil =>
    have : r.tries T g pre [] = [] := by
      rw [List.eq_nil_iff_forall_not_mem]
      intro a ha
      obtain ⟨h1, post, h2⟩ := hne a ha
      exact h1 (List.append_eq_nil_iff.1 h2.symm).1
    simp [repTries, this]
  | cons c rest =>
    rw [show 0 + (c :: rest).length = rest.length + 1 by simp, repTries]
    simp only [Option.map_some, if_true]
    congr 1
    have hf : (r.tries T g pre (c :: rest)).filter (fun a => (0 : Nat) != 0 || !a.1.isEmpty) = r.tries T g pre (c :: rest) := by
      rw [List.filter_eq_self]
      intro a ha
      have := (hne a ha).1
      simp [this]
    rw [hf]
    simp [andThen, repTries_stop]

theorem sorts_quest {r : Re} (hs : r.solid = true) (hn : r.nonEmpty = true) {g : Nat} {pre rest : List Char}
    (h : Sorts Longer (r.tries T g pre rest)) : Sorts Longer ((Re.rep r 0 (some 1) true).tries T g pre rest) := by
  rw [tries_quest hs hn]
  refine h.append (.single _) ?_
  rintro ⟨x, l⟩ ha b hb
  obtain ⟨post, h1, h2⟩ := (mem_tries r hs _ _ _ _ _).1 ha
  rw [List.mem_singleton.1 hb]
  right
  have : x ≠ [] := fun hx => nonEmpty_sound r hn _ _ _ _ (hx ▸ h2)
  exact List.length_pos_iff.2 this

theorem sorts_digits (g : Nat) (pre rest : List Char) : Sorts Longer (reDigits.tries T g pre rest) :=
  sorts_run (q := digitCls.test T) (fun _ _ => rfl) _ _ _ _

theorem sorts_digits0 (g : Nat) (pre rest : List Char) : Sorts Longer (reDigits0.tries T g pre rest) :=
  sorts_run (q := digitCls.test T) (fun _ _ => rfl) _ _ _ _

theorem sorts_oneChar {B : Try → Try → Prop} (q : Char → Bool) (rest : List Char) : Sorts B (oneChar q rest) := by
  refine .of_eq fun a ha b hb => ?_
  obtain ⟨c, p, h1, -, h2, h3⟩ := mem_oneChar.1 ha
  obtain ⟨c', p', h1', -, h2', h3'⟩ := mem_oneChar.1 hb
  rw [h1, h2, h2'] at h1'
  simp at h1'
  exact Prod.ext (by rw [h2, h2', h1'.1]) (by rw [h3, h3'])

theorem sorts_cap {n : Option (List Char)} {r : Re} {B C : Try → Try → Prop} {g : Nat} {pre rest : List Char}
    (h : Sorts B (r.tries T (g + 1) pre rest)) (hB : ∀ a b l m, B a b → C (a.1, l) (b.1, m)) :
    Sorts C ((Re.cap n r).tries T g pre rest) :=
  h.map fun a _ b _ hab => hB a b _ _ hab

/-! ## `int`, `word`, anonymous -/

theorem not_digit {c : Char} (hs : SaneDigits T.classes) (hc : c ∈ ['+', '-', '.', 'e', 'E', 'i', 'N']) :
    ¬ T.classes.digit c := hs c hc

theorem digits_head {c : Char} {x r post : List Char} (hx : Digits T.classes x) (h : c :: r = x ++ post) :
    T.classes.digit c := by
  cases x with
  | nil => exact absurd rfl hx.1
  | cons d x => simp at h; rw [h.1]; exact hx.2 d (by simp)

theorem sorts_int (hs : SaneDigits T.classes) (g : Nat) (pre rest : List Char) : Sorts Longer (intRe.tries T g pre rest) := by
  refine sorts_cap (B := Longer) ?_ (fun a b l m h => h)
  have hq : Plain T.classes (.rep (.lit '-') 0 (some 1) true) (fun x => x = [] ∨ x = ['-']) := Plain.quest (Plain.lit '-')
  rw [Re.tries]
  refine .append ?_ (sorts_digits _ _ _) ?_
  · refine Sorts.flatMap (B1 := Longer) (B2 := fun _ => Longer) (sorts_quest rfl rfl (sorts_oneChar _ _))
      (fun a _ => sorts_digits _ _ _) ?_ ?_
    · intro a ha b hb hab x hx y hy
      obtain ⟨⟨p, h1⟩, h2, -⟩ := (mem_plain rfl hq).1 ha
      obtain ⟨⟨p', h1'⟩, h2', -⟩ := (mem_plain rfl hq).1 hb
      obtain ⟨⟨p2, h3⟩, h4, -⟩ := (mem_plain rfl plain_digits).1 hy
      exfalso
      rcases h2 with h2 | h2 <;> rcases h2' with h2' | h2' <;> simp [Longer, h2, h2'] at hab
      rw [h2] at h1
      rw [h2', h1] at h3
      exact not_digit hs (by simp) (digits_head h4 h3)
    · intro a _ x _ y _ h
      simp only [Longer, List.length_append] at h ⊢; omega
  · intro a _ b hb
    left
    obtain ⟨⟨p, h1⟩, h2, h3⟩ := (mem_plain rfl plain_digits).1 hb
    exact (mem_plain (r := .cat _ _) rfl (hq.cat plain_digits)).2 ⟨⟨p, h1⟩, ⟨[], b.1, rfl, .inl rfl, h2⟩, h3⟩

theorem sorts_word (g : Nat) (pre rest : List Char) : Sorts Longer (wordRe.tries T g pre rest) :=
  sorts_cap (B := Longer) (sorts_run (fun _ _ => rfl) _ _ _ _) (fun _ _ _ _ h => h)

theorem sorts_anon (g : Nat) (pre rest : List Char) : Sorts Longer (anonRe.tries T g pre rest) :=
  sorts_cap (B := Longer) (sorts_run (fun _ _ => rfl) _ _ _ _) (fun _ _ _ _ h => h)

/-! ## `string` -/

theorem quoted_unique {q : Char} (hq : q ≠ '\\') {i : List Char} (hi : Quoted q i) : ∀ {j r s : List Char}, Quoted q j →
    i ++ q :: r = j ++ q :: s → i = j := by
  induction hi with
  | nil =>
    intro j r s hj h
    cases hj with
    | nil => rfl
    | char c cs h1 h2 h3 => simp at h; exact absurd h.1.symm h1
    | pair c cs h1 h2 => simp at h; exact absurd h.1 hq
  | char c cs h1 h2 h3 ih =>
    intro j r s hj h
    cases hj with
    | nil => simp at h; exact absurd h.1 h1
    | char d ds h4 h5 h6 =>
      simp at h
      rw [h.1, ih h6 h.2]
    | pair d ds h4 h5 => simp at h; exact absurd h.1 h2
  | pair c cs h1 h3 ih =>
    intro j r s hj h
    cases hj with
    | nil => simp at h; exact absurd h.1.symm hq
    | char d ds h4 h5 h6 => simp at h; exact absurd h.1.symm h5
    | pair d ds h4 h5 =>
      simp at h
      rw [h.1, ih h5 h.2]

theorem sorts_string {B : Try → Try → Prop} (id g : Nat) (pre rest : List Char) : Sorts B ((stringRe id).tries T g pre rest) := by
  refine .of_eq ?_
  rintro ⟨x, l⟩ ha ⟨y, m⟩ hb
  obtain ⟨p, h1, h2⟩ := (mem_tries (stringRe id) rfl _ _ _ _ _).1 ha
  obtain ⟨p', h1', h2'⟩ := (mem_tries (stringRe id) rfl _ _ _ _ _).1 hb
  obtain ⟨⟨q, i, hq, rfl, hi⟩, i', h3⟩ := (match_string ..).1 h2
  obtain ⟨⟨q', j, hq', rfl, hj⟩, j', h3'⟩ := (match_string ..).1 h2'
  rw [h1] at h1'
  simp only [List.cons_append, List.append_assoc, List.nil_append, List.cons.injEq] at h1'
  obtain ⟨rfl, h1'⟩ := h1'
  have hne : q ≠ '\\' := by rcases hq with rfl | rfl <;> decide
  obtain rfl := quoted_unique hne hi hj h1'
  refine Prod.ext rfl ?_
  rcases h3 with ⟨h3, rfl⟩ | ⟨h3, rfl⟩ <;> rcases h3' with ⟨h3', rfl⟩ | ⟨h3', rfl⟩ <;>
    simp only [List.cons.injEq] at h3 h3'
  · rw [List.append_cancel_right (h3.2.symm.trans h3'.2)]
  · exact absurd (h3.1.symm.trans h3'.1) (by decide)
  · exact absurd (h3.1.symm.trans h3'.1) (by decide)
  · rw [List.append_cancel_right (h3.2.symm.trans h3'.2)]

/-! ## `float` -/

def MBefore (a b : Try) : Prop := ('.' ∉ a.1 ∧ '.' ∈ b.1) ∨ (('.' ∈ a.1 ↔ '.' ∈ b.1) ∧ b.1.length < a.1.length)

theorem split_unique {c : Char} {a b a' b' : List Char} (ha : c ∉ a) (ha' : c ∉ a') (h : a ++ c :: b = a' ++ c :: b') : a = a' := by
  induction a generalizing a' with
  | nil =>
    cases a' with
    | nil => rfl
    | cons d a' => simp at h; exact absurd (by simp [h.1]) ha'
  | cons d a ih =>
    cases a' with
    | nil => simp at h; exact absurd (by simp [h.1]) ha
    | cons d' a' =>
      simp at h
      rw [h.1, ih (fun hm => ha (by simp [hm])) (fun hm => ha' (by simp [hm])) h.2]

theorem no_point (hs : SaneDigits T.classes) {x : List Char} (h : Digits0 T.classes x) : '.' ∉ x :=
  fun hm => not_digit hs (by simp) (h _ hm)

theorem sorts_pointed (hs : SaneDigits T.classes) {r s : Re} {L M : List Char → Prop} (hr : r.solid = true) (hss : s.solid = true)
    (hpr : Plain T.classes r L) (hps : Plain T.classes s M) (hL : ∀ x, L x → Digits0 T.classes x)
    (h1 : ∀ g pre rest, Sorts Longer (r.tries T g pre rest)) (h2 : ∀ g pre rest, Sorts Longer (s.tries T g pre rest))
    (g : Nat) (pre rest : List Char) : Sorts MBefore ((Re.cat r (.cat (.lit '.') s)).tries T g pre rest) := by
  have hps' := (Plain.lit (U := T.classes) '.').cat hps
  have hss' : (Re.cat (.lit '.') s).solid = true := by simp [Re.solid, hss]
  refine Sorts.flatMap (B1 := Longer) (B2 := fun _ => Longer) (h1 _ _ _) (fun a _ => ?_) ?_ ?_
  · refine Sorts.flatMap (B1 := Longer) (B2 := fun _ => Longer) (sorts_oneChar _ _) (fun a _ => h2 _ _ _) ?_ ?_
    · intro a ha b hb h
      obtain ⟨_, h3, -⟩ := (mem_plain rfl (Plain.lit '.')).1 ha
      obtain ⟨_, h4, -⟩ := (mem_plain rfl (Plain.lit '.')).1 hb
      simp [Longer, h3, h4] at h
    · intro a _ x _ y _ h
      simp only [Longer, List.length_append] at h ⊢; omega
  · intro a ha b hb hab x hx y hy
    exfalso
    obtain ⟨⟨p, h3⟩, h4, -⟩ := (mem_plain hr hpr).1 ha
    obtain ⟨⟨p', h3'⟩, h4', -⟩ := (mem_plain hr hpr).1 hb
    obtain ⟨⟨p2, h5⟩, ⟨_, z, h6, rfl, -⟩, -⟩ := (mem_plain hss' hps').1 hx
    obtain ⟨⟨p2', h5'⟩, ⟨_, z', h6', rfl, -⟩, -⟩ := (mem_plain hss' hps').1 hy
    rw [h3, List.drop_left, h6] at h5
    rw [h3', List.drop_left, h6'] at h5'
    rw [h3, h5, h5'] at h3'
    have := split_unique (no_point hs (hL _ h4)) (no_point hs (hL _ h4')) h3'
    simp [Longer, this] at hab
  · intro a _ x hx y hy h
    obtain ⟨_, ⟨_, z, h6, rfl, -⟩, -⟩ := (mem_plain hss' hps').1 hx
    obtain ⟨_, ⟨_, z', h6', rfl, -⟩, -⟩ := (mem_plain hss' hps').1 hy
    right
    simp only [Longer, List.length_append] at h ⊢
    refine ⟨by simp [h6, h6'], by omega⟩

theorem sorts_mantissa (hs : SaneDigits T.classes) (g : Nat) (pre rest : List Char) :
    Sorts MBefore (mantissaRe.tries T g pre rest) := by
  have p2 := (plain_digits (U := T.classes)).cat ((Plain.lit '.').cat plain_digits0)
  have p3 := (plain_digits0 (U := T.classes)).cat ((Plain.lit '.').cat plain_digits)
  unfold mantissaRe
  rw [Re.tries]
  refine .append ((sorts_digits _ _ _).mono ?_) ?_ ?_
  · intro a ha b hb h
    obtain ⟨_, h1, -⟩ := (mem_plain rfl plain_digits).1 ha
    obtain ⟨_, h2, -⟩ := (mem_plain rfl plain_digits).1 hb
    exact .inr ⟨⟨fun h => absurd h (no_point hs h1.2), fun h => absurd h (no_point hs h2.2)⟩, h⟩
  · rw [Re.tries]
    refine .append (sorts_pointed hs rfl rfl plain_digits plain_digits0 (fun _ h => h.2) sorts_digits sorts_digits0 _ _ _)
      (sorts_pointed hs rfl rfl plain_digits0 plain_digits (fun _ h => h) sorts_digits0 sorts_digits _ _ _) ?_
    intro a ha b hb
    left
    obtain ⟨⟨p, h1⟩, ⟨y, z, h2, h3, ⟨_, u, rfl, rfl, h4⟩⟩, h5⟩ := (mem_plain rfl p2).1 ha
    obtain ⟨⟨p', h1'⟩, ⟨y', z', h2', h3', ⟨_, u', rfl, rfl, h4'⟩⟩, h5'⟩ := (mem_plain rfl p3).1 hb
    have hy : y = y' := by
      rw [h1, h2, h2'] at h1'
      simp only [List.append_assoc, List.cons_append, List.nil_append] at h1'
      exact split_unique (no_point hs h3.2) (no_point hs h3') h1'
    exact (mem_plain rfl p2).2 ⟨⟨p', h1'⟩, ⟨y', _, h2', hy ▸ h3, _, u', rfl, rfl, h4'.2⟩, h5'⟩
  · intro a ha b hb
    right; left
    obtain ⟨_, h1, -⟩ := (mem_plain rfl plain_digits).1 ha
    refine ⟨no_point hs h1.2, ?_⟩
    obtain ⟨-, h2, -⟩ := (mem_plain (r := .alt _ _) rfl (p2.alt p3)).1 hb
    rcases h2 with ⟨y, z, h2, _, ⟨_, u, rfl, rfl, _⟩⟩ | ⟨y, z, h2, _, ⟨_, u, rfl, rfl, _⟩⟩ <;> simp [h2]

/-- `a ++ b` where only one `a` is possible before a `b`. -/
theorem sorts_signed {r : Re} {L : List Char → Prop} (hr : r.solid = true)
    (hp : Plain T.classes r L) (hL : ∀ x c post r, L x → c :: r = x ++ post → ¬ (c = '+' ∨ c = '-'))
    {B C : Try → Try → Prop} (h : ∀ g pre rest, Sorts B (r.tries T g pre rest))
    (hB : ∀ s, Sign s → ∀ x y l m, L x.1 → L y.1 → B x y → C (s ++ x.1, l) (s ++ y.1, m))
    (g : Nat) (pre rest : List Char) : Sorts C ((Re.cat reSign r).tries T g pre rest) := by
  refine Sorts.flatMap (B1 := Longer) (B2 := fun _ => B) (sorts_quest rfl rfl (sorts_oneChar _ _)) (fun a _ => h _ _ _) ?_ ?_
  · intro a ha b hb hab x hx y hy
    exfalso
    obtain ⟨⟨p, h1⟩, h2, -⟩ := (mem_plain (r := reSign) rfl plain_sign).1 ha
    obtain ⟨⟨p', h1'⟩, h2', -⟩ := (mem_plain (r := reSign) rfl plain_sign).1 hb
    obtain ⟨⟨p2, h3⟩, h4, -⟩ := (mem_plain hr hp).1 hy
    rcases h2 with h2 | h2 | h2 <;> rcases h2' with h2' | h2' | h2' <;> simp [Longer, h2, h2'] at hab <;>
    · rw [h2] at h1
      rw [h2', h1] at h3
      exact hL _ _ _ _ h4 h3 (by simp)
  · intro a ha x hx y hy hxy
    obtain ⟨_, h2, -⟩ := (mem_plain (r := reSign) rfl plain_sign).1 ha
    obtain ⟨_, h4, -⟩ := (mem_plain hr hp).1 hx
    obtain ⟨_, h5, -⟩ := (mem_plain hr hp).1 hy
    exact hB _ h2 x y _ _ h4 h5 hxy

theorem sorts_exponent (hs : SaneDigits T.classes) (g : Nat) (pre rest : List Char) :
    Sorts Longer (exponentRe.tries T g pre rest) := by
  refine sorts_quest rfl rfl ?_
  refine Sorts.flatMap (B1 := Longer) (B2 := fun _ => Longer) (sorts_oneChar _ _)
    (fun a _ => sorts_signed rfl plain_digits ?_ sorts_digits ?_ _ _ _) ?_ ?_
  · intro x c post r hx h hc
    have := digits_head hx h
    rcases hc with rfl | rfl <;> exact not_digit hs (by simp) this
  · intro s _ x y l m _ _ h
    simp only [Longer, List.length_append] at h ⊢; omega
  · intro a ha b hb h
    obtain ⟨_, ⟨c, -, h3⟩, -⟩ := (mem_plain rfl (Plain.cls _)).1 ha
    obtain ⟨_, ⟨d, -, h4⟩, -⟩ := (mem_plain rfl (Plain.cls _)).1 hb
    simp [Longer, h3, h4] at h
  · intro a _ x _ y _ h
    simp only [Longer, List.length_append] at h ⊢; omega

/-- `FloatBefore` without the sign. -/
def NumBefore (U : Classes) (a b : Try) : Prop := ∃ m e m' e', a.1 = m ++ e ∧ b.1 = m' ++ e' ∧
  Mantissa U m ∧ Mantissa U m' ∧ (e = [] ∨ Exponent U e) ∧ (e' = [] ∨ Exponent U e') ∧
  (('.' ∉ m ∧ '.' ∈ m') ∨ (('.' ∈ m ↔ '.' ∈ m') ∧ (m'.length < m.length ∨ m' = m ∧ e'.length < e.length)))

theorem mantissa_head {m post r : List Char} {c : Char} (h : Mantissa T.classes m) (he : c :: r = m ++ post) :
    T.classes.digit c ∨ c = '.' := by
  rcases h with h | ⟨a, b, rfl, ha, -, -⟩
  · exact .inl (digits_head h he)
  · cases a with
    | nil => simp at he; exact .inr he.1
    | cons d a => simp at he; rw [he.1]; exact .inl (ha d (by simp))

theorem sorts_num (hs : SaneDigits T.classes) (g : Nat) (pre rest : List Char) :
    Sorts (NumBefore T.classes) ((Re.cat mantissaRe exponentRe).tries T g pre rest) := by
  refine Sorts.flatMap (B1 := MBefore) (B2 := fun _ => Longer) (sorts_mantissa hs _ _ _) (fun a _ => sorts_exponent hs _ _ _) ?_ ?_
  · intro a ha b hb hab x hx y hy
    obtain ⟨_, h1, -⟩ := (mem_plain (r := mantissaRe) rfl plain_mantissa).1 ha
    obtain ⟨_, h2, -⟩ := (mem_plain (r := mantissaRe) rfl plain_mantissa).1 hb
    obtain ⟨_, h3, -⟩ := (mem_plain (r := exponentRe) rfl plain_exponent).1 hx
    obtain ⟨_, h4, -⟩ := (mem_plain (r := exponentRe) rfl plain_exponent).1 hy
    refine ⟨a.1, x.1, b.1, y.1, rfl, rfl, h1, h2, h3, h4, ?_⟩
    rcases hab with h | ⟨h, h'⟩
    · exact .inl h
    · exact .inr ⟨h, .inl h'⟩
  · intro a ha x hx y hy h
    obtain ⟨_, h1, -⟩ := (mem_plain (r := mantissaRe) rfl plain_mantissa).1 ha
    obtain ⟨_, h3, -⟩ := (mem_plain (r := exponentRe) rfl plain_exponent).1 hx
    obtain ⟨_, h4, -⟩ := (mem_plain (r := exponentRe) rfl plain_exponent).1 hy
    exact ⟨a.1, x.1, a.1, y.1, rfl, rfl, h1, h1, h3, h4, .inr ⟨Iff.rfl, .inr ⟨rfl, h⟩⟩⟩

theorem sorts_float (hs : SaneDigits T.classes) (g : Nat) (pre rest : List Char) :
    Sorts (fun a b => FloatBefore T.classes a.1 b.1) (floatRe.tries T g pre rest) := by
  have pn := (plain_mantissa (U := T.classes)).cat plain_exponent
  have pi := plain_word3 (U := T.classes) 'i' 'n' 'f'
  have pN := plain_word3 (U := T.classes) 'N' 'a' 'N'
  have num_head : ∀ {x post r c}, (∃ y z, x = y ++ z ∧ Mantissa T.classes y ∧ (z = [] ∨ Exponent T.classes z)) →
      c :: r = x ++ post → T.classes.digit c ∨ c = '.' := by
    rintro x post r c ⟨y, z, rfl, hy, -⟩ h
    exact mantissa_head hy (h.trans (List.append_assoc ..))
  refine sorts_cap (B := fun a b => FloatBefore T.classes a.1 b.1) ?_ (fun _ _ _ _ h => h)
  refine sorts_signed (B := NumBefore T.classes) rfl (pi.alt (pN.alt pn)) ?_ ?_ ?_ _ _ _
  · rintro x c post r (rfl | rfl | hx) h hc
    · simp at h; rcases hc with rfl | rfl <;> simp at h
    · simp at h; rcases hc with rfl | rfl <;> simp at h
    · have := num_head hx h
      rcases hc with rfl | rfl <;> rcases this with this | this <;>
        first | exact not_digit hs (by simp) this | exact absurd this (by decide)
  · intro g pre rest
    rw [Re.tries]
    refine .append (.of_eq ?_) ?_ ?_
    · intro a ha b hb
      obtain ⟨_, h1, h2⟩ := (mem_plain rfl pi).1 ha
      obtain ⟨_, h3, h4⟩ := (mem_plain rfl pi).1 hb
      exact Prod.ext (h1.trans h3.symm) (h2.trans h4.symm)
    · rw [Re.tries]
      refine .append (.of_eq ?_) (sorts_num hs _ _ _) ?_
      · intro a ha b hb
        obtain ⟨_, h1, h2⟩ := (mem_plain rfl pN).1 ha
        obtain ⟨_, h3, h4⟩ := (mem_plain rfl pN).1 hb
        exact Prod.ext (h1.trans h3.symm) (h2.trans h4.symm)
      · intro a ha b hb
        exfalso
        obtain ⟨⟨p, h0⟩, h1, h2⟩ := (mem_plain rfl pN).1 ha
        obtain ⟨⟨q, h3⟩, h4, -⟩ := (mem_plain (r := .cat mantissaRe exponentRe) rfl pn).1 hb
        rw [h0, h1] at h3
        rcases num_head h4 h3 with h | h
        · exact not_digit hs (by simp) h
        · exact absurd h (by decide)
    · intro a ha b hb
      exfalso
      obtain ⟨⟨p, h0⟩, h1, h2⟩ := (mem_plain rfl pi).1 ha
      obtain ⟨⟨q, h3⟩, h4, -⟩ := (mem_plain (r := .alt _ (.cat mantissaRe exponentRe)) rfl (pN.alt pn)).1 hb
      rw [h0, h1] at h3
      rcases h4 with h4 | h4
      · rw [h4] at h3; simp at h3
      · rcases num_head h4 h3 with h | h
        · exact not_digit hs (by simp) h
        · exact absurd h (by decide)
  · rintro s hs' x y l m _ _ ⟨m1, e1, m2, e2, h1, h2, h3⟩
    exact ⟨s, m1, e1, m2, e2, by simp [h1], by simp [h2], hs', h3⟩

/-- All built-in parameters. -/
theorem sorts_builtin (hs : SaneDigits T.classes) (b : Builtin) (id g : Nat) (pre rest : List Char) :
    Sorts (fun x y : Try => b.Before T.classes x.1 y.1) ((builtinRe b id).tries T g pre rest) := by
  cases b
  · exact sorts_int hs g pre rest
  · exact sorts_float hs g pre rest
  · exact sorts_word g pre rest
  · exact sorts_string id g pre rest
  · exact sorts_anon g pre rest

end CE.Regex
