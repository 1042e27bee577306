import Verif.Prop.Flags
import Verif.Spec.Pieces

/-!
# The pieces of custom regexes: C76
-/

namespace CE
open Spec Regex Spec.Pat

variable {U : Classes}

/-! ## Single characters -/

theorem hexVal_table : ∀ x ∈ Pat.hexDigits, hexVal x.1 = some x.2 ∧ x.1 ≠ '{' ∧ x.1 ≠ '}' := by decide

theorem hexFixed_append {ds : List Char} {n : Nat} (h : HexValue ds n) (k : Nat) (q : List Char) :
    hexFixed (ds.length + k) 0 (ds ++ q) = hexFixed k n q := by
  induction h generalizing k q with
  | nil => simp
  | snoc ds n d m _ hd ih =>
    rw [List.append_assoc, List.length_append, Nat.add_assoc, ih]
    show hexFixed (1 + k) n (d :: q) = _
    rw [Nat.add_comm, hexFixed, (hexVal_table _ hd).1]

theorem hexBrace_append {ds : List Char} {n : Nat} (h : HexValue ds n) (q : List Char) :
    hexBrace true 0 (ds ++ q) = hexBrace ds.isEmpty n q := by
  induction h generalizing q with
  | nil => rfl
  | snoc ds n d m _ hd ih =>
    rw [List.append_assoc, ih]
    show hexBrace _ n (d :: q) = _
    rw [hexBrace, if_neg (hexVal_table _ hd).2.2, (hexVal_table _ hd).1, show (ds ++ [d]).isEmpty = false by cases ds <;> rfl]

theorem hexValue_head {ds : List Char} {n : Nat} (h : HexValue ds n) : ∀ d ∈ ds, d ≠ '{' := by
  induction h with
  | nil => simp
  | snoc ds n d m _ hd ih =>
    intro e he
    rcases List.mem_append.1 he with he | he
    · exact ih e he
    · cases List.mem_singleton.1 he
      exact (hexVal_table _ hd).2.1

theorem hexDigits_fixed {ds : List Char} {n : Nat} (h : HexValue ds n) (h0 : ds ≠ []) (q : List Char) :
    Regex.hexDigits ds.length (ds ++ q) = .ok (n, q) := by
  have h1 := hexValue_head h
  have h2 := hexFixed_append h 0 q
  cases ds with
  | nil => exact absurd rfl h0
  | cons d ds =>
    rw [Nat.add_zero] at h2
    rw [Regex.hexDigits, h2]
    · rfl
    · intro r hr
      exact h1 d (by simp) (List.cons.inj hr).1

theorem hexEsc_fixed {ds : List Char} {n k : Nat} (h : HexValue ds n) (hk : ds.length = k) (h0 : k ≠ 0) (hv : n.isValidChar) (q : List Char) :
    hexEsc k (ds ++ q) = .ok (.lit (Char.ofNat n), q) := by
  subst hk
  rw [hexEsc, hexDigits_fixed h (by rintro rfl; exact h0 rfl)]
  simp [hv]

theorem hexEsc_braces {ds : List Char} {n : Nat} (h : HexValue ds n) (h0 : ds ≠ []) (hv : n.isValidChar) (k : Nat) (q : List Char) :
    hexEsc k ('{' :: (ds ++ '}' :: q)) = .ok (.lit (Char.ofNat n), q) := by
  rw [hexEsc, Regex.hexDigits, hexBrace_append h, List.isEmpty_eq_false_iff.2 h0]
  simp [hexBrace, hv]

theorem escapeChar_punct : ∀ n : Fin 128, (Char.ofNat n).isAlphanum = false → Char.ofNat n ≠ '<' → Char.ofNat n ≠ '>' →
    (match escapeChar (Char.ofNat n) with | .ok e => decide (e = .lit (Char.ofNat n)) | .error _ => false) = true := by decide +kernel

theorem escape_punct {c : Char} (h : c.toNat < 128 ∧ c.isAlphanum = false ∧ c ≠ '<' ∧ c ≠ '>') (q : List Char) :
    escape c q = .ok (.lit c, q) := by
  obtain ⟨h1, h2, h3, h4⟩ := h
  have e := escapeChar_punct ⟨c.toNat, h1⟩
  simp only [Char.ofNat_toNat] at e
  have e : escapeChar c = .ok (.lit c) := by
    have := e h2 h3 h4
    cases hc : escapeChar c with
    | ok x => rw [hc] at this; rw [of_decide_eq_true this]
    | error x => rw [hc] at this; cases this
  unfold escape
  split
  · exact absurd h2 (by decide)
  · exact absurd h2 (by decide)
  · exact absurd h2 (by decide)
  · exact absurd h2 (by decide)
  · exact absurd h2 (by decide)
  · rw [e]

/-- What a single character other than a plain one is: a backslash, then an escape. -/
theorem single_escape {sp : List Char} {s : Single} (hv : s.Valid sp) (hp : ∀ c, s ≠ .plain c) :
    ∃ d t, s.write = '\\' :: d :: t ∧ ∀ q, escape d (t ++ q) = .ok (.lit s.char, q) := by
  cases s with
  | plain c => exact absurd rfl (hp c)
  | escaped c => exact ⟨c, [], rfl, fun q => escape_punct hv q⟩
  | control k => cases k <;> exact ⟨_, [], rfl, fun q => rfl⟩
  | hex f ds n =>
    obtain ⟨h1, h2, h3⟩ := hv
    cases f with
    | two => exact ⟨'x', ds, rfl, fun q => hexEsc_fixed h1 h3 (by decide) h2 q⟩
    | four => exact ⟨'u', ds, rfl, fun q => hexEsc_fixed h1 h3 (by decide) h2 q⟩
    | eight => exact ⟨'U', ds, rfl, fun q => hexEsc_fixed h1 h3 (by decide) h2 q⟩
    | braces l =>
      refine ⟨l, '{' :: (ds ++ ['}']), rfl, fun q => ?_⟩
      have e : '{' :: (ds ++ ['}']) ++ q = '{' :: (ds ++ '}' :: q) := by simp
      rw [e]
      have h4 := h3.2
      simp only [List.mem_cons, List.not_mem_nil, or_false] at h4
      rcases h4 with rfl | rfl | rfl <;> exact hexEsc_braces h1 h3.1 h2 _ q

theorem single_cases (s : Single) : (∃ c, s = .plain c) ∨ ∀ c, s ≠ .plain c := by
  cases s <;> simp

/-! ## Classes -/

theorem clsPrim_single {s : Single} (hv : s.Valid specialInside) (q : List Char) : clsPrim (s.write ++ q) = .ok (.single s.char, q) := by
  rcases single_cases s with ⟨c, rfl⟩ | hp
  · simp only [Single.Valid, specialInside, List.mem_cons, List.not_mem_nil, or_false, not_or] at hv
    show clsPrim (c :: q) = _
    unfold clsPrim
    split <;> simp_all [Single.char]
  · obtain ⟨d, t, h1, h2⟩ := single_escape hv hp
    rw [h1]
    show clsPrim ('\\' :: d :: (t ++ q)) = _
    rw [clsPrim, h2]

/-- The first character of what is written. -/
theorem single_head {s : Single} (hv : s.Valid specialInside) : ∃ c t, s.write = c :: t ∧ (c = '\\' ∨ c ∉ specialInside) := by
  rcases single_cases s with ⟨c, rfl⟩ | hp
  · exact ⟨c, [], rfl, .inr hv⟩
  · obtain ⟨d, t, h1, -⟩ := single_escape hv hp
    exact ⟨_, _, h1, .inl rfl⟩

/-- What may follow an item: not a single dash. -/
def NoDash (q : List Char) : Prop := ∃ c r, q = c :: r ∧ (c = '-' → ∃ r', r = '-' :: r')

theorem clsRange_of {cs q : List Char} {i : CItem} (h : clsPrim cs = .ok (i, q)) (hq : NoDash q) : clsRange cs = .ok (i, q) := by
  obtain ⟨c, r, rfl, hc⟩ := hq
  rw [clsRange, h]
  simp only []
  by_cases e : c = '-'
  · obtain ⟨r', rfl⟩ := hc e
    subst e
    simp
  · split <;> simp_all

/-- The letters after the backslash. -/
def perlOf : Short → Perl
  | .digit => .digit
  | .space => .space
  | .word => .word

theorem short_escape (neg : Bool) (k : Short) : ∃ d, k.write neg = ['\\', d] ∧ ∀ q, escape d q = .ok (.perl neg (perlOf k), q) := by
  cases neg <;> cases k <;> exact ⟨_, rfl, fun q => rfl⟩

theorem category_known : ∀ x ∈ subdivisions, [x.1] ∈ categories ∧ ∀ m ∈ x.2, [x.1, m] ∈ categories := by decide

theorem category_escape (neg : Bool) {braces : Bool} {k : Category} (hv : k.Valid braces) :
    ∃ d t, k.write neg braces = '\\' :: d :: t ∧ ∀ q, escape d (t ++ q) = .ok (.perl neg (.category k.name), q) := by
  obtain ⟨⟨s, hs, hm⟩, hb⟩ := hv
  have hk : k.name ∈ categories := by
    obtain ⟨a, m⟩ := k
    cases m with
    | none => exact (category_known _ hs).1
    | some m => exact (category_known _ hs).2 m (hm m rfl)
  refine ⟨if neg then 'P' else 'p', _, rfl, fun q => ?_⟩
  have e : ∀ t, escape (if neg then 'P' else 'p') t = unicodeEsc neg t := by cases neg <;> exact fun _ => rfl
  rw [e]
  cases braces with
  | true => simpa using unicodeEsc_brace neg hk q
  | false =>
    obtain ⟨a, m⟩ := k
    cases hb rfl
    exact unicodeEsc_one neg hk q

/-- The ranges of an ASCII class. -/
def rangesOf : Named → List (Char × Char)
  | .alnum => [('0', '9'), ('A', 'Z'), ('a', 'z')]
  | .alpha => [('A', 'Z'), ('a', 'z')]
  | .ascii => [('\x00', '\x7f')]
  | .blank => [('\t', '\t'), (' ', ' ')]
  | .cntrl => [('\x00', '\x1f'), ('\x7f', '\x7f')]
  | .digit => [('0', '9')]
  | .graph => [('!', '~')]
  | .lower => [('a', 'z')]
  | .print => [(' ', '~')]
  | .punct => [('!', '/'), (':', '@'), ('[', '`'), ('{', '~')]
  | .space => [('\t', '\t'), ('\n', '\n'), ('\x0b', '\x0b'), ('\x0c', '\x0c'), ('\r', '\r'), (' ', ' ')]
  | .upper => [('A', 'Z')]
  | .word => [('0', '9'), ('A', 'Z'), ('_', '_'), ('a', 'z')]
  | .xdigit => [('0', '9'), ('A', 'F'), ('a', 'f')]

theorem asciiClass_named (neg : Bool) (n : Named) (q : List Char) : ∃ t, n.write neg ++ q = '[' :: t ∧
    asciiClass t = some (.ascii neg (rangesOf n), q) := by
  cases neg <;> cases n <;> exact ⟨_, rfl, rfl⟩

theorem asciiClass_other {c : Char} (hc : c ≠ ':') (q : List Char) : asciiClass (c :: q) = none := by
  have : ∀ x ∈ asciiTable, x.1.head? = some ':' := by decide
  rw [asciiClass, List.findSome?_eq_none_iff]
  intro x hx
  have hw := this x hx
  cases h : x.1 with
  | nil => rw [h] at hw; cases hw
  | cons d w =>
    rw [h] at hw
    cases hw
    rw [strip, if_neg (Ne.symm hc)]
    rfl

theorem char_le_iff (a b : Char) : a ≤ b ↔ a.toNat ≤ b.toNat := by
  show a.val ≤ b.val ↔ _
  exact UInt32.le_iff_toNat_le

theorem char_eq_iff (a b : Char) : a = b ↔ a.toNat = b.toNat := by
  constructor
  · rintro rfl; rfl
  · intro h
    exact Char.toNat_inj.1 h

theorem named_ranges (n : Named) (c : Char) : (∃ r ∈ rangesOf n, r.1 ≤ c ∧ c ≤ r.2) ↔ n.Has c := by
  have hA : c.isAlpha = true ↔ (65 ≤ c.toNat ∧ c.toNat ≤ 90) ∨ (97 ≤ c.toNat ∧ c.toNat ≤ 122) := by
    simp [Char.isAlpha, Char.isUpper, Char.isLower, UInt32.le_iff_toNat_le]
  have hU : c.isUpper = true ↔ (65 ≤ c.toNat ∧ c.toNat ≤ 90) := by
    simp [Char.isUpper, UInt32.le_iff_toNat_le]
  have hL : c.isLower = true ↔ (97 ≤ c.toNat ∧ c.toNat ≤ 122) := by
    simp [Char.isLower, UInt32.le_iff_toNat_le]
  have hD : c.isDigit = true ↔ (48 ≤ c.toNat ∧ c.toNat ≤ 57) := by
    simp [Char.isDigit, UInt32.le_iff_toNat_le]
  have hN : c.isAlphanum = true ↔ ((65 ≤ c.toNat ∧ c.toNat ≤ 90) ∨ (97 ≤ c.toNat ∧ c.toNat ≤ 122)) ∨ (48 ≤ c.toNat ∧ c.toNat ≤ 57) := by
    rw [Char.isAlphanum, Bool.or_eq_true, hA, hD]
  have hF : c.isAlphanum = false ↔ ¬ (((65 ≤ c.toNat ∧ c.toNat ≤ 90) ∨ (97 ≤ c.toNat ∧ c.toNat ≤ 122)) ∨ (48 ≤ c.toNat ∧ c.toNat ≤ 57)) := by
    rw [← hN]; simp
  have hX : (∃ n, (c, n) ∈ Pat.hexDigits) ↔ (48 ≤ c.toNat ∧ c.toNat ≤ 57) ∨ (65 ≤ c.toNat ∧ c.toNat ≤ 70) ∨ (97 ≤ c.toNat ∧ c.toNat ≤ 102) := by
    simp only [Pat.hexDigits, List.mem_cons, List.not_mem_nil, or_false, Prod.mk.injEq, exists_or, exists_eq_right, char_eq_iff]
    simp only [Char.reduceToNat]
    omega
  cases n <;> simp only [rangesOf, Named.Has, List.mem_cons, List.not_mem_nil, or_false, exists_eq_or_imp, exists_eq_left, hA, hU, hL, hD, hN, hF, hX,
    char_le_iff, char_eq_iff, Char.reduceToNat] <;> omega

/-- The item as the parser has it. -/
def itemOf : Pat.Item → CItem
  | .one s => .single s.char
  | .range a b => .range a.char b.char
  | .short neg k => .perl neg (perlOf k)
  | .category neg _ k => .perl neg (.category k.name)
  | .named neg n => .ascii neg (rangesOf n)

def opOf : Op → SetOp
  | .inter => .inter
  | .diff => .diff
  | .symm => .symm

/-- The class as the parser has it. -/
def piecesOf : Body → List CPiece
  | .nil => []
  | .item i r => .item (itemOf i) :: piecesOf r
  | .sub neg b r => .item (.nested neg (.all (assemble none [] (piecesOf b)))) :: piecesOf r
  | .op k r => .op (opOf k) :: piecesOf r

/-- The first character of an item. -/
theorem item_head {i : Pat.Item} (hv : i.Valid) : ∃ c t, i.write = c :: t ∧ (c = '\\' ∨ c = '[' ∨ c ∉ specialInside) := by
  cases i with
  | one s =>
    obtain ⟨c, t, h, hc⟩ := single_head hv
    exact ⟨c, t, h, hc.imp_right .inr⟩
  | range a b =>
    obtain ⟨c, t, h, hc⟩ := single_head hv.1
    exact ⟨c, t ++ '-' :: b.write, by simp [Pat.Item.write, h], hc.imp_right .inr⟩
  | short neg k => obtain ⟨d, h, -⟩ := short_escape neg k; exact ⟨_, _, h, .inl rfl⟩
  | category neg braces k => exact ⟨_, _, rfl, .inl rfl⟩
  | named neg n => exact ⟨'[', _, rfl, .inr (.inl rfl)⟩

theorem body_noDash {b : Body} (hv : b.Valid) (r : List Char) : NoDash (b.write ++ ']' :: r) := by
  cases b with
  | nil => exact ⟨']', r, rfl, nofun⟩
  | item i b =>
    obtain ⟨c, t, h, hc⟩ := item_head hv.1
    refine ⟨c, t ++ (b.write ++ ']' :: r), by simp [Body.write, h], ?_⟩
    rintro rfl
    exact absurd hc (by decide)
  | sub neg b b' => exact ⟨'[', _, rfl, nofun⟩
  | op k b =>
    cases k with
    | inter => exact ⟨'&', _, rfl, nofun⟩
    | diff => exact ⟨'-', _, rfl, fun _ => ⟨_, rfl⟩⟩
    | symm => exact ⟨'~', _, rfl, nofun⟩

/-- An item, as long as it does not begin with a bracket. -/
theorem clsRange_item {i : Pat.Item} (hv : i.Valid) (hn : ∀ neg n, i ≠ .named neg n) {q : List Char} (hq : NoDash q) :
    clsRange (i.write ++ q) = .ok (itemOf i, q) := by
  cases i with
  | one s => exact clsRange_of (clsPrim_single hv q) hq
  | range a b =>
    obtain ⟨ha, hb, hab⟩ := hv
    obtain ⟨c, t, h, hc⟩ := single_head hb
    have hc' : c ≠ ']' ∧ c ≠ '-' := by
      constructor <;> (rintro rfl; revert hc; decide)
    have h1 := clsPrim_single hb q
    rw [h] at h1
    rw [List.cons_append] at h1
    show clsRange ((a.write ++ '-' :: b.write) ++ q) = _
    rw [List.append_assoc, h, clsRange, List.cons_append, List.cons_append, clsPrim_single ha]
    simp only [hc'.1, hc'.2, or_self, if_false, h1, hab, if_true, itemOf]
  | short neg k =>
    obtain ⟨d, h, hd⟩ := short_escape neg k
    refine clsRange_of (i := itemOf (.short neg k)) ?_ hq
    show clsPrim (k.write neg ++ q) = _
    rw [h]
    show clsPrim ('\\' :: d :: q) = _
    rw [clsPrim, hd]
    rfl
  | category neg braces k =>
    obtain ⟨d, t, h, hd⟩ := category_escape neg hv
    refine clsRange_of (i := itemOf (.category neg braces k)) ?_ hq
    show clsPrim (k.write neg braces ++ q) = _
    rw [h]
    show clsPrim ('\\' :: d :: (t ++ q)) = _
    rw [clsPrim, hd]
    rfl
  | named neg n => exact absurd rfl (hn neg n)

theorem begins_head {b : Body} (hb : b.Begins) (hv : b.Valid) : ∃ c t, b.write = c :: t ∧ (c = '\\' ∨ c = '[' ∨ c ∉ specialInside) := by
  cases b with
  | nil => exact hb.elim
  | item i b =>
    obtain ⟨c, t, h, hc⟩ := item_head hv.1
    exact ⟨c, t ++ b.write, by simp [Body.write, h], hc⟩
  | sub neg b b' => exact ⟨'[', _, rfl, .inr (.inl rfl)⟩
  | op k b => exact hb.elim

theorem clsHead_body {b : Body} (hb : b.Begins) (hv : b.Valid) (neg : Bool) (q : List Char) :
    clsHead ((if neg then ['^'] else []) ++ b.write ++ q) = (neg, [], b.write ++ q) := by
  obtain ⟨c, t, h, hc⟩ := begins_head hb hv
  have h1 : c ≠ '^' := by rintro rfl; revert hc; decide
  have h2 : c ≠ '-' := by rintro rfl; revert hc; decide
  have h3 : c ≠ ']' := by rintro rfl; revert hc; decide
  rw [h]
  have hd : clsDashes (c :: (t ++ q)) = ([], c :: (t ++ q)) := by
    rw [clsDashes]
    intro r h; exact h2 (List.cons.inj h).1
  have hl : clsLead (c :: (t ++ q)) = ([], c :: (t ++ q)) := by
    rw [clsLead, hd]
    split <;> simp_all
  cases neg with
  | true => show clsHead ('^' :: c :: (t ++ q)) = _; rw [clsHead, hl]; rfl
  | false =>
    show clsHead (c :: (t ++ q)) = _
    rw [clsHead, hl]
    · rfl
    · intro r h; exact h1 (List.cons.inj h).1

/-- The rest of a class. -/
theorem clsItems_body : ∀ (b : Body), b.Valid → ∀ (n : Nat) (r : List Char), b.write.length < n →
    clsItems n (b.write ++ ']' :: r) = .ok (piecesOf b, r)
  | b, _, 0, _, hn => by omega
  | .nil, _, n + 1, r, _ => rfl
  | .item i b, hv, n + 1, r, hn => by
    have ih := clsItems_body b hv.2 n r (by
      obtain ⟨c, t, h, -⟩ := item_head hv.1
      simp only [Body.write, h, List.length_append, List.length_cons] at hn
      omega)
    have e : (Body.item i b).write ++ ']' :: r = i.write ++ (b.write ++ ']' :: r) := by simp [Body.write]
    rw [e]
    by_cases hi : ∃ neg m, i = .named neg m
    · obtain ⟨neg, m, rfl⟩ := hi
      obtain ⟨t, h1, h2⟩ := asciiClass_named neg m (b.write ++ ']' :: r)
      show clsItems (n + 1) (m.write neg ++ (b.write ++ ']' :: r)) = _
      rw [h1, clsItems, h2]
      simp only [ih]
      rfl
    · have hr := clsRange_item hv.1 (fun neg m h => hi ⟨neg, m, h⟩) (body_noDash hv.2 r)
      obtain ⟨c, t, h, hc⟩ := item_head hv.1
      have hb : c ≠ '[' := by
        rintro rfl
        cases i with
        | named neg m => exact hi ⟨neg, m, rfl⟩
        | one s => obtain ⟨c, t', h', hc'⟩ := single_head hv.1; rw [show (Pat.Item.one s).write = s.write from rfl, h'] at h; cases h; revert hc'; decide
        | range a b =>
          obtain ⟨c, t', h', hc'⟩ := single_head hv.1.1
          rw [show (Pat.Item.range a b).write = a.write ++ '-' :: b.write from rfl, h'] at h; cases h; revert hc'; decide
        | short neg k => obtain ⟨d, h', -⟩ := short_escape neg k; rw [show (Pat.Item.short neg k).write = k.write neg from rfl, h'] at h; cases h
        | category neg braces k => cases h
      have h3 : c ≠ ']' := by rintro rfl; revert hc; decide
      have h4 : c ≠ '&' := by rintro rfl; revert hc; decide
      have h5 : c ≠ '-' := by rintro rfl; revert hc; decide
      have h6 : c ≠ '~' := by rintro rfl; revert hc; decide
      rw [h, List.cons_append] at hr ⊢
      rw [clsItems, hr]
      · simp only [ih]
        rfl
      all_goals simp_all
  | .sub neg b b', hv, n + 1, r, hn => by
    obtain ⟨hb, hv1, hv2⟩ := hv
    have hn' : b.write.length < n ∧ b'.write.length < n := by
      simp only [Body.write, bracketed, List.length_append, List.length_cons, List.length_nil] at hn
      omega
    have ih1 := clsItems_body b hv1 n (b'.write ++ ']' :: r) hn'.1
    have ih2 := clsItems_body b' hv2 n r hn'.2
    have e : (Body.sub neg b b').write ++ ']' :: r =
        '[' :: ((if neg then ['^'] else []) ++ b.write ++ ']' :: (b'.write ++ ']' :: r)) := by simp [Body.write, bracketed]
    have ha : asciiClass ((if neg then ['^'] else []) ++ b.write ++ ']' :: (b'.write ++ ']' :: r)) = none := by
      cases neg with
      | true => exact asciiClass_other (by decide) _
      | false =>
        obtain ⟨c, t, h, hc⟩ := begins_head hb hv1
        rw [h]
        exact asciiClass_other (by rintro rfl; revert hc; decide) _
    rw [e, clsItems, ha]
    simp only [clsHead_body hb hv1, ih1, ih2]
    rfl
  | .op k b, hv, n + 1, r, hn => by
    have ih := clsItems_body b hv n r (by
      simp only [Body.write, List.length_append] at hn
      cases k <;> simp only [Op.write, List.length_cons, List.length_nil] at hn <;> omega)
    cases k
    all_goals
      simp only [Body.write, Op.write, List.cons_append, List.nil_append]
      rw [clsItems]
      simp only [ih]
      rfl
  termination_by b => sizeOf b

theorem clsOpen_body {b : Body} (hb : b.Begins) (hv : b.Valid) (neg : Bool) (r : List Char) :
    clsOpen ((if neg then ['^'] else []) ++ b.write ++ ']' :: r) = .ok (⟨neg, assemble none [] (piecesOf b)⟩, r) := by
  rw [clsOpen]
  simp only [clsHead_body hb hv]
  rw [clsItems_body b hv _ r (by simp only [List.length_append, List.length_cons]; omega)]

/-! ## The characters of a class -/

/-- An item under the flag `i`, or not. -/
def underI (ins : Bool) (i : CItem) : CItem := if ins then i.insens else i

/-- The characters of an item. -/
def sem (U : Classes) (ins : Bool) (i : CItem) : Char → Prop := fun c => (underI ins i).mem U c

theorem all_mem (c : Char) : ∀ is : List CItem, (CItem.all is).mem U c ↔ ∃ i ∈ is, i.mem U c
  | [] => by simp [CItem.all, CItem.mem]
  | [i] => by simp [CItem.all]
  | i :: j :: is => by
    have := all_mem c (j :: is)
    simp only [CItem.all, CItem.mem, this]
    simp

theorem all_insens : ∀ is : List CItem, (CItem.all is).insens = CItem.all (is.map CItem.insens)
  | [] => rfl
  | [i] => rfl
  | i :: j :: is => by
    have := all_insens (j :: is)
    simp only [CItem.all, List.map_cons, CItem.insens] at this ⊢
    rw [this]

theorem sem_all (ins : Bool) (is : List CItem) : sem U ins (.all is) = fun c => ∃ i ∈ is, sem U ins i c := by
  funext c
  cases ins with
  | false => exact propext (all_mem c is)
  | true =>
    refine propext (Iff.trans (b := ∃ i ∈ is.map CItem.insens, i.mem U c) ?_ ?_)
    · show ((CItem.all is).insens).mem U c ↔ _
      rw [all_insens, all_mem]
    · exact ⟨fun ⟨_, h, h'⟩ => let ⟨a, ha, e⟩ := List.mem_map.1 h; ⟨a, ha, show a.insens.mem U c from e.symm ▸ h'⟩, fun ⟨a, ha, h⟩ => ⟨_, List.mem_map.2 ⟨a, ha, rfl⟩, h⟩⟩

theorem sem_append (ins : Bool) (is : List CItem) (i : CItem) : sem U ins (.all (is ++ [i])) = fun c => sem U ins (.all is) c ∨ sem U ins i c := by
  simp only [sem_all]
  funext c
  simp only [List.mem_append, List.mem_singleton, or_and_right, exists_or, exists_eq_left]

theorem widen_false (P : Char → Prop) : widen U false P = P := by
  funext c
  simp [widen]

theorem sem_item (ins : Bool) (i : Pat.Item) : sem U ins (itemOf i) = i.Has U ins := by
  funext c
  cases i with
  | one s => cases ins <;> rfl
  | range a b => cases ins <;> rfl
  | short neg k => cases ins <;> cases neg <;> cases k <;> rfl
  | category neg braces k =>
    have e : ∀ P : Char → Prop, widen U true P = fun c => P c ∨ ∃ d, U.fold d c ∧ P d := fun P => by funext c; simp [widen]
    cases ins with
    | false => simp only [Item.Has, widen_false]; cases neg <;> rfl
    | true => simp only [Item.Has, e]; cases neg <;> rfl
  | named neg n =>
    have h : ∀ c, (CItem.ascii false (rangesOf n)).mem U c ↔ n.Has c := named_ranges n
    have h' : ∀ c, (CItem.ascii true (rangesOf n)).mem U c ↔ ¬ n.Has c := fun c => not_congr (named_ranges n c)
    cases ins with
    | false =>
      cases neg
      · exact propext ((h c).trans (by simp [Item.Has, Pat.flip, widen]))
      · exact propext ((h' c).trans (by simp [Item.Has, Pat.flip, widen]))
    | true =>
      have h'' : ((CItem.ascii false (rangesOf n)).mem U c ∨ ∃ d, U.fold d c ∧ (CItem.ascii false (rangesOf n)).mem U d) ↔ widen U true n.Has c := by
        simp only [h, widen, true_and]
      cases neg
      · exact propext h''
      · exact propext (not_congr h'')

theorem sem_nested (ins neg : Bool) (i : CItem) : sem U ins (.nested neg i) = Pat.flip neg (widen U ins (sem U ins i)) := by
  funext c
  cases ins <;> cases neg <;> simp [sem, underI, CItem.insens, Pat.flip, widen, CItem.mem]

theorem sem_op (ins : Bool) (k : Op) (i j : CItem) :
    sem U ins (.op (opOf k) i j) = fun c => k.apply (widen U ins (sem U ins i)) (widen U ins (sem U ins j)) c := by
  funext c
  cases ins <;> cases k <;> simp [sem, underI, CItem.insens, widen, CItem.mem, opOf, Op.apply]

/-- What the operation before makes of a class. -/
def leftOf (U : Classes) (ins : Bool) : Option (Op × CItem) → (Char → Prop) → Char → Prop
  | none => id
  | some (k, l) => fun P c => k.apply (widen U ins (sem U ins l)) (widen U ins P) c

theorem sem_popOp (ins : Bool) (p : Option (Op × CItem)) (is : List CItem) :
    sem U ins (.all (popOp (p.map fun x => (opOf x.1, x.2)) is)) = leftOf U ins p (sem U ins (.all is)) := by
  cases p with
  | none => rfl
  | some x => exact sem_op ins x.1 x.2 (.all is)

theorem assemble_body (ins : Bool) : ∀ (b : Body) (p : Option (Op × CItem)) (is : List CItem),
    sem U ins (.all (assemble (p.map fun x => (opOf x.1, x.2)) is (piecesOf b))) = b.Has U ins (leftOf U ins p) (sem U ins (.all is))
  | .nil, p, is => sem_popOp ins p is
  | .item i b, p, is => by
    rw [piecesOf, assemble, assemble_body ins b, sem_append, sem_item]; rfl
  | .sub neg b b', p, is => by
    have h := assemble_body ins b none []
    rw [piecesOf, assemble, assemble_body ins b', sem_append, sem_nested]
    rw [Option.map_none] at h
    rw [h]
    have e : sem U ins (.all []) = fun _ => False := by cases ins <;> rfl
    rw [e]
    rfl
  | .op k b, p, is => by
    have h := assemble_body ins b (some (k, .all (popOp (p.map fun x => (opOf x.1, x.2)) is))) []
    rw [Option.map_some] at h
    rw [piecesOf, assemble, h]
    have e : sem U ins (.all []) = fun _ => False := by cases ins <;> rfl
    rw [e, leftOf, sem_popOp]
    rfl

/-- The class of a body. -/
def clsOf (neg : Bool) (b : Body) : Cls := ⟨neg, assemble none [] (piecesOf b)⟩

theorem clsOf_mem (ins neg : Bool) (b : Body) (c : Char) :
    (if ins then (clsOf neg b).insens else clsOf neg b).mem U c ↔ (Pat.Piece.set neg b).Has U ins c := by
  have h := congrFun (assemble_body (U := U) ins b none []) c
  have e : sem U ins (.all []) = fun _ => False := by cases ins <;> rfl
  rw [e, Option.map_none] at h
  have h' := fun d => congrFun (assemble_body (U := U) ins b none []) d
  simp only [Option.map_none, e] at h'
  show _ ↔ Pat.flip neg (widen U ins (b.Has U ins (leftOf U ins none) fun _ => False)) c
  cases ins with
  | false =>
    rw [widen_false]
    simp only [Pat.flip, ← h', sem_all]
    cases neg <;> exact Iff.rfl
  | true =>
    have hm : ∀ d, (CItem.all ((assemble none [] (piecesOf b)).map CItem.insens)).mem U d ↔ b.Has U true (leftOf U true none) (fun _ => False) d := by
      intro d
      rw [← h' d, ← all_insens]
      exact Iff.rfl
    cases neg <;> simp [Cls.insens, clsOf, Cls.mem, CItem.mem, Pat.flip, widen, hm]

/-! ## Tokens -/

/-- The token of a piece, without flags. -/
def pieceTok : Pat.Piece → Tok
  | .one s => .lit s.char
  | .short neg k => .cls ⟨false, [.perl neg (perlOf k)]⟩
  | .category neg _ k => .cls ⟨false, [.perl neg (.category k.name)]⟩
  | .dot => .dot
  | .set neg b => .cls (clsOf neg b)

/-- How a piece begins. -/
def pieceHead (p : Pat.Piece) : Char := p.write.headD ' '

theorem rawOne_piece {p : Pat.Piece} (hv : p.Valid) (r : List Char) :
    ∃ t, p.write = pieceHead p :: t ∧ rawOne (pieceHead p) (t ++ r) = .ok (.tok (pieceHead p) (pieceTok p), r) := by
  cases p with
  | one s =>
    rcases single_cases s with ⟨c, rfl⟩ | hp
    · exact ⟨[], rfl, rawOne_of (lexOne_plain hv r)⟩
    · obtain ⟨d, t, h1, h2⟩ := single_escape hv hp
      have e : pieceHead (.one s) = '\\' := by simp [pieceHead, Pat.Piece.write, h1]
      rw [e]
      refine ⟨d :: t, h1, rawOne_of ?_⟩
      show lexOne '\\' (d :: (t ++ r)) = _
      simp only [lexOne, h2]
      rfl
  | short neg k =>
    obtain ⟨d, h1, h2⟩ := short_escape neg k
    have e : pieceHead (.short neg k) = '\\' := by simp [pieceHead, Pat.Piece.write, h1]
    rw [e]
    refine ⟨[d], h1, rawOne_of ?_⟩
    show lexOne '\\' (d :: r) = _
    simp only [lexOne, h2]
    rfl
  | category neg braces k =>
    obtain ⟨d, t, h1, h2⟩ := category_escape neg hv
    have e : pieceHead (.category neg braces k) = '\\' := rfl
    rw [e]
    refine ⟨d :: t, h1, rawOne_of ?_⟩
    show lexOne '\\' (d :: (t ++ r)) = _
    simp only [lexOne, h2]
    rfl
  | dot => exact ⟨[], rfl, rawOne_of rfl⟩
  | set neg b =>
    refine ⟨_, rfl, rawOne_of ?_⟩
    have h := clsOpen_body hv.1 hv.2 neg r
    have e : (if neg then ['^'] else []) ++ b.write ++ [']'] ++ r = (if neg then ['^'] else []) ++ b.write ++ ']' :: r := by simp
    show lexOne '[' ((if neg then ['^'] else []) ++ b.write ++ [']'] ++ r) = _
    rw [e]
    simp only [lexOne, h]
    rfl

/-- The tokens of a repetition. -/
def quantTok : Quant → Char × Tok
  | .optional => ('?', .quest)
  | .any => ('*', .star)
  | .some => ('+', .plus)
  | .exactly m => ('{', .count m (some m))
  | .atLeast m => ('{', .count m none)
  | .between m n => ('{', .count m (some n))

theorem rawOne_quant {q : Quant} (hv : q.Valid) (r : List Char) :
    ∃ t, q.write = (quantTok q).1 :: t ∧ rawOne (quantTok q).1 (t ++ r) = .ok (.tok (quantTok q).1 (quantTok q).2, r) := by
  cases q with
  | optional => exact ⟨[], rfl, rawOne_of rfl⟩
  | any => exact ⟨[], rfl, rawOne_of rfl⟩
  | some => exact ⟨[], rfl, rawOne_of rfl⟩
  | exactly m =>
    refine ⟨decimal m ++ ['}'], rfl, rawOne_of ?_⟩
    show countTok (decimal m ++ ['}'] ++ r) = _
    rw [List.append_assoc]
    exact countTok_exact m r
  | atLeast m =>
    refine ⟨decimal m ++ [',', '}'], rfl, rawOne_of ?_⟩
    show countTok (decimal m ++ [',', '}'] ++ r) = _
    rw [List.append_assoc]
    exact countTok_atLeast m r
  | between m n =>
    refine ⟨decimal m ++ [','] ++ decimal n ++ ['}'], rfl, rawOne_of ?_⟩
    show countTok (decimal m ++ [','] ++ decimal n ++ ['}'] ++ r) = _
    have e : decimal m ++ [','] ++ decimal n ++ ['}'] ++ r = decimal m ++ ',' :: (decimal n ++ '}' :: r) := by simp
    rw [e]
    exact countTok_between m n hv r

/-- The tokens of a factor after its piece. -/
def tailRaw : Option (Quant × Bool) → List RTok
  | none => []
  | some (q, lazily) => .tok (quantTok q).1 (quantTok q).2 :: if lazily then [.tok '?' .quest] else []

def factorRaw (f : Factor) : List RTok := .tok (pieceHead f.piece) (pieceTok f.piece) :: tailRaw f.quant

theorem putRaw_nil (x : Except RErr (List RTok)) : putRaw [] x = x := by cases x <;> rfl

theorem lexRaw_factor {f : Factor} (hv : f.Valid) (r : List Char) : lexRaw (f.write ++ r) = putRaw (factorRaw f) (lexRaw r) := by
  obtain ⟨p, q⟩ := f
  have hp : ∀ r, lexRaw (p.write ++ r) = putRaw [.tok (pieceHead p) (pieceTok p)] (lexRaw r) := fun r => by
    obtain ⟨t, h1, h2⟩ := rawOne_piece hv.1 r
    rw [h1]
    exact lexRaw_cons h2
  cases q with
  | none => simpa [Factor.write, factorRaw, tailRaw] using hp r
  | some x =>
    obtain ⟨q, z⟩ := x
    have hq : ∀ r, lexRaw (q.write ++ r) = putRaw [.tok (quantTok q).1 (quantTok q).2] (lexRaw r) := fun r => by
      obtain ⟨t, h1, h2⟩ := rawOne_quant (hv.2 q z rfl) r
      rw [h1]
      exact lexRaw_cons h2
    cases z with
    | false => simp [Factor.write, factorRaw, tailRaw, hp, hq, putRaw_putRaw]
    | true =>
      have hz : lexRaw ('?' :: r) = putRaw [.tok '?' .quest] (lexRaw r) := lexRaw_cons rfl
      simp [Factor.write, factorRaw, tailRaw, hp, hq, hz, putRaw_putRaw]

def branchRaw (b : List Factor) : List RTok := (b.map factorRaw).flatten

theorem lexRaw_branch (r : List Char) : ∀ {b : List Factor}, (∀ f ∈ b, f.Valid) → lexRaw (writeBranch b ++ r) = putRaw (branchRaw b) (lexRaw r)
  | [], _ => (putRaw_nil _).symm
  | f :: b, hv => by
    have e : writeBranch (f :: b) ++ r = f.write ++ (writeBranch b ++ r) := by simp [writeBranch]
    rw [e, lexRaw_factor (hv f (by simp)), lexRaw_branch r fun g hg => hv g (by simp [hg]), putRaw_putRaw]
    rfl

/-- The further branches. -/
def othersRaw (bs : List (List Factor)) : List RTok := (bs.map fun b => .tok '|' .bar :: branchRaw b).flatten

theorem lexRaw_others : ∀ {bs : List (List Factor)}, (∀ b ∈ bs, ∀ f ∈ b, f.Valid) →
    lexRaw (bs.map fun b => '|' :: writeBranch b).flatten = .ok (othersRaw bs)
  | [], _ => rfl
  | b :: bs, hv => by
    have e : ((b :: bs).map fun b => '|' :: writeBranch b).flatten = '|' :: (writeBranch b ++ (bs.map fun b => '|' :: writeBranch b).flatten) := by simp
    rw [e, lexRaw_cons (t := .tok '|' .bar) (r' := writeBranch b ++ (bs.map fun b => '|' :: writeBranch b).flatten) rfl,
      lexRaw_branch _ (hv b (by simp)), lexRaw_others fun c hc => hv c (by simp [hc])]
    simp [putRaw, othersRaw]

/-- The flags of a pattern. -/
def flagsOf (ins : Bool) : Flags := { insens := ins }

/-- The tokens after the flags are applied. -/
def factorToks (ins : Bool) (f : Factor) : List Tok :=
  (pieceTok f.piece).under (flagsOf ins) (pieceHead f.piece) :: match f.quant with
    | none => []
    | some (q, lazily) => (quantTok q).2 :: if lazily then [.quest] else []

theorem prep_prep (ts us : List Tok) (x : Except RErr (List Tok)) : prep ts (prep us x) = prep (ts ++ us) x := by
  cases x <;> simp [prep]

theorem resolve_factor (ins : Bool) (fs : List Flags) (f : Factor) (ts : List RTok) :
    resolve (flagsOf ins) fs (factorRaw f ++ ts) = prep (factorToks ins f) (resolve (flagsOf ins) fs ts) := by
  obtain ⟨p, q⟩ := f
  have hp : ∀ ts, resolve (flagsOf ins) fs (.tok (pieceHead p) (pieceTok p) :: ts) =
      prep [(pieceTok p).under (flagsOf ins) (pieceHead p)] (resolve (flagsOf ins) fs ts) := fun ts => by
    cases p <;> rfl
  cases q with
  | none => exact hp ts
  | some x =>
    obtain ⟨q, z⟩ := x
    have hq : ∀ ts, resolve (flagsOf ins) fs (.tok (quantTok q).1 (quantTok q).2 :: ts) = prep [(quantTok q).2] (resolve (flagsOf ins) fs ts) := fun ts => by
      cases q <;> rfl
    have hz : ∀ ts, resolve (flagsOf ins) fs (.tok '?' .quest :: ts) = prep [.quest] (resolve (flagsOf ins) fs ts) := fun ts => rfl
    cases z with
    | false =>
      show resolve (flagsOf ins) fs (.tok (pieceHead p) (pieceTok p) :: .tok (quantTok q).1 (quantTok q).2 :: ts) = _
      rw [hp, hq, prep_prep]
      rfl
    | true =>
      show resolve (flagsOf ins) fs (.tok (pieceHead p) (pieceTok p) :: .tok (quantTok q).1 (quantTok q).2 :: .tok '?' .quest :: ts) = _
      rw [hp, hq, hz, prep_prep, prep_prep]
      rfl

def branchToks' (ins : Bool) (b : List Factor) : List Tok := (b.map (factorToks ins)).flatten

theorem resolve_branch (ins : Bool) (fs : List Flags) (ts : List RTok) : ∀ b : List Factor,
    resolve (flagsOf ins) fs (branchRaw b ++ ts) = prep (branchToks' ins b) (resolve (flagsOf ins) fs ts)
  | [] => by show resolve (flagsOf ins) fs ts = _; cases resolve (flagsOf ins) fs ts <;> rfl
  | f :: b => by
    have e : branchRaw (f :: b) ++ ts = factorRaw f ++ (branchRaw b ++ ts) := by simp [branchRaw]
    rw [e, resolve_factor, resolve_branch ins fs ts b, prep_prep]
    rfl

theorem resolve_others (ins : Bool) (fs : List Flags) : ∀ bs : List (List Factor),
    resolve (flagsOf ins) fs (othersRaw bs) = .ok (bs.map fun b => .bar :: branchToks' ins b).flatten
  | [] => rfl
  | b :: bs => by
    have e : othersRaw (b :: bs) = .tok '|' .bar :: (branchRaw b ++ othersRaw bs) := by simp [othersRaw]
    rw [e, resolve_tok]
    simp only [RTok.step, Tok.under, resolve_branch, resolve_others ins fs bs]
    simp [prep]

/-- The tokens of the flag. -/
def insToks (ins : Bool) : List Tok := if ins then [.group, .close] else []

theorem repeats_branches (b : List Factor) (bs : List (List Factor)) : repeats (branchRaw b ++ othersRaw bs) = false := by
  cases b with
  | nil => cases bs <;> rfl
  | cons f b =>
    obtain ⟨p, q⟩ := f
    cases p <;> rfl

theorem lex_pattern {p : Pattern} (hv : p.Valid) :
    lex p.value = .ok (insToks p.ins ++ branchToks' p.ins p.first ++ (p.others.map fun b => .bar :: branchToks' p.ins b).flatten) := by
  obtain ⟨ins, b, bs⟩ := p
  have h1 : lexRaw (writeBranch b ++ (bs.map fun b => '|' :: writeBranch b).flatten) = .ok (branchRaw b ++ othersRaw bs) := by
    rw [lexRaw_branch _ (hv b (by simp)), lexRaw_others fun c hc => hv c (by simp at hc ⊢; exact .inr hc)]
    rfl
  have go : ∀ {cs ts}, lexRaw cs = .ok ts → lex cs = resolve {} [] ts := fun {cs ts} h => by
    have : lexF cs.length cs = .ok ts := h
    rw [lex, this]
  cases ins with
  | false =>
    have e : (Pattern.mk false b bs).value = writeBranch b ++ (bs.map fun b => '|' :: writeBranch b).flatten := by simp [Pattern.value]
    rw [e, go h1]
    show resolve (flagsOf false) [] _ = _
    rw [resolve_branch, resolve_others]
    simp [prep, insToks]
  | true =>
    have e : (Pattern.mk true b bs).value = '(' :: '?' :: 'i' :: ')' :: (writeBranch b ++ (bs.map fun b => '|' :: writeBranch b).flatten) := by
      simp [Pattern.value]
    have h2 : lexRaw ('(' :: '?' :: 'i' :: ')' :: (writeBranch b ++ (bs.map fun b => '|' :: writeBranch b).flatten)) =
        .ok (.flags [(.i, true)] :: (branchRaw b ++ othersRaw bs)) := by
      rw [lexRaw_cons (r' := writeBranch b ++ (bs.map fun b => '|' :: writeBranch b).flatten) (t := .flags [(.i, true)]) rfl, h1]
      rfl
    rw [e, go h2, resolve, repeats_branches]
    simp only [Bool.false_eq_true, if_false]
    show prep _ (resolve (flagsOf true) [] _) = _
    rw [resolve_branch, resolve_others]
    simp [prep, insToks]

/-! ## Trees -/

/-- The tree of a piece. -/
def pieceAst (ins : Bool) : Pat.Piece → Ast
  | .one s => if ins then .cls (foldCls s.char) else .lit s.char
  | .short neg k => .cls ⟨false, [.perl neg (perlOf k)]⟩
  | .category neg _ k => .cls ⟨false, [if ins then .fold neg (.perl false (.category k.name)) else .perl neg (.category k.name)]⟩
  | .dot => .dot
  | .set neg b => .cls (if ins then (clsOf neg b).insens else clsOf neg b)

/-- The bounds of a repetition. -/
def bounds : Quant → Nat × Option Nat
  | .optional => (0, some 1)
  | .any => (0, none)
  | .some => (1, none)
  | .exactly m => (m, some m)
  | .atLeast m => (m, none)
  | .between m n => (m, some n)

def factorAst (ins : Bool) (f : Factor) : Ast :=
  match f.quant with
  | none => pieceAst ins f.piece
  | some (q, lazily) => .rep (pieceAst ins f.piece) (bounds q).1 (bounds q).2 (!lazily)

theorem piece_pushes (ins : Bool) (p : Pat.Piece) (st : List (Kind × AFrame)) (f : AFrame) (rest : List Tok) :
    buildA st f ((pieceTok p).under (flagsOf ins) (pieceHead p) :: rest) = buildA st (f.push (pieceAst ins p)) rest := by
  cases p with
  | one s => cases ins <;> rfl
  | short neg k =>
    have h : pieceHead (.short neg k) = '\\' := by cases neg <;> cases k <;> rfl
    rw [h]
    cases ins <;> cases k <;> rfl
  | category neg braces k => cases ins <;> rfl
  | dot => rfl
  | set neg b => cases ins <;> rfl

theorem reads_factor (ins : Bool) (f : Factor) : AReadsAs (factorToks ins f) [factorAst ins f] := by
  obtain ⟨p, q⟩ := f
  intro fr
  cases q with
  | none => exact ⟨false, fun st br it rest => piece_pushes ins p st ⟨br, it, fr⟩ rest⟩
  | some x =>
    obtain ⟨q, z⟩ := x
    cases z with
    | false =>
      refine ⟨true, fun st br it rest => (piece_pushes ins p st ⟨br, it, fr⟩ ((quantTok q).2 :: rest)).trans ?_⟩
      cases q <;> rfl
    | true =>
      refine ⟨false, fun st br it rest => (piece_pushes ins p st ⟨br, it, fr⟩ ((quantTok q).2 :: .quest :: rest)).trans ?_⟩
      cases q <;> rfl

theorem reads_branch (ins : Bool) : ∀ b : List Factor, AReadsAs (branchToks' ins b) (b.map (factorAst ins))
  | [] => .nil
  | f :: b => (reads_factor ins f).append (reads_branch ins b)

def insAsts (ins : Bool) : List Ast := if ins then [.group .empty] else []

theorem reads_ins (ins : Bool) : AReadsAs (insToks ins) (insAsts ins) := by
  cases ins with
  | false => exact .nil
  | true => exact fun _ => ⟨false, fun _ _ _ _ => rfl⟩

theorem barred_cons (b : List Tok) : ∀ bs : List (List Tok), barred (b :: bs) = b ++ (bs.map fun c => .bar :: c).flatten
  | [] => by simp [barred]
  | c :: bs => by
    rw [barred, barred_cons c bs]
    · simp
    · simp

/-- The branches of a pattern. -/
def branchAsts' (p : Pattern) : List (List Ast) := (insAsts p.ins ++ p.first.map (factorAst p.ins)) :: p.others.map fun b => b.map (factorAst p.ins)

def patternAst (p : Pattern) : Ast := altA ((branchAsts' p).map catA)

theorem build_pattern (p : Pattern) :
    buildA [] .start (insToks p.ins ++ branchToks' p.ins p.first ++ (p.others.map fun b => .bar :: branchToks' p.ins b).flatten) = .ok (patternAst p) := by
  obtain ⟨ins, b, bs⟩ := p
  obtain ⟨fr, h⟩ := areadBranches ((insToks ins ++ branchToks' ins b, insAsts ins ++ b.map (factorAst ins)) ::
    bs.map fun b => (branchToks' ins b, b.map (factorAst ins))) (by simp) (by
      intro x hx
      rcases List.mem_cons.1 hx with rfl | hx
      · exact (reads_ins ins).append (reads_branch ins b)
      · obtain ⟨c, -, rfl⟩ := List.mem_map.1 hx
        exact reads_branch ins c) false
  obtain ⟨it, br, h1, h2⟩ := h [] [] []
  rw [List.map_cons, barred_cons, List.append_nil] at h1
  rw [List.map_cons, List.append_nil] at h2
  simp only [List.map_map, Function.comp_def] at h1 h2
  refine (h1.trans ?_)
  simp only [buildA, AFrame.finish, h2, List.reverse_reverse]
  simp [patternAst, branchAsts', List.map_map, Function.comp_def]

theorem groups_piece (ins : Bool) (p : Pat.Piece) : (pieceAst ins p).toRe.groups = [] := by
  cases p <;> cases ins <;> rfl

theorem groups_factor (ins : Bool) (f : Factor) : (factorAst ins f).toRe.groups = [] := by
  obtain ⟨p, q⟩ := f
  cases q with
  | none => exact groups_piece ins p
  | some x => exact groups_piece ins p

theorem groups_catA {as : List Ast} (h : ∀ a ∈ as, a.toRe.groups = []) : (catA as).toRe.groups = [] := by
  rw [toRe_catA, groups_catL, List.flatten_eq_nil_iff]
  intro l hl
  simp only [List.map_map, List.mem_map, Function.comp_apply] at hl
  obtain ⟨a, ha, rfl⟩ := hl
  exact h a ha

theorem groups_branchOf {p : Pattern} {as : List Ast} (h : as ∈ branchAsts' p) : (catA as).toRe.groups = [] := by
  refine groups_catA fun a ha => ?_
  rcases List.mem_cons.1 h with rfl | h
  · rcases List.mem_append.1 ha with ha | ha
    · revert ha; cases p.ins
      · intro ha; exact nomatch ha
      · intro ha; cases List.mem_singleton.1 ha; rfl
    · obtain ⟨f, -, rfl⟩ := List.mem_map.1 ha
      exact groups_factor _ f
  · obtain ⟨b, -, rfl⟩ := List.mem_map.1 h
    obtain ⟨f, -, rfl⟩ := List.mem_map.1 ha
    exact groups_factor _ f

theorem groups_pattern (p : Pattern) : (patternAst p).toRe.groups = [] := by
  rw [patternAst, toRe_altA, groups_altL, List.flatten_eq_nil_iff]
  intro l hl
  simp only [List.map_map, List.mem_map, Function.comp_apply] at hl
  obtain ⟨as, has, rfl⟩ := hl
  exact groups_branchOf has

theorem parse_patternOf {p : Pattern} (hv : p.Valid) : Ast.parse p.value = .ok (patternAst p) := by
  simp only [Ast.parse, lex_pattern hv, build_pattern, Re.names, groups_pattern]
  rfl

/-! ## Meaning -/

theorem repeats_bounds {Q : Char → Prop} {P : Matches} (hP : ∀ pre x post l, P pre x post l ↔ (∃ c, Q c ∧ x = [c]) ∧ l = [])
    (m : Nat) (n : Option Nat) (pre x post : List Char) (l : List Cap) :
    Repeats P m n pre x post l ↔ (m ≤ x.length ∧ ∀ k, n = some k → x.length ≤ k) ∧ (∀ c ∈ x, Q c) ∧ l = [] := by
  constructor
  · intro h
    induction h with
    | done => simp
    | more m n pre x y post l k hne h1 h2 ih =>
      obtain ⟨⟨c, hc, rfl⟩, rfl⟩ := (hP _ _ _ _).1 h1
      obtain ⟨⟨i1, i3⟩, i2, rfl⟩ := ih
      refine ⟨⟨by simp; omega, ?_⟩, ?_, rfl⟩
      · rintro k rfl
        have := i3 (k - 1) rfl
        have : k ≠ 0 := fun e => hne (by rw [e])
        simp; omega
      · intro d hd
        rcases List.mem_cons.1 hd with rfl | hd
        · exact hc
        · exact i2 d hd
  · rintro ⟨⟨h1, h3⟩, h2, rfl⟩
    induction x generalizing m n pre with
    | nil =>
      have : m = 0 := by simpa using h1
      subst this
      exact .done _ _ _
    | cons c x ih =>
      have := Repeats.more (P := P) m n pre [c] x post [] [] (by
          rintro rfl
          have := h3 0 rfl
          simp at this) ((hP _ _ _ _).2 ⟨⟨c, h2 c (by simp), rfl⟩, rfl⟩)
        (ih (m - 1) _ _ (by simp at h1; omega) (by
          intro k hk
          cases n with
          | none => cases hk
          | some j => cases hk; have := h3 j rfl; simp only [List.length_cons] at this; show x.length ≤ j - 1; omega) (fun d hd => h2 d (by simp [hd])))
      simpa using this

theorem match_piece (ins : Bool) (p : Pat.Piece) (g : Nat) (pre x post : List Char) (l : List Cap) :
    (pieceAst ins p).toRe.Match U g pre x post l ↔ (∃ c, p.Has U ins c ∧ x = [c]) ∧ l = [] := by
  cases p with
  | one s =>
    cases ins with
    | false => simp [pieceAst, Ast.toRe, Re.Match, Piece.Has, widen]
    | true =>
      have : ∀ c, (foldCls s.char).mem U c ↔ Piece.Has U true (.one s) c := by
        intro c
        simp [foldCls, Cls.mem, CItem.mem, Piece.Has, widen]
      simp only [pieceAst, if_true, Ast.toRe, Re.Match, this]
  | short neg k =>
    have : ∀ c, (⟨false, [.perl neg (perlOf k)]⟩ : Cls).mem U c ↔ Piece.Has U ins (.short neg k) c := by
      intro c
      cases neg <;> cases k <;> simp [Cls.mem, CItem.mem, Piece.Has, Pat.flip, perlOf, Perl.mem, Short.Has]
    simp only [pieceAst, Ast.toRe, Re.Match, this]
  | category neg braces k =>
    have : ∀ c, (⟨false, [if ins then .fold neg (.perl false (.category k.name)) else .perl neg (.category k.name)]⟩ : Cls).mem U c ↔
        Piece.Has U ins (.category neg braces k) c := by
      intro c
      cases ins <;> cases neg <;> simp [Cls.mem, CItem.mem, Piece.Has, Pat.flip, Perl.mem, widen]
    simp only [pieceAst, Ast.toRe, Re.Match, this]
  | dot => exact Iff.rfl
  | set neg b => simp only [pieceAst, Ast.toRe, Re.Match, clsOf_mem]

theorem match_factor (ins : Bool) (f : Factor) (g : Nat) (pre x post : List Char) (l : List Cap) :
    (factorAst ins f).toRe.Match U g pre x post l ↔ f.Takes U ins x ∧ l = [] := by
  obtain ⟨p, q⟩ := f
  cases q with
  | none =>
    refine (match_piece ins p g pre x post l).trans (and_congr_left fun _ => ?_)
    constructor
    · rintro ⟨c, hc, rfl⟩
      exact ⟨by simpa using hc, rfl⟩
    · rintro ⟨h1, h2⟩
      obtain ⟨c, rfl⟩ := List.length_eq_one_iff.1 h2
      exact ⟨c, h1 c (by simp), rfl⟩
  | some y =>
    obtain ⟨q, z⟩ := y
    refine (repeats_bounds (Q := p.Has U ins) (fun pre x post l => match_piece ins p g pre x post l) (bounds q).1 (bounds q).2 pre x post l).trans ?_
    have : ((bounds q).1 ≤ x.length ∧ ∀ k, (bounds q).2 = some k → x.length ≤ k) ↔ q.Allows x.length := by
      cases q <;> simp [bounds, Quant.Allows] <;> omega
    rw [this]
    show _ ↔ ((∀ c ∈ x, p.Has U ins c) ∧ q.Allows x.length) ∧ l = []
    exact ⟨fun ⟨a, b, c⟩ => ⟨⟨b, a⟩, c⟩, fun ⟨⟨a, b⟩, c⟩ => ⟨b, a, c⟩⟩

theorem match_branchOf (ins : Bool) : ∀ (b : List Factor) (g : Nat) (pre x post : List Char) (l : List Cap),
    (catL ((b.map (factorAst ins)).map Ast.toRe)).Match U g pre x post l ↔ Sequence U ins b x ∧ l = []
  | [], _, _, _, _, _ => Iff.rfl
  | f :: b, g, pre, x, post, l => by
    rw [List.map_cons, List.map_cons, match_catL_cons]
    simp only [match_factor, match_branchOf ins b, Sequence]
    constructor
    · rintro ⟨y, z, k, m, rfl, rfl, ⟨h1, rfl⟩, h2, rfl⟩
      exact ⟨⟨y, z, rfl, h1, h2⟩, rfl⟩
    · rintro ⟨⟨y, z, rfl, h1, h2⟩, rfl⟩
      exact ⟨y, z, [], [], rfl, rfl, ⟨h1, rfl⟩, h2, rfl⟩

theorem match_pattern (p : Pattern) (g : Nat) (pre x post : List Char) (l : List Cap) :
    (patternAst p).toRe.Match U g pre x post l ↔ p.Takes U x ∧ l = [] := by
  have h0 : ∀ x pre l, (catA (insAsts p.ins ++ p.first.map (factorAst p.ins))).toRe.Match U g pre x post l ↔ Sequence U p.ins p.first x ∧ l = [] := by
    intro x pre l
    rw [toRe_catA]
    cases p.ins with
    | false => exact match_branchOf false p.first g pre x post l
    | true =>
      show (catL (.empty :: ((p.first.map (factorAst true)).map Ast.toRe))).Match U g pre x post l ↔ _
      rw [match_catL_cons]
      simp only [match_branchOf, Re.Match]
      constructor
      · rintro ⟨y, z, k, m, rfl, rfl, ⟨rfl, rfl⟩, h, rfl⟩
        exact ⟨h, rfl⟩
      · rintro ⟨h, rfl⟩
        exact ⟨[], x, [], [], rfl, rfl, ⟨rfl, rfl⟩, h, rfl⟩
  rw [patternAst, toRe_altA, match_altL _ (by simp [branchAsts']) (by
    intro r hr
    simp only [List.map_map, List.mem_map, Function.comp_apply] at hr
    obtain ⟨as, has, rfl⟩ := hr
    exact groups_branchOf has)]
  simp only [branchAsts', List.map_cons, List.map_map, List.mem_cons, List.mem_map, Function.comp_apply, Pattern.Takes]
  constructor
  · rintro ⟨r, rfl | ⟨b, hb, rfl⟩, hr⟩
    · obtain ⟨h1, h2⟩ := (h0 _ _ _).1 hr
      exact ⟨⟨_, .inl rfl, h1⟩, h2⟩
    · rw [toRe_catA] at hr
      obtain ⟨h1, h2⟩ := (match_branchOf _ b g pre x post l).1 hr
      exact ⟨⟨b, .inr hb, h1⟩, h2⟩
  · rintro ⟨⟨b, rfl | hb, h1⟩, rfl⟩
    · exact ⟨_, .inl rfl, (h0 _ _ _).2 ⟨h1, rfl⟩⟩
    · refine ⟨_, .inr ⟨b, hb, rfl⟩, ?_⟩
      rw [toRe_catA]
      exact (match_branchOf _ b g pre x post []).2 ⟨h1, rfl⟩

theorem pattern_param (T : Tables) {pars : Provider} {F : Parameter → Option Pattern} {p : Parameter} (h : HasPattern pars F p) :
    RegularParam pars p ∧ Unrepeated pars p ∧ customMatch T pars p = patternMatch T.classes F p ∧
      customGroups pars p = patternGroups F p := by
  unfold HasPattern at h
  unfold RegularParam Unrepeated customMatch patternMatch customGroups patternGroups
  cases hF : F p with
  | none =>
    rw [hF] at h
    simp only [h.1]
    exact ⟨h.2, (by intro v a h; exact nomatch h), trivial, trivial⟩
  | some f =>
    rw [hF] at h
    have hp := parse_patternOf h.2
    have ho : (patternAst f).outerGroup = false := outer_groupless (groups_pattern f)
    have hm : (patternAst f).marked = [] := by
      have := marked_groups (patternAst f)
      rw [groups_pattern] at this
      exact List.eq_nil_of_length_eq_zero this
    simp only [h.1]
    refine ⟨⟨_, hp, fun hg => absurd (groups_pattern f) hg⟩, ?_, ?_, ?_⟩
    · intro v a hv ha
      cases hv
      rw [hp] at ha
      cases ha
      simp [hm]
    · funext g pre x post l
      refine propext ?_
      constructor
      · rintro ⟨a, ha, hm⟩
        rw [hp] at ha
        cases ha
        rw [ho, if_neg (by simp)] at hm
        obtain ⟨k, hk, rfl⟩ := hm
        obtain ⟨h1, rfl⟩ := (match_pattern f _ _ _ _ _).1 hk
        exact ⟨h1, rfl⟩
      · rintro ⟨h1, rfl⟩
        refine ⟨_, hp, ?_⟩
        rw [ho, if_neg (by simp)]
        exact ⟨[], (match_pattern f _ _ _ _ _).2 ⟨h1, rfl⟩, rfl⟩
    · simp only [hp, ho, groups_pattern, Bool.false_eq_true, if_false]; rfl

/-- C76: in custom regexes, single characters, escapes, classes, repetitions, branches and `(?i)` mean what they should
(`Pattern.Takes`): such a parameter matches and captures exactly these texts, whatever is around it. -/
theorem C76_pieces (T : Tables) (pars : Provider) (F : Parameter → Option Pattern) (src : List Char) (e : Expression)
    (h : Expression.parse src = .ok e) (hF : ∀ p ∈ params e, HasPattern pars F p) :
    ∃ c, Expression.regexWithParameters (hirOf T) pars src = .ok c ∧
      ∀ (w pre x post : List Char) (l : List Cap), c.re.Finds T.classes w pre x post l ↔
        pre = [] ∧ post = [] ∧ x = w ∧ SplitsWith (patternMatch T.classes F) (patternGroups F) e 1 [] w [] l := by
  have hk := fun p hp => pattern_param T (hF p hp)
  obtain ⟨c, counts, h1, -, -, h2⟩ := C57_attribution_partial T pars src e h (fun p hp => (hk p hp).1) fun p hp => (hk p hp).2.1
  refine ⟨c, h1, fun w pre x post l => (h2 w pre x post l).trans ?_⟩
  have hc : ∀ p ∈ params e, customMatch T pars p = patternMatch T.classes F p ∧ customGroups pars p = patternGroups F p :=
    fun p hp => (hk p hp).2.2
  constructor
  · rintro ⟨rfl, rfl, rfl, hs⟩
    exact ⟨rfl, rfl, rfl, splitsWith_congr hc hs⟩
  · rintro ⟨rfl, rfl, rfl, hs⟩
    exact ⟨rfl, rfl, rfl, splitsWith_congr (fun p hp => ⟨(hc p hp).1.symm, (hc p hp).2.symm⟩) hs⟩

/-! ## Examples -/

/-- `\x{41}[[:lower:]&&[^aeiou]]+?|\t{2,3}` -/
def examplePattern : Pattern :=
  ⟨false, [⟨.one (.hex (.braces 'x') ['4', '1'] 65), none⟩,
    ⟨.set false (.item (.named false .lower) (.op .inter (.sub true (.item (.one (.plain 'a')) (.item (.one (.plain 'e'))
      (.item (.one (.plain 'i')) (.item (.one (.plain 'o')) (.item (.one (.plain 'u')) .nil))))) .nil))), some (.some, true)⟩],
    [[⟨.one (.control .tab), some (.between 2 3, false)⟩]]⟩

theorem examplePattern_value : examplePattern.value = chars! "\\x{41}[[:lower:]&&[^aeiou]]+?|\\t{2,3}" := by decide

theorem examplePattern_valid : examplePattern.Valid := by
  have h : HexValue ['4', '1'] 65 := .snoc ['4'] 4 '1' 1 (.snoc [] 0 '4' 4 .nil (by decide)) (by decide)
  have hx : ∀ c ∈ ['a', 'e', 'i', 'o', 'u'], c ∉ specialInside := by decide
  intro b hb f hf
  rcases List.mem_cons.1 hb with rfl | hb
  · rcases List.mem_cons.1 hf with rfl | hf
    · exact ⟨⟨h, by decide, by decide, by decide⟩, nofun⟩
    · cases List.mem_singleton.1 hf
      refine ⟨⟨trivial, ⟨trivial, trivial, ⟨hx 'a' (by decide), hx 'e' (by decide), hx 'i' (by decide), hx 'o' (by decide), hx 'u' (by decide), trivial⟩, trivial⟩⟩, ?_⟩
      intro q l hq; cases hq; trivial
  · cases List.mem_singleton.1 hb
    cases List.mem_singleton.1 hf
    exact ⟨trivial, by intro q l hq; cases hq; show 2 ≤ 3; decide⟩

/-- Non-vacuity: the hypotheses hold, and what is found is as expected. -/
example : ∃ e c hir, Expression.parse (chars! "a {p} {int}") = .ok e ∧
    (∀ p ∈ params e, HasPattern (hashMapProvider [(['p'], examplePattern.value)]) (fun p => if p.id = 0 then some examplePattern else none) p) ∧
    Expression.regexWithParameters (hirOf asciiTables) (hashMapProvider [(['p'], examplePattern.value)]) (chars! "a {p} {int}") = .ok c ∧
    hirOf asciiTables c.pattern = some hir ∧
    hir.find (chars! "a Axyz 12") = some (0, chars! "a Axyz 12", [⟨1, 2, chars! "Axyz"⟩, ⟨2, 7, chars! "12"⟩]) ∧
    hir.find (chars! "a \t\t 5") = some (0, chars! "a \t\t 5", [⟨1, 2, chars! "\t\t"⟩, ⟨2, 5, chars! "5"⟩]) ∧
    hir.find (chars! "a Axaz 12") = none ∧ hir.find (chars! "a axyz 12") = none := by
  have two : ∀ p ∈ params [.text ⟨0, 1, ['a']⟩, .whitespaces ⟨1, 1, [' ']⟩, .parameter ⟨⟨3, 1, ['p']⟩, 0⟩, .whitespaces ⟨5, 1, [' ']⟩,
      .parameter ⟨⟨7, 1, ['i', 'n', 't']⟩, 1⟩], p = ⟨⟨3, 1, ['p']⟩, 0⟩ ∨ p = ⟨⟨7, 1, ['i', 'n', 't']⟩, 1⟩ := by decide
  refine ⟨_, _, _, rfl, ?_, rfl, rfl, by decide +kernel, by decide +kernel, by decide +kernel, by decide +kernel⟩
  intro p hp
  rcases two p hp with rfl | rfl
  · exact ⟨rfl, examplePattern_valid⟩
  · exact ⟨rfl, .int, rfl⟩

/-- Under `(?i)`, classes are widened before they are negated or combined. -/
example : ∃ c hir, Expression.regexWithParameters (hirOf asciiTables)
      (hashMapProvider [(['p'], (Pattern.mk true [⟨.set true (.item (.named true .lower) .nil), some (.some, false)⟩] []).value)]) (chars! "{p}") = .ok c ∧
    hirOf asciiTables c.pattern = some hir ∧ hir.find (chars! "bB") = some (0, chars! "bB", [⟨1, 0, chars! "bB"⟩]) ∧ hir.find (chars! "1") = none :=
  ⟨_, _, rfl, rfl, by decide +kernel, by decide +kernel⟩

/-- `\p{Lu}[\pN_]*\PN` -/
def exampleCategories : Pattern :=
  ⟨false, [⟨.category false true ⟨'L', some 'u'⟩, none⟩, ⟨.set false (.item (.category false false ⟨'N', none⟩) (.item (.one (.plain '_')) .nil)), some (.any, false)⟩,
    ⟨.category true false ⟨'N', none⟩, none⟩], []⟩

/-- Non-vacuity: general categories. -/
example : exampleCategories.value = chars! "\\p{Lu}[\\pN_]*\\PN" ∧ exampleCategories.Valid ∧
    ∃ c hir, Expression.regexWithParameters (hirOf asciiTables) (hashMapProvider [(['p'], exampleCategories.value)]) (chars! "a {p}") = .ok c ∧
    hirOf asciiTables c.pattern = some hir ∧ hir.find (chars! "a X12_b") = some (0, chars! "a X12_b", [⟨1, 2, chars! "X12_b"⟩]) ∧
    hir.find (chars! "a x12_b") = none ∧ hir.find (chars! "a X12_3") = none := by
  refine ⟨by decide, ?_, _, _, rfl, rfl, by decide +kernel, by decide +kernel, by decide +kernel⟩
  intro b hb f hf
  cases List.mem_singleton.1 hb
  simp only [exampleCategories, List.mem_cons, List.not_mem_nil, or_false] at hf
  have hN : (⟨'N', none⟩ : Category).Valid false := ⟨⟨_, .tail _ (.tail _ (.head _)), nofun⟩, fun _ => rfl⟩
  rcases hf with rfl | rfl | rfl
  · exact ⟨⟨⟨_, .head _, by rintro m h; cases h; decide⟩, nofun⟩, nofun⟩
  · exact ⟨⟨trivial, hN, (by decide : '_' ∉ specialInside), trivial⟩, by intro q l hq; cases hq; trivial⟩
  · exact ⟨hN, nofun⟩

/-- `[a&&b]` matches nothing, `[^a&&b]` every character. -/
example : ∃ c hir c' hir', Expression.regexWithParameters (hirOf asciiTables) (hashMapProvider [(['p'], chars! "[a&&b]")]) (chars! "x{p}") = .ok c ∧
    hirOf asciiTables c.pattern = some hir ∧ (hir.find (chars! "xa")).isSome = false ∧ (hir.find (chars! "xb")).isSome = false ∧
    Expression.regexWithParameters (hirOf asciiTables) (hashMapProvider [(['p'], chars! "[^a&&b]")]) (chars! "x{p}") = .ok c' ∧
    hirOf asciiTables c'.pattern = some hir' ∧ (hir'.find (chars! "xa")).isSome = true ∧ (hir'.find (chars! "x")).isSome = false :=
  ⟨_, _, _, _, rfl, rfl, by decide +kernel, by decide +kernel, rfl, rfl, by decide +kernel, by decide +kernel⟩

/-- Under `(?i)`, categories are widened before they are negated, whether in brackets or not. -/
example : ∃ c hir, Expression.regexWithParameters (hirOf asciiTables)
      (hashMapProvider [(['p'], chars! "(?i)\\p{Lu}"), (['q'], chars! "(?i)\\P{Lu}"), (['r'], chars! "(?i)[\\P{Lu}]")]) (chars! "{p}{q}{r}") = .ok c ∧
    hirOf asciiTables c.pattern = some hir ∧ (hir.find (chars! "b11")).isSome = true ∧ hir.find (chars! "bb1") = none ∧ hir.find (chars! "b1b") = none :=
  ⟨_, _, rfl, rfl, by decide +kernel, by decide +kernel, by decide +kernel⟩

end CE
