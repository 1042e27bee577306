import Verif.Prop.Accept
import Verif.Prop.Shift
import Verif.Prop.Expand
import Verif.Spec.Custom
import Verif.Spec.Algebra

/-! # The language of plain trees -/

namespace CE
open Spec Regex

/-- The meaning of parameters: what they match and how many groups they have. -/
structure Types where
  mat : List Char → Nat → Matches
  count : List Char → Nat

variable (T : Types)

def Spec.Piece.Lang : Spec.Piece → List Char → Prop
  | .text t, x => x = unescape t
  | .opt t, x => x = [] ∨ x = unescape t

def piecesLang : List Spec.Piece → List Char → Prop
  | [], x => x = []
  | a :: as, x => ∃ y z, x = y ++ z ∧ a.Lang y ∧ piecesLang as z

def Spec.Elem.groupCount : Elem → Nat
  | .param n => T.count n
  | _ => 0

def Spec.Elem.Piece : Elem → Nat → Matches
  | .text t, _, _, x, _, l => x = unescape t ∧ l = []
  | .ws t, _, _, x, _, l => x = t ∧ l = []
  | .opt t, _, _, x, _, l => (x = [] ∨ x = unescape t) ∧ l = []
  | .alt a, _, _, x, _, l => (∃ b ∈ a, piecesLang b x) ∧ l = []
  | .param n, g, pre, x, post, l => T.mat n g pre x post l

def groupsOf (es : List Elem) : Nat := (es.map (Elem.groupCount T)).sum

/-- `SplitsWith` on plain trees. -/
def eSplits : List Elem → Nat → Matches
  | [], _, _, w, _, l => w = [] ∧ l = []
  | e :: es, g, p, w, q, l => ∃ x y k m, w = x ++ y ∧ l = k ++ m ∧ e.Piece T g p x (y ++ q) k ∧
      eSplits es (g + e.groupCount T) (p ++ x) y q m

/-- The names of the parameters. -/
def namesOf (es : List Elem) : List (List Char) := es.filterMap fun
  | .param n => some n
  | _ => none

theorem namesOf_append (a b : List Elem) : namesOf (a ++ b) = namesOf a ++ namesOf b := by simp [namesOf]

theorem mem_namesOf {es : List Elem} {n : List Char} : n ∈ namesOf es ↔ Elem.param n ∈ es := by
  unfold namesOf
  rw [List.mem_filterMap]
  constructor
  · rintro ⟨e, he, h⟩
    cases e <;> simp at h
    exact h ▸ he
  · intro h; exact ⟨_, h, rfl⟩

theorem branchLang_erase (b : SingleAlternation) (x : List Char) : BranchLang b x ↔ piecesLang (b.map erasePiece) x := by
  induction b generalizing x with
  | nil => rfl
  | cons a b ih =>
    simp only [BranchLang, List.map_cons, piecesLang, ih]
    cases a <;> rfl

theorem piece_erase (e : SingleExpression) (g : Nat) (p x q : List Char) (l : List Cap) :
    e.PieceWith (fun p => T.mat p.input.frag) g p x q l ↔ (eraseSingle e).Piece T g p x q l := by
  cases e with
  | alternation a =>
    simp only [SingleExpression.PieceWith, eraseSingle, Elem.Piece, List.mem_map, branchLang_erase]
    constructor
    · rintro ⟨⟨b, h1, h2⟩, h3⟩; exact ⟨⟨_, ⟨b, h1, rfl⟩, h2⟩, h3⟩
    · rintro ⟨⟨_, ⟨b, h1, rfl⟩, h2⟩, h3⟩; exact ⟨⟨b, h1, h2⟩, h3⟩
  | _ => rfl

theorem groupCount_erase (e : SingleExpression) :
    e.groupCountWith (fun p => T.count p.input.frag) = (eraseSingle e).groupCount T := by cases e <;> rfl

theorem splits_erase (e : Expression) (g : Nat) (p w q : List Char) (l : List Cap) :
    SplitsWith (fun p => T.mat p.input.frag) (fun p => T.count p.input.frag) e g p w q l ↔ eSplits T (erase e) g p w q l := by
  induction e generalizing g p w l with
  | nil =>
    constructor
    · intro h; cases h; exact ⟨rfl, rfl⟩
    · rintro ⟨rfl, rfl⟩; exact .nil ..
  | cons e es ih =>
    constructor
    · intro h
      cases h with
      | cons _ _ _ _ x y _ k m h1 h2 =>
        exact ⟨x, y, k, m, rfl, rfl, (piece_erase ..).1 h1, groupCount_erase T e ▸ (ih ..).1 h2⟩
    · rintro ⟨x, y, k, m, rfl, rfl, h1, h2⟩
      exact .cons _ _ _ _ _ _ _ _ _ ((piece_erase ..).2 h1) ((ih ..).2 (groupCount_erase T e ▸ h2))

theorem eSplits_append (a b : List Elem) (g : Nat) (p w q : List Char) (l : List Cap) :
    eSplits T (a ++ b) g p w q l ↔ ∃ u v k m, w = u ++ v ∧ l = k ++ m ∧ eSplits T a g p u (v ++ q) k ∧
      eSplits T b (g + groupsOf T a) (p ++ u) v q m := by
  induction a generalizing g p w l with
  | nil =>
    simp only [List.nil_append, eSplits, groupsOf, List.map_nil, List.sum_nil, Nat.add_zero]
    constructor
    · intro h; exact ⟨[], w, [], l, rfl, rfl, ⟨rfl, rfl⟩, by simpa using h⟩
    · rintro ⟨u, v, k, m, rfl, rfl, ⟨rfl, rfl⟩, h⟩; simpa using h
  | cons e a ih =>
    simp only [List.cons_append, eSplits]
    constructor
    · rintro ⟨x, y, k, m, rfl, rfl, h1, h2⟩
      obtain ⟨u, v, k', m', rfl, rfl, h3, h4⟩ := (ih ..).1 h2
      refine ⟨x ++ u, v, k ++ k', m', by simp, by simp, ⟨x, u, k, k', rfl, rfl, by simpa using h1, h3⟩, ?_⟩
      simpa [groupsOf, Nat.add_assoc] using h4
    · rintro ⟨u, v, k, m, rfl, rfl, ⟨x, y, k', m', rfl, rfl, h1, h2⟩, h3⟩
      refine ⟨x, y ++ v, k', m' ++ m, by simp, by simp, by simpa using h1, (ih ..).2 ⟨y, v, m', m, rfl, rfl, h2, ?_⟩⟩
      simpa [groupsOf, Nat.add_assoc] using h3

/-- What is matched does not depend on what is around, except for the numbers of groups and positions. -/
def ContextFree (M : Nat → Matches) : Prop := ∀ g i (p0 p x q q0 : List Char) (l : List Cap),
  M (g + i) (p0 ++ p) x (q ++ q0) l ↔ ∃ k, M g p x q k ∧ l = k.map (Cap.shift i p0.length)

theorem elemPiece_context (e : Elem) (he : ∀ n, e = .param n → ContextFree (T.mat n)) : ContextFree (e.Piece T) := by
  cases e with
  | param n => exact he n rfl
  | _ =>
    intro g i p0 p x q q0 l
    simp only [Elem.Piece]
    constructor
    · rintro ⟨h, rfl⟩; exact ⟨[], ⟨h, rfl⟩, rfl⟩
    · rintro ⟨k, ⟨h, rfl⟩, rfl⟩; exact ⟨h, rfl⟩

theorem eSplits_context (es : List Elem) (hes : ∀ n, .param n ∈ es → ContextFree (T.mat n)) : ContextFree (eSplits T es) := by
  induction es with
  | nil =>
    intro g i p0 p x q q0 l
    constructor
    · rintro ⟨rfl, rfl⟩; exact ⟨[], ⟨rfl, rfl⟩, rfl⟩
    · rintro ⟨k, ⟨rfl, rfl⟩, rfl⟩; exact ⟨rfl, rfl⟩
  | cons e es ih =>
    intro g i p0 p w q q0 l
    have ih := ih fun n hn => hes n (by simp [hn])
    have he := elemPiece_context T e fun n hn => hes n (by simp [hn])
    constructor
    · rintro ⟨x, y, k, m, rfl, rfl, h1, h2⟩
      rw [show g + i + e.groupCount T = g + e.groupCount T + i by omega, List.append_assoc, ih] at h2
      obtain ⟨m', h2, rfl⟩ := h2
      rw [← List.append_assoc, he] at h1
      obtain ⟨k', h1', rfl⟩ := h1
      exact ⟨k' ++ m', ⟨x, y, k', m', rfl, rfl, h1', h2⟩, by simp⟩
    · rintro ⟨n, ⟨x, y, k, m, rfl, rfl, h1, h2⟩, rfl⟩
      refine ⟨x, y, k.map (Cap.shift i p0.length), m.map (Cap.shift i p0.length), rfl, by simp, ?_, ?_⟩
      · rw [← List.append_assoc, he]; exact ⟨k, h1, rfl⟩
      · rw [show g + i + e.groupCount T = g + e.groupCount T + i by omega, List.append_assoc, ih]
        exact ⟨m, h2, rfl⟩

/-- The two trees match the same. -/
def SameLang (a b : List Elem) : Prop := ∀ T : Types, groupsOf T a = groupsOf T b ∧
  ∀ (g : Nat) (p w q : List Char) (l : List Cap), eSplits T a g p w q l ↔ eSplits T b g p w q l

theorem SameLang.refl (a : List Elem) : SameLang a a := fun _ => ⟨rfl, fun _ _ _ _ _ => .rfl⟩
theorem SameLang.symm {a b : List Elem} (h : SameLang a b) : SameLang b a :=
  fun T => ⟨(h T).1.symm, fun g p w q l => ((h T).2 g p w q l).symm⟩
theorem SameLang.trans {a b c : List Elem} (h : SameLang a b) (h' : SameLang b c) : SameLang a c :=
  fun T => ⟨(h T).1.trans (h' T).1, fun g p w q l => ((h T).2 g p w q l).trans ((h' T).2 g p w q l)⟩

theorem groupsOf_append (a b : List Elem) : groupsOf T (a ++ b) = groupsOf T a + groupsOf T b := by simp [groupsOf]

theorem SameLang.append {a b c d : List Elem} (h : SameLang a b) (h' : SameLang c d) : SameLang (a ++ c) (b ++ d) := by
  refine fun T => ⟨by rw [groupsOf_append, groupsOf_append, (h T).1, (h' T).1], fun g p w q l => ?_⟩
  simp only [eSplits_append, (h T).1, (h T).2, (h' T).2]

theorem unescape_append {s : List Char} (hs : Escd st s) (t : List Char) : unescape (s ++ t) = unescape s ++ unescape t := by
  induction hs with
  | nil => rfl
  | char c cs h1 h2 h3 ih =>
    have : ∀ r, unescape (c :: r) = c :: unescape r := by
      intro r
      cases r <;> simp [unescape, h1]
    rw [List.cons_append, this, this, ih]; rfl
  | esc d cs h1 h2 ih => simp only [List.cons_append, unescape, ih]

theorem sameLang_text {a b : List Char} (ha : Escd st a) : SameLang [.text a, .text b] [.text (a ++ b)] := by
  refine fun T => ⟨by simp [groupsOf, Elem.groupCount], fun g p w q l => ?_⟩
  simp only [eSplits, Elem.Piece, unescape_append ha]
  constructor
  · rintro ⟨_, _, _, _, rfl, rfl, ⟨rfl, rfl⟩, _, _, _, _, rfl, rfl, ⟨rfl, rfl⟩, rfl, rfl⟩
    exact ⟨_, [], [], [], by simp, by simp, ⟨rfl, rfl⟩, rfl, rfl⟩
  · rintro ⟨_, _, _, _, rfl, rfl, ⟨rfl, rfl⟩, rfl, rfl⟩
    exact ⟨_, unescape b, [], [], by simp, by simp, ⟨rfl, rfl⟩, _, [], [], [], by simp, by simp, ⟨rfl, rfl⟩, rfl, rfl⟩

theorem sameLang_ws {a b : List Char} : SameLang [.ws a, .ws b] [.ws (a ++ b)] := by
  refine fun T => ⟨by simp [groupsOf, Elem.groupCount], fun g p w q l => ?_⟩
  simp only [eSplits, Elem.Piece]
  constructor
  · rintro ⟨_, _, _, _, rfl, rfl, ⟨rfl, rfl⟩, _, _, _, _, rfl, rfl, ⟨rfl, rfl⟩, rfl, rfl⟩
    exact ⟨_, [], [], [], by simp, by simp, ⟨rfl, rfl⟩, rfl, rfl⟩
  · rintro ⟨_, _, _, _, rfl, rfl, ⟨rfl, rfl⟩, rfl, rfl⟩
    exact ⟨_, b, [], [], by simp, by simp, ⟨rfl, rfl⟩, _, [], [], [], by simp, by simp, ⟨rfl, rfl⟩, rfl, rfl⟩

def Spec.Elem.isAlt : Elem → Bool
  | .alt _ => true
  | _ => false

def Spec.Elem.kind : Elem → Nat
  | .alt _ => 0
  | .opt _ => 1
  | .param _ => 2
  | .text _ => 3
  | .ws _ => 4

/-- `Touching` on plain trees. -/
def eTouching (a b : List Elem) : Prop :=
  ∃ x y, a.getLast? = some x ∧ b.head? = some y ∧ Elem.Bad x y ∧ (x.isAlt = true ∨ y.isAlt = true)

theorem canonical_of_append {a b : List Elem} (h : Canonical (a ++ b)) : Canonical a ∧ Canonical b := by
  constructor
  · refine ⟨fun x hx => h.1 x (by simp [hx]), ?_⟩
    have := h.2
    clear h
    induction a with
    | nil => trivial
    | cons x a ih =>
      cases a with
      | nil => trivial
      | cons y a => exact ⟨this.1, ih this.2⟩
  · induction a with
    | nil => exact h
    | cons x a ih => exact ih (canonical_tail h)

theorem bad_seam {a b : List Elem} (h : Canonical (a ++ b)) : ∀ x y, a.getLast? = some x → b.head? = some y → ¬ Elem.Bad x y := by
  intro x y hx hy
  obtain ⟨a', rfl⟩ := List.getLast?_eq_some_iff.1 hx
  obtain ⟨b', rfl⟩ := List.head?_eq_some_iff.1 hy
  have := h.2
  rw [List.append_assoc] at this
  exact noAdj_split this

/-- Two accepted texts, one directly behind the other. -/
theorem join {a b : List Elem} (ha : Canonical a) (hb : Canonical b) (ht : ¬ eTouching a b) :
    ∃ es, Canonical es ∧ render es = render a ++ render b ∧ SameLang es (a ++ b) ∧
      namesOf es = namesOf (a ++ b) ∧ es.head?.map Elem.isAlt = (a ++ b).head?.map Elem.isAlt ∧
      es.head?.map Elem.kind = (a ++ b).head?.map Elem.kind := by
  cases hx : a.getLast? with
  | none => rw [List.getLast?_eq_none_iff] at hx; subst hx; exact ⟨b, hb, by simp [render], .refl _, by simp, by simp, by simp⟩
  | some x =>
    cases hy : b.head? with
    | none => rw [List.head?_eq_none_iff] at hy; subst hy; exact ⟨a, ha, by simp [render], by simpa using .refl _, by simp, by simp, by simp⟩
    | some y =>
      by_cases hbad : Elem.Bad x y
      · obtain ⟨a', rfl⟩ := List.getLast?_eq_some_iff.1 hx
        obtain ⟨b', rfl⟩ := List.head?_eq_some_iff.1 hy
        have hvx := ha.1 x (by simp)
        have hvy := hb.1 y (by simp)
        have key : ∀ z : Elem, z.Valid → z.render = x.render ++ y.render → SameLang [x, y] [z] →
            (∀ u, Elem.Bad u z → Elem.Bad u x) → (∀ u, Elem.Bad z u → Elem.Bad y u) → namesOf [z] = namesOf [x, y] →
            (z.isAlt = x.isAlt) → z.kind = x.kind →
            ∃ es, Canonical es ∧ render es = render (a' ++ [x]) ++ render (y :: b') ∧ SameLang es ((a' ++ [x]) ++ y :: b') ∧
              namesOf es = namesOf ((a' ++ [x]) ++ y :: b') ∧
              es.head?.map Elem.isAlt = ((a' ++ [x]) ++ y :: b').head?.map Elem.isAlt ∧
              es.head?.map Elem.kind = ((a' ++ [x]) ++ y :: b').head?.map Elem.kind := by
          intro z hz hr hs h1 h2 h3 h4 h5
          refine ⟨a' ++ (z :: b'), canonical_append (canonical_of_append ha).1 (canonical_replace hz hb h2) ?_, ?_, ?_, ?_, ?_, ?_⟩
          · intro u v hu hv
            simp at hv
            subst hv
            exact fun hb' => bad_seam ha u x hu rfl (h1 u hb')
          · simp [hr, render]
          · have := (SameLang.refl a').append (hs.symm.append (.refl b'))
            simpa using this
          · have hz : namesOf [z] = namesOf [x] ++ namesOf [y] := by rw [← namesOf_append]; exact h3
            rw [show a' ++ z :: b' = a' ++ ([z] ++ b') by simp, show a' ++ [x] ++ y :: b' = a' ++ ([x] ++ ([y] ++ b')) by simp]
            simp only [namesOf_append, hz, List.append_assoc]
          · cases a' with
            | nil => simp [h4]
            | cons u a' => simp
          · cases a' with
            | nil => simp [h5]
            | cons u a' => simp
        cases x <;> cases y <;> simp only [Elem.Bad] at hbad
        · exact absurd ⟨_, _, hx, hy, trivial, .inl rfl⟩ ht
        · exact absurd ⟨_, _, hx, hy, trivial, .inl rfl⟩ ht
        · exact absurd ⟨_, _, hx, hy, trivial, .inl rfl⟩ ht
        · exact absurd ⟨_, _, hx, hy, trivial, .inr rfl⟩ ht
        · exact absurd ⟨_, _, hx, hy, trivial, .inr rfl⟩ ht
        · rename_i s t
          refine key (.text (s ++ t)) ⟨by simp [hvx.1], escd_append hvx.2 hvy.2⟩ rfl (sameLang_text hvx.2) ?_ ?_ rfl rfl rfl <;>
            (intro u hu; cases u <;> simp_all [Elem.Bad])
        · rename_i s t
          refine key (.ws (s ++ t)) ⟨by simp [hvx.1], ?_⟩ rfl sameLang_ws ?_ ?_ rfl rfl rfl
          · intro c hc
            rcases List.mem_append.1 hc with hc | hc
            · exact hvx.2 c hc
            · exact hvy.2 c hc
          all_goals (intro u hu; cases u <;> simp_all [Elem.Bad])
      · refine ⟨a ++ b, canonical_append ha hb fun u v hu hv => ?_, render_append .., .refl _, by simp, by simp, by simp⟩
        rw [hx] at hu; rw [hy] at hv
        cases hu; cases hv
        exact hbad

theorem touching_erase {x y : Expression} : eTouching (erase x) (erase y) → Touching x y := by
  rintro ⟨u, v, hu, hv, h1, h2⟩
  rw [erase, List.getLast?_map, Option.map_eq_some_iff] at hu
  rw [erase, List.head?_map, Option.map_eq_some_iff] at hv
  obtain ⟨a, ha, rfl⟩ := hu
  obtain ⟨b, hb, rfl⟩ := hv
  refine ⟨a, b, ha, hb, ?_⟩
  cases a <;> cases b <;>
    simp_all [eraseSingle, Elem.Bad, Elem.isAlt, SingleExpression.isBranchLike, SingleExpression.isAlternation]

/-! ## Pieces of a branch -/

theorem consPiece_lang {q : Spec.Piece} (hq : q.Valid) {b : List Spec.Piece} (hb : ValidPieces b) :
    ∃ b', ValidPieces b' ∧ renderPieces b' = renderPieces (q :: b) ∧ b'.any Piece.isText = (q :: b).any Piece.isText ∧
      ∀ x, piecesLang b' x ↔ piecesLang (q :: b) x := by
  have plain : (∀ p, b.head? = some p → ¬ Piece.Bad q p) → ∃ b', ValidPieces b' ∧ renderPieces b' = renderPieces (q :: b) ∧
      b'.any Piece.isText = (q :: b).any Piece.isText ∧ ∀ x, piecesLang b' x ↔ piecesLang (q :: b) x := by
    intro h
    refine ⟨q :: b, ⟨?_, ?_⟩, rfl, rfl, fun _ => .rfl⟩
    · intro p hp
      rcases List.mem_cons.1 hp with rfl | hp
      · exact hq
      · exact hb.1 p hp
    · cases b with
      | nil => trivial
      | cons p b => exact ⟨h p rfl, hb.2⟩
  cases b with
  | nil => exact plain (by simp)
  | cons p b =>
    cases q with
    | opt t => exact plain fun p' _ hbad => by simp [Piece.Bad, Piece.isText] at hbad
    | text t =>
      cases p with
      | opt t' => exact plain fun p' hp hbad => by simp at hp; subst hp; simp [Piece.Bad, Piece.isText] at hbad
      | text t' =>
        have hv := hb.1 (.text t') (by simp)
        refine ⟨.text (t ++ t') :: b, ⟨?_, ?_⟩, ?_, ?_, fun x => ?_⟩
        · intro p hp
          rcases List.mem_cons.1 hp with rfl | hp
          · exact ⟨by simp [hq.1], escd_append hq.2 hv.2⟩
          · exact hb.1 p (by simp [hp])
        · cases b with
          | nil => trivial
          | cons p b => exact ⟨hb.2.1, hb.2.2⟩
        · simp [renderPieces, Piece.render]
        · simp [Piece.isText]
        · simp only [piecesLang, Piece.Lang, unescape_append hq.2]
          constructor
          · rintro ⟨_, z, rfl, rfl, h⟩; exact ⟨_, _, by simp, rfl, _, z, rfl, rfl, h⟩
          · rintro ⟨_, _, rfl, rfl, _, z, rfl, rfl, h⟩; exact ⟨_, z, by simp, rfl, h⟩

/-- Valid pieces in any arrangement. -/
theorem normPieces (b : List Spec.Piece) (hb : ∀ p ∈ b, p.Valid) :
    ∃ b', ValidPieces b' ∧ renderPieces b' = renderPieces b ∧ b'.any Piece.isText = b.any Piece.isText ∧
      ∀ x, piecesLang b' x ↔ piecesLang b x := by
  induction b with
  | nil => exact ⟨[], ⟨by simp, trivial⟩, rfl, rfl, fun _ => .rfl⟩
  | cons q b ih =>
    obtain ⟨b1, h1, h2, h3, h4⟩ := ih (fun p hp => hb p (by simp [hp]))
    obtain ⟨b2, h5, h6, h7, h8⟩ := consPiece_lang (hb q (by simp)) h1
    refine ⟨b2, h5, ?_, ?_, fun x => ?_⟩
    · rw [h6, renderPieces_cons, h2, renderPieces_cons]
    · rw [h7, List.any_cons, h3, List.any_cons]
    · simp only [h8, piecesLang, h4]

theorem piecesLang_append (a b : List Spec.Piece) (x : List Char) :
    piecesLang (a ++ b) x ↔ ∃ y z, x = y ++ z ∧ piecesLang a y ∧ piecesLang b z := by
  induction a generalizing x with
  | nil =>
    simp only [List.nil_append, piecesLang]
    exact ⟨fun h => ⟨[], x, rfl, rfl, h⟩, by rintro ⟨_, z, rfl, rfl, h⟩; exact h⟩
  | cons q a ih =>
    simp only [List.cons_append, piecesLang, ih]
    constructor
    · rintro ⟨y, _, rfl, h1, z, v, rfl, h2, h3⟩; exact ⟨y ++ z, v, by simp, ⟨y, z, rfl, h1, h2⟩, h3⟩
    · rintro ⟨_, v, rfl, ⟨y, z, rfl, h1, h2⟩, h3⟩; exact ⟨y, z ++ v, by simp, h1, z, v, rfl, h2, h3⟩

/-- A branch as a sequence of elements matches the same. -/
theorem eSplits_pieces (b : List Spec.Piece) (g : Nat) (p w q : List Char) (l : List Cap) :
    eSplits T (b.map Piece.toElem) g p w q l ↔ piecesLang b w ∧ l = [] := by
  induction b generalizing g p w l with
  | nil => rfl
  | cons c b ih =>
    simp only [List.map_cons, eSplits, ih, piecesLang]
    constructor
    · rintro ⟨x, y, k, _, rfl, rfl, h1, h2, rfl⟩
      cases c with
      | text t => exact ⟨⟨x, y, rfl, h1.1, h2⟩, by simp [h1.2]⟩
      | opt t => exact ⟨⟨x, y, rfl, h1.1, h2⟩, by simp [h1.2]⟩
    · rintro ⟨⟨x, y, rfl, h1, h2⟩, rfl⟩
      refine ⟨x, y, [], [], rfl, rfl, ?_, h2, rfl⟩
      cases c <;> exact ⟨h1, rfl⟩

theorem groupsOf_pieces (b : List Spec.Piece) : groupsOf T (b.map Piece.toElem) = 0 := by
  induction b with
  | nil => rfl
  | cons q b ih => cases q <;> simpa [groupsOf, Piece.toElem, Elem.groupCount] using ih

theorem canonical_pieces {b : List Spec.Piece} (hb : ValidPieces b) : Canonical (b.map Piece.toElem) := by
  refine ⟨?_, ?_⟩
  · intro e he
    obtain ⟨q, hq, rfl⟩ := List.mem_map.1 he
    have := hb.1 q hq
    cases q <;> exact this
  · have := hb.2
    clear hb
    induction b with
    | nil => trivial
    | cons q b ih =>
      cases b with
      | nil => trivial
      | cons q' b =>
        refine ⟨?_, ih this.2⟩
        have h1 := this.1
        cases q <;> cases q' <;> simp [Piece.toElem, Elem.Bad]
        exact h1 ⟨rfl, rfl⟩

theorem render_pieces (b : List Spec.Piece) : render (b.map Piece.toElem) = renderPieces b := by
  simp only [render, renderPieces, List.map_map]
  congr 1
  exact List.map_congr_left fun q _ => toElem_render q

/-! ## The text of an optional as an expression of its own -/

theorem Spec.Escd.mono {s t : List Char} (h : ∀ c, c ∈ t → c ∈ s) {x : List Char} (hx : Escd s x) : Escd t x := by
  induction hx with
  | nil => exact .nil
  | char c cs h1 h2 _ ih => exact .char c cs h1 (fun hc => h2 (h c hc)) ih
  | esc d cs h1 _ ih => exact .esc d cs h1 ih

/-- Only text and whitespace. -/
def textual : Elem → Bool
  | .text _ => true
  | .ws _ => true
  | _ => false

theorem textual_touching {a b : List Elem} (hb : b.all textual = true) (ha : ∀ x, a.getLast? = some x → x.isAlt = false) :
    ¬ eTouching a b := by
  rintro ⟨x, y, hx, hy, h1, h2 | h2⟩
  · rw [ha x hx] at h2; cases h2
  · have : textual y = true := List.all_eq_true.1 hb y (List.mem_of_mem_head? hy)
    cases y <;> simp [textual, Elem.isAlt] at *

theorem textual_touching' {a b : List Elem} (ha : a.all textual = true) (hb : ∀ x, b.head? = some x → x.isAlt = false) :
    ¬ eTouching a b := by
  rintro ⟨x, y, hx, hy, h1, h2 | h2⟩
  · have : textual x = true := List.all_eq_true.1 ha x (List.mem_of_mem_getLast? hx)
    cases x <;> simp [textual, Elem.isAlt] at *
  · rw [hb y hy] at h2; cases h2

/-- The text inside an optional, written without the parentheses. -/
theorem textual_of_opt {t : List Char} (ht : Escd optStops t) : ∃ es, Canonical es ∧ render es = t ∧ es.all textual = true ∧
    ∀ T, groupsOf T es = 0 ∧ ∀ g p w q l, eSplits T es g p w q l ↔ w = unescape t ∧ l = [] := by
  have step : ∀ (s : List Char) (e : Elem) (es : List Elem) (r : List Char), e.Valid → e.render = s → textual e = true →
      (∀ r, unescape (s ++ r) = unescape s ++ unescape r) →
      (∀ T g p x q k, e.Piece T g p x q k ↔ x = unescape s ∧ k = []) →
      Canonical es → render es = r → es.all textual = true →
      (∀ T, groupsOf T es = 0 ∧ ∀ g p w q l, eSplits T es g p w q l ↔ w = unescape r ∧ l = []) →
      ∃ es, Canonical es ∧ render es = s ++ r ∧ es.all textual = true ∧
        ∀ T, groupsOf T es = 0 ∧ ∀ g p w q l, eSplits T es g p w q l ↔ w = unescape (s ++ r) ∧ l = [] := by
    intro s e es r he hr htx hu hp hc hrr hall hl
    have hge : ∀ T, e.groupCount T = 0 := by intro T; cases e <;> first | rfl | cases htx
    have hj : ∃ es', Canonical es' ∧ render es' = render [e] ++ render es ∧ SameLang es' ([e] ++ es) ∧ es'.all textual = true := by
      cases es with
      | nil => exact ⟨[e], canonical_single he, by simp [render], .refl _, by simp [htx]⟩
      | cons e' es =>
        have hte' : textual e' = true := by simp at hall; exact hall.1
        cases e <;> cases htx <;> cases e' <;> cases hte'
        · rename_i a b
          have hv := hc.1 (.text b) (by simp)
          refine ⟨.text (a ++ b) :: es, canonical_replace (e := .text b) ⟨by simp [he.1], escd_append he.2 hv.2⟩ hc ?_, ?_, ?_, ?_⟩
          · intro x hx; cases x <;> simp_all [Elem.Bad]
          · simp [render, Elem.render]
          · exact ((sameLang_text he.2).symm.append (.refl es))
          · simp at hall ⊢; exact ⟨rfl, hall.2⟩
        · exact ⟨_, canonical_cons he hc (by simp [Elem.Bad]), by simp [render], .refl _, by simp at hall ⊢; exact ⟨rfl, hall⟩⟩
        · exact ⟨_, canonical_cons he hc (by simp [Elem.Bad]), by simp [render], .refl _, by simp at hall ⊢; exact ⟨rfl, hall⟩⟩
        · rename_i a b
          have hv := hc.1 (.ws b) (by simp)
          refine ⟨.ws (a ++ b) :: es, canonical_replace (e := .ws b) ⟨by simp [he.1], ?_⟩ hc ?_, ?_, ?_, ?_⟩
          · intro c hcm
            rcases List.mem_append.1 hcm with h | h
            · exact he.2 c h
            · exact hv.2 c h
          · intro x hx; cases x <;> simp_all [Elem.Bad]
          · simp [render, Elem.render]
          · exact (sameLang_ws.symm.append (.refl es))
          · simp at hall ⊢; exact ⟨rfl, hall.2⟩
    obtain ⟨es', h1, h2, h3, h4⟩ := hj
    refine ⟨es', h1, ?_, h4, fun T => ⟨?_, fun g p w q l => ?_⟩⟩
    · rw [h2, hrr]; simp [render, hr]
    · rw [(h3 T).1, groupsOf_append, (hl T).1]; simp [groupsOf, hge]
    · rw [(h3 T).2, hu]
      simp only [List.cons_append, List.nil_append, eSplits, hp, (hl T).2]
      constructor
      · rintro ⟨_, _, _, _, rfl, rfl, ⟨rfl, rfl⟩, rfl, rfl⟩; exact ⟨rfl, rfl⟩
      · rintro ⟨rfl, rfl⟩; exact ⟨_, _, [], [], rfl, rfl, ⟨rfl, rfl⟩, rfl, rfl⟩
  induction ht with
  | nil => exact ⟨[], ⟨by simp, trivial⟩, rfl, rfl, fun _ => ⟨rfl, fun _ _ _ _ _ => .rfl⟩⟩
  | char c cs h1 h2 _ ih =>
    obtain ⟨es, i1, i2, i3, i4⟩ := ih
    have hu : ∀ r, unescape (c :: r) = c :: unescape r := by
      intro r
      cases r <;> simp [unescape, h1]
    by_cases hc : c = ' '
    · subst hc
      exact step [' '] (.ws [' ']) es cs ⟨by simp, by simp⟩ rfl rfl (fun r => by rw [List.singleton_append, hu, hu]; rfl)
        (fun T g p x q k => by rw [hu]; exact .rfl) i1 i2 i3 i4
    · refine step [c] (.text [c]) es cs ⟨by simp, .char c [] h1 ?_ .nil⟩ rfl rfl (fun r => by rw [List.singleton_append, hu, hu]; rfl)
        (fun T g p x q k => .rfl) i1 i2 i3 i4
      simp [optStops] at h2
      simp [textStops, hc, h2]
  | esc d cs h1 _ ih =>
    obtain ⟨es, i1, i2, i3, i4⟩ := ih
    exact step ['\\', d] (.text ['\\', d]) es cs ⟨by simp, .esc d [] h1 .nil⟩ rfl rfl (fun r => rfl)
      (fun T g p x q k => .rfl) i1 i2 i3 i4

end CE
