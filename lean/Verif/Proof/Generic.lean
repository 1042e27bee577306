import Verif.Spec.Generic

/-! # The generic parsers simulate those over spans -/

namespace CE
open Spec
open G (Input)

set_option linter.unusedSectionVars false

variable {I : Type} [Input I] {R : I → Span → Prop} {α β α' β' : Type} {A : α → α' → Prop} {B : β → β' → Prop}

theorem Spec.ListRel.length_eq {l : List α} {m : List α'} (h : ListRel A l m) : l.length = m.length := by
  induction h with
  | nil => rfl
  | cons _ _ ih => simp [ih]

/-- Parsers with related results on related inputs. -/
def RP (R : I → Span → Prop) (A : α → α' → Prop) (p : G.P I α) (p' : P α') : Prop :=
  ∀ i s, R i s → ResRel R A (p i) (p' s)

/-- The same for parsers with an indexer. -/
def RPS (R : I → Span → Prop) (A : α → α' → Prop) (p : G.PS I α) (p' : PS α') : Prop :=
  ∀ i s n, R i s → ResRel R A (p i n).1 (p' s n).1 ∧ (p i n).2 = (p' s n).2

theorem RP.lift {p : G.P I α} {p' : P α'} (h : RP R A p p') : RPS R A p.lift p'.lift :=
  fun i s _ hi => ⟨h i s hi, rfl⟩

theorem rel_kind {i s} (h : R i s) (k) : ErrRel R (.error (G.PErr.fromErrorKind i k)) (.error (PErr.fromErrorKind s k)) :=
  .error _ _ (.other _ _ k h)

theorem rel_append {i s e e'} (h : R i s) (he : PErrRel R e e') (k) : PErrRel R (e.append i k) (e'.append s k) := by
  cases he <;> first | exact .other _ _ k h | (rename_i h; exact PErrRel.needed _) | (constructor; assumption)

theorem rel_orPanic {x : Option (I × I)} {y : Option (Span × Span)}
    (h : OptRel (fun a b => R a.1 b.1 ∧ R a.2 b.2) x y) : ResRel R R (G.orPanic x) (orPanic y) := by
  cases h with
  | none => exact .error _ _ .panic
  | some a b h => obtain ⟨a1, a2⟩ := a; obtain ⟨b1, b2⟩ := b; exact .ok _ _ _ _ h.1 h.2

theorem rel_tag (hR : Alike R) (t : List Char) : RP R R (G.tag t) (tag t) := by
  intro i s h
  unfold G.tag tag
  rw [hR.compare i s t h]
  split
  · have h1 := hR.takeFrom i s (blen t) h
    have h2 := hR.take i s (blen t) h
    generalize Input.takeFrom i (blen t) = a at *
    generalize s.takeFrom (blen t) = a' at *
    generalize Input.take i (blen t) = b at *
    generalize s.take (blen t) = b' at *
    cases h1 <;> cases h2 <;> first | exact .error _ _ .panic | (constructor <;> assumption)
  · exact .error _ _ (rel_kind h _)

theorem rel_takeWhile (hR : Alike R) (p : Char → Bool) : RP R R (G.takeWhile p) (takeWhile p) := by
  intro i s h
  unfold G.takeWhile takeWhile
  rw [hR.position i s _ h, hR.inputLen i s h]
  generalize s.position _ = o
  cases o <;> exact rel_orPanic (hR.takeSplit i s _ h)

theorem rel_takeWhile1 (hR : Alike R) (p : Char → Bool) : RP R R (G.takeWhile1 p) (takeWhile1 p) := by
  intro i s h
  unfold G.takeWhile1 takeWhile1
  rw [hR.position i s _ h, hR.inputLen i s h]
  generalize s.position _ = o
  rcases o with _ | _ | n
  rotate_left
  · exact .error _ _ (rel_kind h _)
  · exact rel_orPanic (hR.takeSplit i s _ h)
  · simp only
    split
    · exact .error _ _ (rel_kind h _)
    · exact rel_orPanic (hR.takeSplit i s _ h)

theorem rel_oneOf (hR : Alike R) (l : List Char) : RP R Eq (G.oneOf l) (oneOf l) := by
  intro i s h
  unfold G.oneOf oneOf
  rw [hR.elements i s h]
  cases s.frag with
  | nil => exact .error _ _ (rel_kind h _)
  | cons c cs =>
    simp only
    split
    · have h1 := hR.takeFrom i s c.utf8Size h
      generalize Input.takeFrom i c.utf8Size = a at *
      generalize s.takeFrom c.utf8Size = a' at *
      cases h1 with
      | none => exact .error _ _ .panic
      | some a b h1 => exact .ok _ _ _ _ h1 rfl
    · exact .error _ _ (rel_kind h _)

theorem rel_pmap {p : G.P I α} {p' : P α'} (h : RP R A p p') {f : α → β} {f' : α' → β'}
    (hf : ∀ a a', A a a' → B (f a) (f' a')) : RP R B (G.pmap p f) (pmap p' f') := by
  intro i s hi
  have := h i s hi
  unfold G.pmap pmap
  generalize p i = x at *
  generalize p' s = y at *
  cases this with
  | ok r r' a a' hr ha => exact .ok _ _ _ _ hr (hf a a' ha)
  | error e e' he => exact .error _ _ he

theorem rel_pmapS {p : G.PS I α} {p' : PS α'} (h : RPS R A p p') {f : α → β} {f' : α' → β'}
    (hf : ∀ a a', A a a' → B (f a) (f' a')) : RPS R B (G.pmapS p f) (pmapS p' f') := by
  intro i s n hi
  obtain ⟨h1, h2⟩ := h i s n hi
  unfold G.pmapS pmapS
  rcases hx : p i n with ⟨x, m⟩
  rcases hy : p' s n with ⟨y, m'⟩
  rw [hx, hy] at h1 h2
  simp only at h1 h2
  subst h2
  cases h1 with
  | ok r r' a a' hr ha => exact ⟨.ok _ _ _ _ hr (hf a a' ha), rfl⟩
  | error e e' he => exact ⟨.error _ _ he, rfl⟩

theorem rel_verify {p : G.P I α} {p' : P α'} (h : RP R A p p') {f : α → Bool} {f' : α' → Bool}
    (hf : ∀ a a', A a a' → f a = f' a') : RP R A (G.verify p f) (verify p' f') := by
  intro i s hi
  have := h i s hi
  unfold G.verify verify
  generalize p i = x at *
  generalize p' s = y at *
  cases this with
  | ok r r' a a' hr ha =>
    simp only [hf a a' ha]
    split
    · exact .ok _ _ _ _ hr ha
    · exact .error _ _ (rel_kind hi _)
  | error e e' he => exact .error _ _ he

theorem rel_peek {p : G.P I α} {p' : P α'} (h : RP R A p p') : RP R A (G.peek p) (peek p') := by
  intro i s hi
  have := h i s hi
  unfold G.peek peek
  generalize p i = x at *
  generalize p' s = y at *
  cases this with
  | ok r r' a a' hr ha => exact .ok _ _ _ _ hi ha
  | error e e' he => exact .error _ _ he

theorem rel_altGo {ps : List (G.PS I α)} {ps' : List (PS α')} (h : ListRel (RPS R A) ps ps') :
    ∀ {i s} (n : Nat) {e e'}, R i s → PErrRel R e e' →
      ResRel R A (G.altGo i ps e n).1 (altGo s ps' e' n).1 ∧ (G.altGo i ps e n).2 = (altGo s ps' e' n).2 := by
  induction h with
  | nil => intro i s n e e' hi he; exact ⟨.error _ _ (.error _ _ (rel_append hi he _)), rfl⟩
  | @cons p p' ps ps' hp _ ih =>
    intro i s n e e' hi he
    obtain ⟨h1, h2⟩ := hp i s n hi
    unfold G.altGo altGo
    rcases hx : p i n with ⟨x, m⟩
    rcases hy : p' s n with ⟨y, m'⟩
    rw [hx, hy] at h1 h2
    simp only at h1 h2
    subst h2
    cases h1 with
    | ok r r' a a' hr ha => exact ⟨.ok _ _ _ _ hr ha, rfl⟩
    | error e2 e2' he2 =>
      cases he2 with
      | error e2 e2' he2 => exact ih m hi he2
      | failure e2 e2' he2 => exact ⟨.error _ _ (.failure _ _ he2), rfl⟩
      | incomplete k => exact ⟨.error _ _ (.incomplete _), rfl⟩
      | panic => exact ⟨.error _ _ .panic, rfl⟩
      | diverge => exact ⟨.error _ _ .diverge, rfl⟩

theorem rel_altS {p : G.PS I α} {p' : PS α'} {ps : List (G.PS I α)} {ps' : List (PS α')} (hp : RPS R A p p')
    (h : ListRel (RPS R A) ps ps') : RPS R A (G.altS p ps) (altS p' ps') := by
  intro i s n hi
  obtain ⟨h1, h2⟩ := hp i s n hi
  unfold G.altS altS
  rcases hx : p i n with ⟨x, m⟩
  rcases hy : p' s n with ⟨y, m'⟩
  rw [hx, hy] at h1 h2
  simp only at h1 h2
  subst h2
  cases h1 with
  | ok r r' a a' hr ha => exact ⟨.ok _ _ _ _ hr ha, rfl⟩
  | error e2 e2' he2 =>
    cases he2 with
    | error e2 e2' he2 => exact rel_altGo h m hi he2
    | failure e2 e2' he2 => exact ⟨.error _ _ (.failure _ _ he2), rfl⟩
    | incomplete k => exact ⟨.error _ _ (.incomplete _), rfl⟩
    | panic => exact ⟨.error _ _ .panic, rfl⟩
    | diverge => exact ⟨.error _ _ .diverge, rfl⟩

theorem rel_alt {p : G.P I α} {p' : P α'} {ps : List (G.P I α)} {ps' : List (P α')} (hp : RP R A p p')
    (h : ListRel (RP R A) ps ps') : RP R A (G.alt p ps) (alt p' ps') := by
  intro i s hi
  refine (rel_altS hp.lift ?_ i s 0 hi).1
  induction h with
  | nil => exact .nil
  | cons h _ ih => exact .cons h.lift ih

theorem rel_many1Loop (hR : Alike R) {p : G.P I α} {p' : P α'} (hp : RP R A p p') :
    ∀ (fuel : Nat), RP R (ListRel A) (G.many1Loop p fuel) (many1Loop p' fuel) := by
  intro fuel
  induction fuel with
  | zero => intro i s hi; exact .error _ _ .diverge
  | succ fuel ih =>
    intro i s hi
    have := hp i s hi
    unfold G.many1Loop many1Loop
    generalize p i = x at *
    generalize p' s = y at *
    cases this with
    | error e e' he =>
      cases he with
      | error e2 e2' he2 => exact .ok _ _ _ _ hi .nil
      | failure e2 e2' he2 => exact .error _ _ (.failure _ _ he2)
      | incomplete k => exact .error _ _ (.incomplete _)
      | panic => exact .error _ _ .panic
      | diverge => exact .error _ _ .diverge
    | ok r r' a a' hr ha =>
      simp only [hR.inputLen _ _ hr, hR.inputLen _ _ hi]
      split
      · exact .error _ _ (rel_kind hi _)
      · have := ih r r' hr
        generalize G.many1Loop p fuel r = x at *
        generalize many1Loop p' fuel r' = y at *
        cases this with
        | ok r r' os os' hr hos => exact .ok _ _ _ _ hr (.cons ha hos)
        | error e e' he => exact .error _ _ he

theorem rel_many1 (hR : Alike R) {p : G.P I α} {p' : P α'} (hp : RP R A p p') :
    RP R (ListRel A) (G.many1 p) (many1 p') := by
  intro i s hi
  have := hp i s hi
  unfold G.many1 many1
  generalize p i = x at *
  generalize p' s = y at *
  cases this with
  | error e e' he =>
    cases he with
    | error e2 e2' he2 => exact .error _ _ (.error _ _ (rel_append hi he2 _))
    | failure e2 e2' he2 => exact .error _ _ (.failure _ _ he2)
    | incomplete k => exact .error _ _ (.incomplete _)
    | panic => exact .error _ _ .panic
    | diverge => exact .error _ _ .diverge
  | ok r r' a a' hr ha =>
    simp only [hR.inputLen _ _ hr]
    have := rel_many1Loop hR hp (r'.inputLen + 1) r r' hr
    generalize G.many1Loop p _ r = x at *
    generalize many1Loop p' _ r' = y at *
    cases this with
    | ok r r' os os' hr hos => exact .ok _ _ _ _ hr (.cons ha hos)
    | error e e' he => exact .error _ _ he

theorem rel_many0Loop (hR : Alike R) {p : G.PS I α} {p' : PS α'} (hp : RPS R A p p') :
    ∀ (fuel : Nat), RPS R (ListRel A) (G.many0Loop p fuel) (many0Loop p' fuel) := by
  intro fuel
  induction fuel with
  | zero => intro i s n hi; exact ⟨.error _ _ .diverge, rfl⟩
  | succ fuel ih =>
    intro i s n hi
    obtain ⟨h1, h2⟩ := hp i s n hi
    unfold G.many0Loop many0Loop
    rcases hx : p i n with ⟨x, m⟩
    rcases hy : p' s n with ⟨y, m'⟩
    rw [hx, hy] at h1 h2
    simp only at h1 h2
    subst h2
    cases h1 with
    | error e e' he =>
      cases he with
      | error e2 e2' he2 => exact ⟨.ok _ _ _ _ hi .nil, rfl⟩
      | failure e2 e2' he2 => exact ⟨.error _ _ (.failure _ _ he2), rfl⟩
      | incomplete k => exact ⟨.error _ _ (.incomplete _), rfl⟩
      | panic => exact ⟨.error _ _ .panic, rfl⟩
      | diverge => exact ⟨.error _ _ .diverge, rfl⟩
    | ok r r' a a' hr ha =>
      simp only [hR.inputLen _ _ hr, hR.inputLen _ _ hi]
      split
      · exact ⟨.error _ _ (rel_kind hi _), rfl⟩
      · obtain ⟨h1, h2⟩ := ih r r' m hr
        rcases hx : G.many0Loop p fuel r m with ⟨x, k⟩
        rcases hy : many0Loop p' fuel r' m with ⟨y, k'⟩
        rw [hx, hy] at h1 h2
        simp only at h1 h2
        subst h2
        cases h1 with
        | ok r r' os os' hr hos => exact ⟨.ok _ _ _ _ hr (.cons ha hos), rfl⟩
        | error e e' he => exact ⟨.error _ _ he, rfl⟩

theorem rel_many0 (hR : Alike R) {p : G.PS I α} {p' : PS α'} (hp : RPS R A p p') :
    RPS R (ListRel A) (G.many0 p) (many0 p') := by
  intro i s n hi
  unfold G.many0 many0
  rw [hR.inputLen _ _ hi]
  exact rel_many0Loop hR hp _ i s n hi

theorem rel_sepLoop (hR : Alike R) {sep : G.P I β} {sep' : P β'} (hs : RP R B sep sep') {p : G.P I α} {p' : P α'}
    (hp : RP R A p p') : ∀ (fuel : Nat), RP R (ListRel A) (G.sepLoop sep p fuel) (sepLoop sep' p' fuel) := by
  intro fuel
  induction fuel with
  | zero => intro i s hi; exact .error _ _ .diverge
  | succ fuel ih =>
    intro i s hi
    have := hs i s hi
    unfold G.sepLoop sepLoop
    generalize sep i = x at *
    generalize sep' s = y at *
    cases this with
    | error e e' he =>
      cases he with
      | error e2 e2' he2 => exact .ok _ _ _ _ hi .nil
      | failure e2 e2' he2 => exact .error _ _ (.failure _ _ he2)
      | incomplete k => exact .error _ _ (.incomplete _)
      | panic => exact .error _ _ .panic
      | diverge => exact .error _ _ .diverge
    | ok r r' b b' hr hb =>
      have := hp r r' hr
      simp only
      generalize p r = x at *
      generalize p' r' = y at *
      cases this with
      | error e e' he =>
        cases he with
        | error e2 e2' he2 => exact .ok _ _ _ _ hi .nil
        | failure e2 e2' he2 => exact .error _ _ (.failure _ _ he2)
        | incomplete k => exact .error _ _ (.incomplete _)
        | panic => exact .error _ _ .panic
        | diverge => exact .error _ _ .diverge
      | ok r2 r2' a a' hr2 ha =>
        simp only [hR.inputLen _ _ hr2, hR.inputLen _ _ hi]
        split
        · exact .error _ _ (rel_kind hi _)
        · have := ih r2 r2' hr2
          generalize G.sepLoop sep p fuel r2 = x at *
          generalize sepLoop sep' p' fuel r2' = y at *
          cases this with
          | ok r r' os os' hr hos => exact .ok _ _ _ _ hr (.cons ha hos)
          | error e e' he => exact .error _ _ he

theorem rel_separatedList1 (hR : Alike R) {sep : G.P I β} {sep' : P β'} (hs : RP R B sep sep') {p : G.P I α} {p' : P α'}
    (hp : RP R A p p') : RP R (ListRel A) (G.separatedList1 sep p) (separatedList1 sep' p') := by
  intro i s hi
  have := hp i s hi
  unfold G.separatedList1 separatedList1
  generalize p i = x at *
  generalize p' s = y at *
  cases this with
  | error e e' he => exact .error _ _ he
  | ok r r' a a' hr ha =>
    simp only [hR.inputLen _ _ hr]
    have := rel_sepLoop hR hs hp (r'.inputLen + 1) r r' hr
    generalize G.sepLoop sep p _ r = x at *
    generalize sepLoop sep' p' _ r' = y at *
    cases this with
    | ok r r' os os' hr hos => exact .ok _ _ _ _ hr (.cons ha hos)
    | error e e' he => exact .error _ _ he

theorem rel_mapErr {p : G.P I α} {p' : P α'} {g : G.Err I → G.Err I} {g' : Err → Err} {i s} (h : ResRel R A (p i) (p' s))
    (hg : ∀ e e', ErrRel R e e' → ErrRel R (g e) (g' e')) : ResRel R A (G.mapErr p g i) (mapErr p' g' s) := by
  unfold G.mapErr mapErr
  generalize p i = x at *
  generalize p' s = y at *
  cases h with
  | ok r r' a a' hr ha => exact .ok _ _ _ _ hr ha
  | error e e' he =>
    cases he with
    | error e2 e2' he2 => exact .error _ _ (hg _ _ (.error _ _ he2))
    | failure e2 e2' he2 => exact .error _ _ (hg _ _ (.failure _ _ he2))
    | incomplete k => exact .error _ _ (hg _ _ (.incomplete _))
    | panic => exact .error _ _ .panic
    | diverge => exact .error _ _ .diverge

theorem rel_okAll (hR : Alike R) {i s} (h : R i s) : ResRel R R (G.okAll i) (okAll s) := by
  unfold G.okAll okAll
  rw [hR.inputLen i s h]
  have h1 := hR.takeFrom i s s.inputLen h
  generalize Input.takeFrom i s.inputLen = a at *
  generalize s.takeFrom s.inputLen = a' at *
  cases h1 with
  | none => exact .error _ _ .panic
  | some a b h1 => exact .ok _ _ _ _ h1 h

theorem rel_escaped0Loop (hR : Alike R) {normal : G.P I α} {normal' : P α'} (hn : RP R A normal normal') (control : Char)
    {escapable : G.P I β} {escapable' : P β'} (he : RP R B escapable escapable') {input s0} (h0 : R input s0) :
    ∀ (fuel : Nat) (i s) (b : Bool), R i s →
      ResRel R R (G.escaped0Loop normal control escapable input fuel i b) (escaped0Loop normal' control escapable' s0 fuel s b) := by
  intro fuel
  induction fuel with
  | zero => intro i s b hi; exact .error _ _ .diverge
  | succ fuel ih =>
    intro i s b hi
    unfold G.escaped0Loop escaped0Loop
    rw [hR.inputLen i s hi]
    split
    · have arm : ResRel R R
          (match Input.elements i with
            | [] => .error (.error (G.PErr.fromErrorKind i .escaped))
            | nextChar :: _ =>
              if nextChar = control then
                let next := control.utf8Size
                if next ≥ s.inputLen then
                  .error (.error (G.PErr.fromErrorKind input .escaped))
                else
                  match Input.takeFrom i next with
                  | none => .error .panic
                  | some i' =>
                    match escapable i' with
                    | .ok (i2, _) =>
                      if Input.inputLen i2 = 0 then G.okAll input
                      else G.escaped0Loop normal control escapable input fuel i2 false
                    | .error .panic => .error .panic
                    | .error .diverge => .error .diverge
                    | .error _ => .error (.error (G.PErr.fromErrorKind i .escaped))
              else
                match Input.offsetTo input i with
                | none => .error .panic
                | some index => G.orPanic (Input.takeSplit input index))
          (match s.frag with
            | [] => .error (.error (PErr.fromErrorKind s .escaped))
            | nextChar :: _ =>
              if nextChar = control then
                let next := control.utf8Size
                if next ≥ s.inputLen then
                  .error (.error (PErr.fromErrorKind s0 .escaped))
                else
                  match s.takeFrom next with
                  | none => .error .panic
                  | some i' =>
                    match escapable' i' with
                    | .ok (i2, _) =>
                      if i2.inputLen = 0 then okAll s0
                      else escaped0Loop normal' control escapable' s0 fuel i2 false
                    | .error .panic => .error .panic
                    | .error .diverge => .error .diverge
                    | .error _ => .error (.error (PErr.fromErrorKind s .escaped))
              else
                match s0.offsetTo s with
                | none => .error .panic
                | some index => orPanic (s0.takeSplit index)) := by
        rw [hR.elements i s hi]
        cases s.frag with
        | nil => exact .error _ _ (rel_kind hi _)
        | cons c cs =>
          simp only
          split
          · split
            · exact .error _ _ (rel_kind h0 _)
            · have h1 := hR.takeFrom i s control.utf8Size hi
              generalize Input.takeFrom i control.utf8Size = a at *
              generalize s.takeFrom control.utf8Size = a' at *
              cases h1 with
              | none => exact .error _ _ .panic
              | some a b h1 =>
                simp only
                have h2 := he a b h1
                generalize escapable a = x at *
                generalize escapable' b = y at *
                cases h2 with
                | ok r r' _ _ hr _ =>
                  simp only [hR.inputLen _ _ hr]
                  split
                  · exact rel_okAll hR h0
                  · exact ih r r' false hr
                | error e e' hee =>
                  cases hee with
                  | panic => exact .error _ _ .panic
                  | diverge => exact .error _ _ .diverge
                  | _ => exact .error _ _ (rel_kind hi _)
          · rw [hR.offsetTo _ _ _ _ h0 hi]
            cases s0.offsetTo s with
            | none => exact .error _ _ .panic
            | some n => exact rel_orPanic (hR.takeSplit _ _ _ h0)
      have := hn i s hi
      simp only
      generalize normal i = x at *
      generalize normal' s = y at *
      cases this with
      | ok r r' _ _ hr _ =>
        cases b with
        | true => exact arm
        | false =>
          simp only [hR.inputLen _ _ hr]
          split
          · exact rel_okAll hR h0
          · split
            · exact ih r r' true hr
            · exact ih r r' false hr
      | error e e' hee =>
        cases hee with
        | error e2 e2' he2 => exact arm
        | failure e2 e2' he2 => exact .error _ _ (.failure _ _ he2)
        | incomplete k => exact .error _ _ (.incomplete _)
        | panic => exact .error _ _ .panic
        | diverge => exact .error _ _ .diverge
    · exact rel_okAll hR h0

theorem rel_escaped0 (hR : Alike R) {normal : G.P I α} {normal' : P α'} (hn : RP R A normal normal') (control : Char)
    {escapable : G.P I β} {escapable' : P β'} (he : RP R B escapable escapable') :
    RP R R (G.escaped0 normal control escapable) (escaped0 normal' control escapable') := by
  intro i s hi
  unfold G.escaped0 escaped0
  rw [hR.inputLen i s hi]
  exact rel_escaped0Loop hR hn control he hi _ i s false hi

theorem rel_failTake (hR : Alike R) {i s} (h : R i s) {n m : Nat} (hn : n = m) {f : I → G.PErr I} {f' : Span → PErr}
    (hf : ∀ i s, R i s → PErrRel R (f i) (f' s)) : ErrRel R (G.failTake i n f) (failTake s m f') := by
  subst hn
  unfold G.failTake failTake
  have h1 := hR.take i s n h
  generalize Input.take i n = a at *
  generalize s.take n = a' at *
  cases h1 with
  | none => exact .panic
  | some a b h1 => exact .failure _ _ (hf a b h1)

theorem rel_escapedErr (hR : Alike R) {e e'} (h : ErrRel R e e') : ErrRel R (G.escapedErr e) (escapedErr e') := by
  cases h with
  | error e e' h =>
    cases h with
    | other i s k h =>
      cases k with
      | escaped =>
        unfold G.escapedErr escapedErr
        simp only
        rw [hR.inputLen i s h, hR.sliceIndex i s 2 h]
        generalize s.sliceIndex 2 = o
        generalize s.inputLen = n
        rcases n with _ | _ | n
        · exact .failure _ _ (.escapedNonReservedCharacter _ _ h)
        · exact .failure _ _ (.escapedEndOfLine _ _ h)
        · simp only
          split
          · exact rel_failTake hR h rfl PErrRel.escapedNonReservedCharacter
          · exact .failure _ _ (.escapedNonReservedCharacter _ _ h)
      | _ => exact .error _ _ (.other _ _ _ h)
    | needed n => exact .error _ _ (.needed n)
    | _ => exact .error _ _ (by constructor; assumption)
  | failure e e' h => exact .failure _ _ h
  | incomplete n => exact .incomplete n
  | panic => exact .panic
  | diverge => exact .diverge

theorem rel_escapedReservedChars0 (hR : Alike R) {normal : G.P I α} {normal' : P α'} (hn : RP R A normal normal') :
    RP R R (G.escapedReservedChars0 normal) (escapedReservedChars0 normal') :=
  fun i s hi => rel_mapErr (rel_escaped0 hR hn '\\' (rel_oneOf hR _) i s hi) (fun _ _ => rel_escapedErr hR)

/-- Related results without a rest. -/
inductive ExRel (R : I → Span → Prop) (A : α → α' → Prop) : Except (G.Err I) α → Except Err α' → Prop
  | ok (a a') : A a a' → ExRel R A (.ok a) (.ok a')
  | error (e e') : ErrRel R e e' → ExRel R A (.error e) (.error e')

theorem rel_ifOk {x : Except (G.Err I) α} {y : Except Err α'} (h : ExRel R A x y) {k : α → G.Err I} {k' : α' → Err}
    (hk : ∀ a a', A a a' → ErrRel R (k a) (k' a')) {e e'} (he : ErrRel R e e') :
    ErrRel R (G.ifOk x k e) (ifOk y k' e') := by
  cases h with
  | ok a a' h => exact hk a a' h
  | error e2 e2' h =>
    cases h with
    | panic => exact .panic
    | diverge => exact .diverge
    | _ => exact he

theorem rel_nestedTuple (hR : Alike R) {p : G.P I α} {p' : P α'} (hp : RP R A p p') (cls : Char → Bool)
    (close : List Char) {i s} (hi : R i s) : ExRel R A (G.nestedTuple p cls close i) (nestedTuple p' cls close s) := by
  unfold G.nestedTuple nestedTuple
  have := hp i s hi
  generalize p i = x at *
  generalize p' s = y at *
  cases this with
  | error e e' h => exact .error _ _ h
  | ok r r' a a' hr ha =>
    have := rel_escapedReservedChars0 hR (rel_takeWhile hR cls) r r' hr
    simp only [bind, Except.bind]
    generalize G.escapedReservedChars0 _ r = x at *
    generalize escapedReservedChars0 _ r' = y at *
    cases this with
    | error e e' h => exact .error _ _ h
    | ok r r' _ _ hr _ =>
      have := rel_tag hR close r r' hr
      simp only
      generalize G.tag close r = x at *
      generalize tag close r' = y at *
      cases this with
      | error e e' h => exact .error _ _ h
      | ok r r' _ _ hr _ => exact .ok _ _ ha

theorem rel_parameterFail (hR : Alike R) {par : G.PS I (G.Parameter I)} {par' : PS Parameter}
    (hp : RPS R (ParameterRel R) par par') {opt : G.P I (G.Optional I)} {opt' : P Optional}
    (ho : RP R (OptionalRel R) opt opt') {i s b b'} (hi : R i s) (hb : R b b') :
    ErrRel R (G.parameterFail par opt i b) (parameterFail par' opt' s b') := by
  unfold G.parameterFail parameterFail
  rw [hR.elements i s hi]
  have one : ErrRel R (G.failTake i 1 .unescapedReservedCharacter) (failTake s 1 .unescapedReservedCharacter) :=
    rel_failTake hR hi rfl PErrRel.unescapedReservedCharacter
  generalize s.frag.head? = o
  split
  · refine rel_ifOk (rel_nestedTuple hR (fun i s h => (hp i s 0 h).1) _ _ hi) (fun a a' h => ?_) one
    exact rel_failTake hR hi (by rw [hR.inputLen _ _ h.1]) PErrRel.nestedParameter
  · have := rel_peek ho i s hi
    have : ExRel R (fun (a : I × G.Optional I) (b : Span × Optional) => OptionalRel R a.2 b.2) (G.peek opt i) (peek opt' s) := by
      generalize G.peek opt i = x at *
      generalize peek opt' s = y at *
      cases this with
      | ok r r' a a' _ ha => exact .ok _ _ ha
      | error e e' h => exact .error _ _ h
    refine rel_ifOk this (fun a a' h => ?_) one
    exact rel_failTake hR hi (by rw [hR.inputLen _ _ h]) PErrRel.optionalInParameter
  · split <;> split <;> first
      | exact one
      | exact .failure _ _ (.unfinishedParameter _ _ hb)
      | (rename_i heq; cases heq; rw [if_pos (by assumption)]; exact one)
      | (rename_i heq; cases heq; rw [if_neg (by assumption)]; exact .failure _ _ (.unfinishedParameter _ _ hb))
      | (exfalso; simp_all; done)
  · exact .failure _ _ (.unfinishedParameter _ _ hb)

theorem rel_optionalFail (hR : Alike R) {par : G.PS I (G.Parameter I)} {par' : PS Parameter}
    (hp : RPS R (ParameterRel R) par par') {opt : G.P I (G.Optional I)} {opt' : P Optional}
    (ho : RP R (OptionalRel R) opt opt') {i s b b'} (hi : R i s) (hb : R b b') :
    ErrRel R (G.optionalFail par opt i b) (optionalFail par' opt' s b') := by
  unfold G.optionalFail optionalFail
  rw [hR.elements i s hi]
  have one : ErrRel R (G.failTake i 1 .unescapedReservedCharacter) (failTake s 1 .unescapedReservedCharacter) :=
    rel_failTake hR hi rfl PErrRel.unescapedReservedCharacter
  generalize s.frag.head? = o
  split
  · refine rel_ifOk (rel_nestedTuple hR ho _ _ hi) (fun a a' h => ?_) one
    exact rel_failTake hR hi (by rw [hR.inputLen _ _ h]) PErrRel.nestedOptional
  · have := rel_peek (R := R) (p := fun i => (par i 0).1) (p' := fun i => (par' i 0).1) (fun i s h => (hp i s 0 h).1) i s hi
    have : ExRel R (fun (a : I × G.Parameter I) (b : Span × Parameter) => ParameterRel R a.2 b.2)
        (G.peek (fun i => (par i 0).1) i) (peek (fun i => (par' i 0).1) s) := by
      generalize G.peek (fun i => (par i 0).1) i = x at *
      generalize peek (fun i => (par' i 0).1) s = y at *
      cases this with
      | ok r r' a a' _ ha => exact .ok _ _ ha
      | error e e' h => exact .error _ _ h
    refine rel_ifOk this (fun a a' h => ?_) one
    exact rel_failTake hR hi (by rw [hR.inputLen _ _ h.1]) PErrRel.parameterInOptional
  · exact rel_failTake hR hi rfl PErrRel.alternationInOptional
  · split <;> split <;> first
      | exact one
      | exact .failure _ _ (.unfinishedOptional _ _ hb)
      | (rename_i heq; cases heq; rw [if_pos (by assumption)]; exact one)
      | (rename_i heq; cases heq; rw [if_neg (by assumption)]; exact .failure _ _ (.unfinishedOptional _ _ hb))
      | (exfalso; simp_all; done)
  · exact .failure _ _ (.unfinishedOptional _ _ hb)

theorem rel_paramOpt (hR : Alike R) : ∀ (fuel : Nat),
    RPS R (ParameterRel R) (G.parameterF fuel) (parameterF fuel) ∧ RP R (OptionalRel R) (G.optionalF fuel) (optionalF fuel) := by
  intro fuel
  induction fuel with
  | zero => exact ⟨fun i s n _ => by unfold G.parameterF parameterF; exact ⟨.error _ _ .diverge, rfl⟩,
      fun i s _ => by unfold G.optionalF optionalF; exact .error _ _ .diverge⟩
  | succ fuel ih =>
    obtain ⟨ihp, iho⟩ := ih
    constructor
    · intro i s n hi
      unfold G.parameterF parameterF
      have := rel_tag hR ['{'] i s hi
      generalize G.tag ['{'] i = x at *
      generalize tag ['{'] s = y at *
      cases this with
      | error e e' h => exact ⟨.error _ _ h, rfl⟩
      | ok r r' b b' hr hb =>
        have := rel_escapedReservedChars0 hR (rel_takeWhile hR isName) r r' hr
        simp only
        generalize G.escapedReservedChars0 _ r = x at *
        generalize escapedReservedChars0 _ r' = y at *
        cases this with
        | error e e' h => exact ⟨.error _ _ h, rfl⟩
        | ok r2 r2' t t' hr2 ht =>
          have := rel_mapErr (rel_tag hR ['}'] r2 r2' hr2)
            (g := fun _ => G.parameterFail (G.parameterF fuel) (G.optionalF fuel) r2 b)
            (g' := fun _ => parameterFail (parameterF fuel) (optionalF fuel) r2' b')
            (fun _ _ _ => rel_parameterFail hR ihp iho hr2 hb)
          simp only
          generalize G.mapErr _ _ r2 = x at *
          generalize mapErr _ _ r2' = y at *
          cases this with
          | error e e' h => exact ⟨.error _ _ h, rfl⟩
          | ok r3 r3' _ _ hr3 _ => exact ⟨.ok _ _ _ _ hr3 ⟨ht, rfl⟩, rfl⟩
    · intro i s hi
      unfold G.optionalF optionalF
      have := rel_tag hR ['('] i s hi
      generalize G.tag ['('] i = x at *
      generalize tag ['('] s = y at *
      cases this with
      | error e e' h => exact .error _ _ h
      | ok r r' b b' hr hb =>
        have := rel_escapedReservedChars0 hR (rel_takeWhile hR isInOptional) r r' hr
        simp only
        generalize G.escapedReservedChars0 _ r = x at *
        generalize escapedReservedChars0 _ r' = y at *
        cases this with
        | error e e' h => exact .error _ _ h
        | ok r2 r2' t t' hr2 ht =>
          have := rel_mapErr (rel_tag hR [')'] r2 r2' hr2)
            (g := fun _ => G.optionalFail (G.parameterF fuel) (G.optionalF fuel) r2 b)
            (g' := fun _ => optionalFail (parameterF fuel) (optionalF fuel) r2' b')
            (fun _ _ _ => rel_optionalFail hR ihp iho hr2 hb)
          simp only
          generalize G.mapErr _ _ r2 = x at *
          generalize mapErr _ _ r2' = y at *
          cases this with
          | error e e' h => exact .error _ _ h
          | ok r3 r3' _ _ hr3 _ =>
            simp only [hR.inputLen _ _ ht]
            split
            · exact .error _ _ (rel_failTake hR hi rfl PErrRel.emptyOptional)
            · exact .ok _ _ _ _ hr3 ht

theorem rel_parameter (hR : Alike R) : RPS R (ParameterRel R) G.parameter parameter := by
  intro i s n hi
  unfold G.parameter parameter
  rw [hR.inputLen _ _ hi]
  exact (rel_paramOpt hR _).1 i s n hi

theorem rel_optional (hR : Alike R) : RP R (OptionalRel R) G.optional optional := by
  intro i s hi
  unfold G.optional optional
  rw [hR.inputLen _ _ hi]
  exact (rel_paramOpt hR _).2 i s hi

theorem rel_textParser (hR : Alike R) : RP R R G.textParser textParser :=
  rel_verify (rel_escapedReservedChars0 hR (rel_takeWhile hR _)) (fun a a' h => by rw [hR.inputLen _ _ h])

theorem rel_alternative (hR : Alike R) : RP R (AlternativeRel R) G.alternative alternative :=
  rel_alt (rel_pmap (rel_optional hR) AlternativeRel.optional)
    (.cons (rel_pmap (rel_textParser hR) AlternativeRel.text) .nil)

theorem rel_alternationHead (hR : Alike R) : RP R (AlternationRel R) G.alternationHead alternationHead := by
  intro i s hi
  unfold G.alternationHead alternationHead
  have := rel_separatedList1 hR (rel_tag hR ['/']) (rel_many1 hR (rel_alternative hR)) i s hi
  generalize G.separatedList1 _ _ i = x at *
  generalize separatedList1 _ _ s = y at *
  cases this with
  | ok r r' a a' hr ha =>
    have := rel_peek (rel_tag hR ['/']) r r' hr
    simp only
    generalize G.peek _ r = x at *
    generalize peek _ r' = y at *
    cases this with
    | ok _ _ b b' _ hb => exact .error _ _ (.failure _ _ (.emptyAlternation _ _ hb))
    | error e e' h =>
      have go : ResRel R (AlternationRel R)
          (if a.length = 1 then .error (.error (.other r .tag)) else .ok (r, a))
          (if a'.length = 1 then .error (.error (.other r' .tag)) else .ok (r', a')) := by
        rw [ha.length_eq]
        split
        · exact .error _ _ (.error _ _ (.other _ _ _ hr))
        · exact .ok _ _ _ _ hr ha
      cases h with
      | panic => exact .error _ _ .panic
      | diverge => exact .error _ _ .diverge
      | error e e' h => exact go
      | failure e e' h => exact go
      | incomplete n => exact go
  | error e e' h =>
    cases h with
    | error e e' h =>
      cases h with
      | other j t k h =>
        cases k with
        | many1 =>
          have := rel_peek (rel_tag hR ['/']) j t h
          simp only
          generalize G.peek _ j = x at *
          generalize peek _ t = y at *
          cases this with
          | ok _ _ b b' _ hb => exact .error _ _ (rel_failTake hR h rfl PErrRel.emptyAlternation)
          | error e e' he =>
            cases he with
            | panic => exact .error _ _ .panic
            | diverge => exact .error _ _ .diverge
            | _ => exact .error _ _ (.error _ _ (.other _ _ _ h))
        | _ => exact .error _ _ (.error _ _ (.other _ _ _ h))
      | needed n => exact .error _ _ (.error _ _ (.needed n))
      | _ => exact .error _ _ (.error _ _ (by constructor; assumption))
    | failure e e' h => exact .error _ _ (.failure _ _ h)
    | incomplete n => exact .error _ _ (.incomplete n)
    | panic => exact .error _ _ .panic
    | diverge => exact .error _ _ .diverge

theorem rel_containsOnlyOptional {a : G.Alternation I} {a' : Alternation} (h : AlternationRel R a a') :
    G.Alternation.containsOnlyOptional a = a'.containsOnlyOptional := by
  unfold G.Alternation.containsOnlyOptional Alternation.containsOnlyOptional
  have inner : ∀ {b b'}, ListRel (AlternativeRel R) b b' →
      b.all G.Alternative.isOptional = b'.all Alternative.isOptional := by
    intro b b' hb
    induction hb with
    | nil => rfl
    | cons h _ ih => cases h <;> simp [ih, G.Alternative.isOptional, Alternative.isOptional]
  induction h with
  | nil => rfl
  | cons h _ ih => simp [inner h, ih]

theorem rel_spanLen (hR : Alike R) {a : G.Alternation I} {a' : Alternation} (h : AlternationRel R a a') :
    G.Alternation.spanLen a = a'.spanLen := by
  unfold G.Alternation.spanLen Alternation.spanLen
  have inner : ∀ {b b'}, ListRel (AlternativeRel R) b b' →
      (b.map G.Alternative.spanLen).sum = (b'.map Alternative.spanLen).sum := by
    intro b b' hb
    induction hb with
    | nil => rfl
    | cons h _ ih =>
      cases h with
      | optional o o' h => simp [ih, G.Alternative.spanLen, Alternative.spanLen, hR.inputLen _ _ h]
      | text i s h => simp [ih, G.Alternative.spanLen, Alternative.spanLen, hR.inputLen _ _ h]
  have e : (a.flatten.map G.Alternative.spanLen).sum = (a'.flatten.map Alternative.spanLen).sum := by
    induction h with
    | nil => rfl
    | cons h _ ih => rw [List.flatten_cons, List.flatten_cons, List.map_append, List.map_append, List.sum_append, List.sum_append, inner h, ih]
  rw [e, h.length_eq]

theorem rel_alternation (hR : Alike R) : RP R (AlternationRel R) G.alternation alternation := by
  intro i s hi
  unfold G.alternation alternation
  have := rel_alternationHead hR i s hi
  generalize G.alternationHead i = x at *
  generalize alternationHead s = y at *
  cases this with
  | error e e' h => exact .error _ _ h
  | ok r r' a a' hr ha =>
    simp only [rel_containsOnlyOptional ha, rel_spanLen hR ha]
    split
    · cases a'.spanLen with
      | none => exact .error _ _ .panic
      | some n => exact .error _ _ (rel_failTake hR hi rfl PErrRel.onlyOptionalInAlternation)
    · exact .ok _ _ _ _ hr ha

theorem rel_singleExpression (hR : Alike R) : RPS R (SingleRel R) G.singleExpression singleExpression :=
  rel_altS (rel_pmap (rel_alternation hR) SingleRel.alternation).lift
    (.cons (rel_pmap (rel_optional hR) SingleRel.optional).lift
      (.cons (rel_pmapS (rel_parameter hR) SingleRel.parameter)
        (.cons (rel_pmap (rel_textParser hR) SingleRel.text).lift
          (.cons (rel_pmap (rel_takeWhile1 hR _) SingleRel.whitespaces).lift .nil))))

theorem rel_expression (hR : Alike R) : RP R (ExpressionRel R) G.expression expression :=
  fun i s hi => (rel_many0 hR (rel_singleExpression hR) i s 0 hi).1

end CE
