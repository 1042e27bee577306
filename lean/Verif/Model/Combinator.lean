import Verif.Model.Nom

/-! # `/repo/src/combinator.rs` -/

namespace CE

/-- `combinator::map_err` (`/repo/src/combinator.rs:25-35`). `panic` and `diverge` are not values in Rust, so they
are never mapped. -/
def mapErr {α : Type} (p : P α) (g : Err → Err) : P α := fun i =>
  match p i with
  | .ok r => .ok r
  | .error .panic => .error .panic
  | .error .diverge => .error .diverge
  | .error e => .error (g e)

/-- `Ok((input.take_from(input.input_len()), input))` (`/repo/src/combinator.rs:68,98-101,124`). -/
def okAll (input : Span) : IRes Span :=
  match input.takeFrom input.inputLen with
  | some r => .ok (r, input)
  | none => .error .panic

/-- The `while` loop of `combinator::escaped0` (`/repo/src/combinator.rs:58-125`): `i` and `consumedNothing` are its
mutable variables; each iteration uses one unit of fuel. -/
def escaped0Loop {α β : Type} (normal : P α) (control : Char) (escapable : P β) (input : Span) :
    Nat → Span → Bool → IRes Span
  | 0, _, _ => .error .diverge
  | fuel + 1, i, consumedNothing =>
    -- `while i.input_len() > 0` (line 62)
    if 0 < i.inputLen then
      -- the arm `(Ok(..), true) | (Err(Err::Error(_)), _)` (lines 75-117)
      let arm2 : Unit → IRes Span := fun _ =>
        match i.frag with
        | [] => .error (.error (PErr.fromErrorKind i .escaped))
        | nextChar :: _ =>
          if nextChar = control then
            let next := control.utf8Size
            if next ≥ i.inputLen then
              .error (.error (PErr.fromErrorKind input .escaped))
            else
              match i.takeFrom next with
              | none => .error .panic
              | some i' =>
                match escapable i' with
                | .ok (i2, _) =>
                  if i2.inputLen = 0 then okAll input
                  else escaped0Loop normal control escapable input fuel i2 false
                | .error .panic => .error .panic
                | .error .diverge => .error .diverge
                | .error _ => .error (.error (PErr.fromErrorKind i .escaped))
          else
            match input.offsetTo i with
            | none => .error .panic
            | some index => orPanic (input.takeSplit index)
      match normal i, consumedNothing with
      | .ok (i2, _), false =>
        if i2.inputLen = 0 then okAll input
        else if i2.inputLen = i.inputLen then
          escaped0Loop normal control escapable input fuel i2 true
        else
          escaped0Loop normal control escapable input fuel i2 false
      | .ok _, true => arm2 ()
      | .error (.error _), _ => arm2 ()
      | .error e, _ => .error e
    else okAll input

/-- `combinator::escaped0` (`/repo/src/combinator.rs:47-126`). Fuel: two iterations per byte, plus two. -/
def escaped0 {α β : Type} (normal : P α) (control : Char) (escapable : P β) : P Span := fun input =>
  escaped0Loop normal control escapable input (2 * input.inputLen + 2) input false

end CE
