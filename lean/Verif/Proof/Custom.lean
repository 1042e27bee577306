import Verif.Prop.Expand
import Verif.Model.Parameters
import Verif.Proof.HirRename

/-! # Expansion with custom parameters: closed form -/

namespace CE
open Spec Regex

variable (parseHir : List Char → Option Hir) (pars : Provider)

/-- The expansion of a custom parameter with the given id and regex. -/
def valueRes (p : Parameter) (v : List Char) : Except ParameterError (List Char) :=
  if '(' ∈ v then
    match parseHir v with
    | none => .error (.renameRegexGroup p.input v)
    | some h =>
      if h.outerGroup then .ok (['(', '?', ':'] ++ (h.renameCaptureGroups p.id).print ++ [')'])
      else .ok ('(' :: v ++ [')'])
  else .ok ('(' :: v ++ [')'])

/-- The expansion of a parameter. -/
def customRes (p : Parameter) : Except ParameterError (List Char) :=
  match pars p.input with
  | none => builtinRes p
  | some v => valueRes parseHir p v

theorem any_paren (v : List Char) : v.any (· = '(') = true ↔ '(' ∈ v := by simp

theorem custom_res (p : Parameter) :
    ∃ l, WithCustom.parameterChars parseHir pars p = some l ∧ collectResult l = customRes parseHir pars p := by
  unfold WithCustom.parameterChars customRes
  cases hv : pars p.input with
  | none => exact chars_res p
  | some v =>
    have hw : collectResult ([.ok '('] ++ okChars v ++ [.ok ')']) = .ok ('(' :: v ++ [')']) := by
      have : ([.ok '('] ++ okChars v ++ [.ok ')'] : List Item) = okChars ('(' :: v ++ [')']) := by simp [okChars]
      rw [this, collectResult_ok]
    simp only [valueRes]
    by_cases hp : '(' ∈ v
    · rw [if_pos hp, if_pos ((any_paren v).2 hp)]
      cases hh : parseHir v with
      | none => exact ⟨_, rfl, rfl⟩
      | some h =>
        simp only [Hir.hasCaptureGroups_eq]
        by_cases hc : h.outerGroup = true
        · rw [if_pos hc, if_pos hc]
          simp only [ownedChars_eq, Option.map_some]
          refine ⟨_, rfl, ?_⟩
          have e1 : "(?:".toList = ['(', '?', ':'] := by decide
          have : (okChars "(?:".toList ++ okChars (h.renameCaptureGroups p.id).print ++ [.ok ')'] : List Item) =
            okChars (['(', '?', ':'] ++ (h.renameCaptureGroups p.id).print ++ [')']) := by rw [e1]; simp [okChars]
          rw [this, collectResult_ok]
        · rw [if_neg hc, if_neg hc]; exact ⟨_, rfl, hw⟩
    · rw [if_neg hp, if_neg (fun h => hp ((any_paren v).1 h))]; exact ⟨_, rfl, hw⟩

theorem regexWith_eq {src : List Char} {e : Expression} (h : Expression.parse src = .ok e) :
    Expression.regexWithParameters parseHir pars src = compileRes (seqPat (customRes parseHir pars) e) := by
  rw [← compile_chars (custom_res parseHir pars) e]
  simp only [Expression.regexWithParameters, h, WithCustom.chars]
  rw [show WithCustom.singleChars parseHir pars = charsWith (WithCustom.parameterChars parseHir pars) from
    funext (singleChars_eq_charsWith parseHir pars)]

theorem seqPat_congr {pr qr : Parameter → Except ParameterError (List Char)} {e : Expression}
    (h : ∀ p ∈ params e, pr p = qr p) : seqPat pr e = seqPat qr e := by
  induction e with
  | nil => rfl
  | cons x es ih =>
    have h2 := ih (fun p hp => h p (by cases x <;> simp_all [params]))
    cases x with
    | parameter p => rw [seqPat, seqPat, h p (by simp [params]), h2]
    | _ =>
      rw [seqPat, seqPat, h2]
      · intro p hp; exact absurd hp (by simp)
      · intro p hp; exact absurd hp (by simp)

/-- The pattern of the elements of a parsed expression. -/
theorem exprPat_eq {src : List Char} {e : Expression} (h : Expression.parse src = .ok e) (pat : Parameter → List Char) :
    exprPat pat e = e.flatMap (elementPattern pat) := by
  unfold exprPat List.flatMap
  congr 1
  refine List.map_congr_left fun x hx => ?_
  cases x with
  | text t => simp [elemPat, elementPattern, literal, quoteAll, List.flatMap]
  | whitespaces t =>
    have hv := (C06_parse_then_print src e h).1.1 _ (List.mem_map_of_mem (f := eraseSingle) hx)
    exact quoteAll_spaces hv.2
  | optional o => exact altPat_eq (.optional o)
  | alternation a =>
    simp only [elemPat, elementPattern, enclosed, joinBars_eq]
    have : a.map branchPat = a.map (·.flatMap alternativePattern) := List.map_congr_left fun b _ => by
      unfold branchPat List.flatMap
      rw [List.map_congr_left fun a _ => altPat_eq a]
    rw [this]; rfl
  | parameter p => rfl

theorem seqPat_isOk {pr : Parameter → Except ParameterError (List Char)} {e : Expression} {cs : List Char}
    (h : seqPat pr e = .ok cs) : ∀ p ∈ params e, ∃ q, pr p = .ok q := by
  induction e generalizing cs with
  | nil => simp [params]
  | cons x es ih =>
    cases x with
    | parameter p =>
      rw [seqPat] at h
      intro q hq
      rcases List.mem_cons.1 (params_cons_parameter p es ▸ hq) with rfl | hq
      · cases hp : pr q with
        | ok c => exact ⟨c, rfl⟩
        | error y => rw [hp] at h; cases h
      · cases hp : pr p with
        | error y => rw [hp] at h; cases h
        | ok c =>
          rw [hp] at h
          cases hs : seqPat pr es with
          | error y => rw [hs] at h; cases h
          | ok d => exact ih hs q hq
    | _ =>
      rw [seqPat] at h
      · intro q hq
        rw [params_cons_other (by simp)] at hq
        cases hs : seqPat pr es with
        | error y => rw [hs] at h; cases h
        | ok d => exact ih hs q hq
      · intro p hp; exact absurd hp (by simp)

end CE
