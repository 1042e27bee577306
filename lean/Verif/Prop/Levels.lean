import Verif.Spec.Levels
import Verif.Prop.Pieces
import Verif.Prop.Nest

/-!
# How deep classes are nested: C54
-/

namespace CE
open Spec Regex Spec.Pat

/-- The deepest of several items. -/
def deepest : List CItem → Nat
  | [] => 0
  | i :: is => max i.nest.1 (deepest is)

theorem deepest_append (is : List CItem) (j : CItem) : deepest (is ++ [j]) = max (deepest is) j.nest.1 := by
  induction is with
  | nil => simp [deepest]
  | cons i is ih => simp only [List.cons_append, deepest, ih]; omega

theorem all_nest : ∀ is : List CItem, (∀ i ∈ is, i.nest.2 = i.nest.1) →
    (CItem.all is).nest.1 = Pat.run is.length (deepest is) ∧ (CItem.all is).nest.2 = deepest is
  | [], _ => ⟨rfl, rfl⟩
  | [i], h => ⟨by simp [CItem.all, Pat.run, deepest], by simp [CItem.all, deepest, h i]⟩
  | i :: j :: is, h => by
    have ih := (all_nest (j :: is) fun k hk => h k (by simp [hk])).2
    simp only [CItem.all, CItem.nest, ih, Pat.run, List.length_cons]
    rw [if_pos (by omega)]
    exact ⟨rfl, rfl⟩

theorem item_nest (i : Pat.Item) : (itemOf i).nest = (0, 0) := by cases i <;> rfl

theorem popOp_nest (p : Option (SetOp × CItem)) (is : List CItem) (h : ∀ i ∈ is, i.nest.2 = i.nest.1) :
    (CItem.all (popOp p is)).nest.1 = combine (p.map (·.2.nest.1)) (Pat.run is.length (deepest is)) := by
  cases p with
  | none => exact (all_nest is h).1
  | some x => simp only [popOp, CItem.all, CItem.nest, (all_nest is h).1]; rfl

theorem assemble_nest : ∀ (b : Body) (p : Option (SetOp × CItem)) (is : List CItem), (∀ i ∈ is, i.nest.2 = i.nest.1) →
    (CItem.all (assemble p is (piecesOf b))).nest.1 = b.levels (p.map (·.2.nest.1)) is.length (deepest is)
  | .nil, p, is, h => popOp_nest p is h
  | .item i r, p, is, h => by
    rw [piecesOf, assemble, assemble_nest r p (is ++ [itemOf i]) (by
      intro j hj
      rcases List.mem_append.1 hj with hj | hj
      · exact h j hj
      · rw [List.mem_singleton.1 hj, item_nest]), deepest_append, item_nest, Body.levels]
    simp
  | .sub neg b r, p, is, h => by
    have ih := assemble_nest b none [] (by simp)
    rw [piecesOf, assemble, assemble_nest r p _ (by
      intro j hj
      rcases List.mem_append.1 hj with hj | hj
      · exact h j hj
      · rw [List.mem_singleton.1 hj]; rfl), deepest_append, Body.levels]
    simp only [CItem.nest, ih]
    simp [deepest]
  | .op k r, p, is, h => by
    rw [piecesOf, assemble, assemble_nest r _ [] (by simp), Body.levels]
    simp only [Option.map_some, popOp_nest p is h]
    rfl

theorem insens_nest : ∀ i : CItem, i.insens.nest = i.nest
  | .single _ => rfl
  | .range _ _ => rfl
  | .perl neg k => by cases k <;> rfl
  | .ascii _ _ => rfl
  | .void => rfl
  | .nested neg i => by simp only [CItem.insens, CItem.nest, insens_nest i]
  | .union i j => by simp only [CItem.insens, CItem.nest, insens_nest i, insens_nest j]
  | .op k i j => by simp only [CItem.insens, CItem.nest, insens_nest i, insens_nest j]
  | .fold neg i => by simp only [CItem.insens, CItem.nest, insens_nest i]

theorem cls_nest (neg : Bool) (b : Body) : (clsOf neg b).nest = b.levels none 0 0 + 1 ∧ (clsOf neg b).insens.nest = b.levels none 0 0 + 1 := by
  have h := assemble_nest b none [] (by simp)
  constructor
  · simp only [Cls.nest, clsOf, h]; rfl
  · simp only [Cls.nest, Cls.insens, clsOf, CItem.all, CItem.nest, ← all_insens, insens_nest, h]; rfl

theorem lexRaw_set {neg : Bool} {b : Body} (hb : b.Begins) (hv : b.Valid) (r : List Char) :
    lexRaw (bracketed neg b.write ++ r) = putRaw [.tok '[' (.cls (clsOf neg b))] (lexRaw r) := by
  obtain ⟨t, h1, h2⟩ := rawOne_piece (p := .set neg b) ⟨hb, hv⟩ r
  have h1 : bracketed neg b.write = '[' :: t := h1
  rw [h1]
  exact lexRaw_cons h2

/-- C54: how deep a class is, alone and under the flag `i`. -/
theorem C54_classes (neg : Bool) (b : Body) (hb : b.Begins) (hv : b.Valid) :
    (∃ t, Ast.parse (bracketed neg b.write) = .ok t ∧ t.nest = b.levels none 0 0 + 1) ∧
    ∃ t, Ast.parse (chars! "(?i:" ++ bracketed neg b.write ++ [')']) = .ok t ∧ t.nest = b.levels none 0 0 + 2 := by
  constructor
  · have h := lexRaw_set (neg := neg) hb hv []
    rw [List.append_nil] at h
    have h1 : lex (bracketed neg b.write) = .ok [.cls (clsOf neg b)] := by
      unfold lex
      rw [show lexF (bracketed neg b.write).length (bracketed neg b.write) = lexRaw (bracketed neg b.write) from rfl, h]
      rfl
    refine ⟨.cls (clsOf neg b), ?_, (cls_nest neg b).1⟩
    simp only [Ast.parse, h1]
    rfl
  · have h := lexRaw_set (neg := neg) hb hv [')']
    have h0 : lexRaw (chars! "(?i:" ++ bracketed neg b.write ++ [')']) =
        .ok [.scope [(.i, true)], .tok '[' (.cls (clsOf neg b)), .tok ')' .close] := by
      show lexRaw ('(' :: '?' :: 'i' :: ':' :: (bracketed neg b.write ++ [')'])) = _
      rw [lexRaw_cons (r' := bracketed neg b.write ++ [')']) (t := .scope [(.i, true)]) rfl, h]
      rfl
    have h1 : lex (chars! "(?i:" ++ bracketed neg b.write ++ [')']) = .ok [.group, .cls (clsOf neg b).insens, .close] := by
      unfold lex
      rw [show lexF _ (chars! "(?i:" ++ bracketed neg b.write ++ [')']) = _ from h0]
      rfl
    refine ⟨.group (.cls (clsOf neg b).insens), ?_, ?_⟩
    · simp only [Ast.parse, h1]; rfl
    · simp only [Ast.nest, (cls_nest neg b).2]

/-- C54: brackets, several items side by side, and operations count for one level each. -/
theorem C54_brackets (n n' : Bool) (b b' : Body) (hb : b.Begins) (hv : b.Valid) (hb' : b'.Begins) (hv' : b'.Valid) :
    ∃ t t', Ast.parse (bracketed n b.write) = .ok t ∧ Ast.parse (bracketed n' b'.write) = .ok t' ∧
      (∃ s, Ast.parse (bracketed false (bracketed n b.write)) = .ok s ∧ s.nest = t.nest + 1) ∧
      (∃ s, Ast.parse (bracketed false (bracketed n b.write ++ bracketed n' b'.write)) = .ok s ∧ s.nest = max t.nest t'.nest + 2) ∧
      ∀ k : Op, ∃ s, Ast.parse (bracketed false (bracketed n b.write ++ k.write ++ bracketed n' b'.write)) = .ok s ∧
        s.nest = max t.nest t'.nest + 2 := by
  obtain ⟨⟨t, ht, hn⟩, -⟩ := C54_classes n b hb hv
  obtain ⟨⟨t', ht', hn'⟩, -⟩ := C54_classes n' b' hb' hv'
  refine ⟨t, t', ht, ht', ?_, ?_, fun k => ?_⟩
  · obtain ⟨⟨s, hs, h⟩, -⟩ := C54_classes false (.sub n b .nil) trivial ⟨hb, hv, trivial⟩
    refine ⟨s, by simpa [Body.write, List.append_assoc] using hs, ?_⟩
    rw [h, hn]
    simp [Body.levels, combine, Pat.run]
  · obtain ⟨⟨s, hs, h⟩, -⟩ := C54_classes false (.sub n b (.sub n' b' .nil)) trivial ⟨hb, hv, hb', hv', trivial⟩
    refine ⟨s, by simpa [Body.write, List.append_assoc] using hs, ?_⟩
    rw [h, hn, hn']
    simp [Body.levels, combine, Pat.run]
  · obtain ⟨⟨s, hs, h⟩, -⟩ := C54_classes false (.sub n b (.op k (.sub n' b' .nil))) trivial ⟨hb, hv, hb', hv', trivial⟩
    refine ⟨s, by simpa [Body.write, List.append_assoc] using hs, ?_⟩
    rw [h, hn, hn']
    simp [Body.levels, combine, Pat.run]

/-- Non-vacuity: `[^a[b-d\w]&&x]` is five deep. -/
example : (Body.item (.one (.plain 'a')) (.sub false (.item (.range (.plain 'b') (.plain 'd')) (.item (.short false .word) .nil))
      (.op .inter (.item (.one (.plain 'x')) .nil)))).write = chars! "a[b-d\\w]&&x" ∧
    (Body.item (.one (.plain 'a')) (.sub false (.item (.range (.plain 'b') (.plain 'd')) (.item (.short false .word) .nil))
      (.op .inter (.item (.one (.plain 'x')) .nil)))).levels none 0 0 + 1 = 5 ∧
    ∃ t, Ast.parse (chars! "[^a[b-d\\w]&&x]") = .ok t ∧ t.nest = 5 := ⟨rfl, rfl, _, rfl, rfl⟩

end CE
