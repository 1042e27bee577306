/-! # Lists in order of preference -/

namespace CE

/-- Of the items that satisfy a condition, the first is, apart from repetitions, before all others. -/
def Sorts {α : Type} (B : α → α → Prop) (L : List α) : Prop :=
  ∀ (Q : α → Bool) (a : α), L.find? Q = some a → ∀ b ∈ L, Q b = true → b = a ∨ B a b

theorem Sorts.nil {α : Type} {B : α → α → Prop} : Sorts B [] := fun _ _ h => by cases h

theorem Sorts.of_eq {α : Type} {B : α → α → Prop} {L : List α} (h : ∀ a ∈ L, ∀ b ∈ L, a = b) : Sorts B L :=
  fun _ _ ha b hb _ => .inl (h b hb _ (List.mem_of_find?_eq_some ha))

theorem Sorts.single {α : Type} {B : α → α → Prop} (a : α) : Sorts B [a] :=
  .of_eq fun x hx y hy => by rw [List.mem_singleton.1 hx, List.mem_singleton.1 hy]

theorem Sorts.mono {α : Type} {B C : α → α → Prop} {L : List α} (h : Sorts B L) (hB : ∀ a ∈ L, ∀ b ∈ L, B a b → C a b) :
    Sorts C L := fun Q a ha b hb hq =>
  (h Q a ha b hb hq).imp id fun h => hB a (List.mem_of_find?_eq_some ha) b hb h

theorem Sorts.append {α : Type} {B : α → α → Prop} {L M : List α} (hL : Sorts B L) (hM : Sorts B M)
    (h : ∀ a ∈ L, ∀ b ∈ M, b ∈ L ∨ B a b) : Sorts B (L ++ M) := by
  intro Q a ha b hb hq
  rw [List.find?_append] at ha
  cases hf : L.find? Q with
  | some x =>
    rw [hf] at ha
    cases ha
    rcases List.mem_append.1 hb with hb | hb
    · exact hL Q a hf b hb hq
    · rcases h a (List.mem_of_find?_eq_some hf) b hb with hb | hb
      · exact hL Q a hf b hb hq
      · exact .inr hb
  | none =>
    rw [hf] at ha
    rcases List.mem_append.1 hb with hb | hb
    · exact absurd hq (List.find?_eq_none.1 hf b hb)
    · exact hM Q a ha b hb hq

theorem Sorts.map {α β : Type} {B : α → α → Prop} {C : β → β → Prop} {L : List α} {f : α → β} (h : Sorts B L)
    (hB : ∀ a ∈ L, ∀ b ∈ L, B a b → C (f a) (f b)) : Sorts C (L.map f) := by
  intro Q a ha b hb hq
  rw [List.find?_map] at ha
  obtain ⟨a', ha', rfl⟩ := Option.map_eq_some_iff.1 ha
  obtain ⟨b', hb', rfl⟩ := List.mem_map.1 hb
  rcases h (Q ∘ f) a' ha' b' hb' hq with rfl | h
  · exact .inl rfl
  · exact .inr (hB _ (List.mem_of_find?_eq_some ha') _ hb' h)

theorem find?_flatMap_some {α β : Type} {L : List α} {f : α → List β} {Q : β → Bool} {b : β}
    (h : (L.flatMap f).find? Q = some b) : ∃ a, L.find? (fun a => (f a).any Q) = some a ∧ (f a).find? Q = some b := by
  induction L with
  | nil => cases h
  | cons a L ih =>
    rw [List.flatMap_cons, List.find?_append] at h
    cases hf : (f a).find? Q with
    | some x =>
      rw [hf] at h
      cases h
      refine ⟨a, ?_, hf⟩
      have : (f a).any Q = true := List.any_eq_true.2 ⟨b, List.mem_of_find?_eq_some hf, List.find?_some hf⟩
      simp [this]
    | none =>
      rw [hf] at h
      obtain ⟨a', h1, h2⟩ := ih h
      refine ⟨a', ?_, h2⟩
      have : (f a).any Q = false := by
        rw [List.any_eq_false]; intro x hx; exact List.find?_eq_none.1 hf x hx
      simp [this, h1]

theorem Sorts.flatMap {α β γ : Type} {B1 : α → α → Prop} {B2 : α → β → β → Prop} {C : γ → γ → Prop} {L : List α}
    {f : α → List β} {c : α → β → γ} (h1 : Sorts B1 L) (h2 : ∀ a ∈ L, Sorts (B2 a) (f a))
    (hB1 : ∀ a ∈ L, ∀ b ∈ L, B1 a b → ∀ x ∈ f a, ∀ y ∈ f b, C (c a x) (c b y))
    (hB2 : ∀ a ∈ L, ∀ x ∈ f a, ∀ y ∈ f a, B2 a x y → C (c a x) (c a y)) :
    Sorts C (L.flatMap fun a => (f a).map (c a)) := by
  intro Q r hr s hs hq
  obtain ⟨a, ha, hx⟩ := find?_flatMap_some hr
  rw [List.find?_map] at hx
  obtain ⟨x, hx', rfl⟩ := Option.map_eq_some_iff.1 hx
  obtain ⟨b, hb, hy⟩ := List.mem_flatMap.1 hs
  have hsb := hy
  obtain ⟨y, hy', rfl⟩ := List.mem_map.1 hy
  have ham := List.mem_of_find?_eq_some ha
  have hxm := List.mem_of_find?_eq_some hx'
  rcases h1 _ a ha b hb (List.any_eq_true.2 ⟨_, hsb, hq⟩) with rfl | h
  · rcases h2 b ham _ x hx' y hy' hq with rfl | h
    · exact .inl rfl
    · exact .inr (hB2 b ham x hxm y hy' h)
  · exact .inr (hB1 a ham b hb h x hxm y hy')

end CE
