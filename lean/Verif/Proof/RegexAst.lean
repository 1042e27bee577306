import Verif.Model.RegexAst
import Verif.Proof.RegexParse
import Verif.Spec.Hir

/-! # Both stack machines agree -/

namespace CE.Regex
open CE.Spec

theorem Ast.toRes_map (as : List Ast) : Ast.toRes as = as.map Ast.toRe := by
  induction as with
  | nil => rfl
  | cons a as ih => simp [Ast.toRes, ih]

theorem toRe_catA (as : List Ast) : (catA as).toRe = catL (as.map Ast.toRe) := by
  match as with
  | [] => rfl
  | [_] => rfl
  | _ :: _ :: _ => simp [catA, Ast.toRe, Ast.toRes_map]

theorem toRe_altA (as : List Ast) : (altA as).toRe = altL (as.map Ast.toRe) := by
  match as with
  | [] => rfl
  | [_] => rfl
  | _ :: _ :: _ => simp [altA, Ast.toRe, Ast.toRes_map]

/-- Forgetting non-capturing groups. -/
def AFrame.forget (f : AFrame) : Frame := ⟨f.branches.map Ast.toRe, f.items.map Ast.toRe, f.fresh⟩

def AFrame.Ok (f : AFrame) : Prop := f.fresh = true → ∃ a m n g as, f.items = .rep a m n g :: as

theorem AFrame.forget_finish (f : AFrame) : f.forget.finish = f.finish.toRe := by
  simp [AFrame.forget, Frame.finish, AFrame.finish, toRe_altA, toRe_catA, List.map_reverse]

theorem Kind.wrap_toRe (k : Kind) (a : Ast) : (k.wrapA a).toRe = k.wrap a.toRe := by cases k <;> rfl

def emap {α β : Type} (h : α → β) : Except RErr α → Except RErr β
  | .ok a => .ok (h a)
  | .error e => .error e

theorem AFrame.forget_repeated (f : AFrame) (m : Nat) (n : Option Nat) :
    f.forget.repeated m n = emap AFrame.forget (f.repeated m n) := by
  obtain ⟨br, it, fr⟩ := f
  cases it <;> rfl

theorem AFrame.repeated_ok {f f' : AFrame} {m : Nat} {n : Option Nat} (h : f.repeated m n = .ok f') : f'.Ok := by
  obtain ⟨br, it, fr⟩ := f
  cases it with
  | nil => cases h
  | cons a as => cases h; exact fun _ => ⟨_, _, _, _, _, rfl⟩

theorem AFrame.forget_quest (f : AFrame) (hf : f.Ok) : f.forget.quest = emap AFrame.forget f.quest := by
  obtain ⟨br, it, fr⟩ := f
  cases fr with
  | false => exact AFrame.forget_repeated ⟨br, it, false⟩ 0 (some 1)
  | true =>
    obtain ⟨a, m, n, g, as, rfl⟩ := hf rfl
    rfl

theorem AFrame.quest_ok {f f' : AFrame} (h : f.quest = .ok f') : f'.Ok := by
  unfold AFrame.quest at h
  split at h
  · cases h; exact fun h => by cases h
  · exact AFrame.repeated_ok h

theorem AFrame.push_ok (f : AFrame) (a : Ast) : (f.push a).Ok := fun h => by cases h

theorem build_forget : ∀ (ts : List Tok) (st : List (Kind × AFrame)) (f : AFrame), f.Ok → (∀ k ∈ st, k.2.Ok) →
    build (st.map fun k => (k.1, k.2.forget)) f.forget ts = emap Ast.toRe (buildA st f ts)
  | [], st, f, _, _ => by
    cases st with
    | nil => simp [build, buildA, emap, AFrame.forget_finish]
    | cons => rfl
  | t :: ts, st, f, hf, hs => by
    have push : ∀ a : Ast, build (st.map fun k => (k.1, k.2.forget)) (f.forget.push a.toRe) ts =
        emap Ast.toRe (buildA st (f.push a) ts) := fun a => build_forget ts st (f.push a) (f.push_ok a) hs
    have more : ∀ q : Except RErr AFrame, (∀ f', q = .ok f' → f'.Ok) →
        (match emap AFrame.forget q with
          | .ok f' => build (st.map fun k => (k.1, k.2.forget)) f' ts
          | .error e => .error e) =
        emap Ast.toRe (match q with
          | .ok f' => buildA st f' ts
          | .error e => .error e) := by
      intro q hq
      cases q with
      | error e => rfl
      | ok f' => exact build_forget ts st f' (hq f' rfl) hs
    have opened : ∀ k : Kind, build ((k, f.forget) :: st.map fun k => (k.1, k.2.forget)) .start ts =
        emap Ast.toRe (buildA ((k, f) :: st) .start ts) := fun k =>
      build_forget ts ((k, f) :: st) .start (fun h => by cases h) (by simpa using ⟨hf, fun a b h => hs (a, b) h⟩)
    cases t with
    | lit c => exact push (.lit c)
    | dot => exact push .dot
    | cls k => exact push (.cls k)
    | bol => exact push .bol
    | eol => exact push .eol
    | mark n => exact push (.mark n)
    | capture n => exact opened (.capture n)
    | group => exact opened .group
    | close =>
      cases st with
      | nil => rfl
      | cons kg st =>
        obtain ⟨k, g⟩ := kg
        simp only [build, buildA, List.map_cons]
        rw [AFrame.forget_finish, ← Kind.wrap_toRe]
        exact build_forget ts st (g.push _) (g.push_ok _) fun x hx => hs x (by simp [hx])
    | bar =>
      simp only [build, buildA]
      rw [← build_forget ts st _ (fun h => by cases h) hs]
      simp [AFrame.forget, toRe_catA, List.map_reverse]
    | quest => simp only [build, buildA, AFrame.forget_quest f hf]; exact more _ fun _ h => AFrame.quest_ok h
    | star => simp only [build, buildA, AFrame.forget_repeated]; exact more _ fun _ h => AFrame.repeated_ok h
    | plus => simp only [build, buildA, AFrame.forget_repeated]; exact more _ fun _ h => AFrame.repeated_ok h
    | count m n => simp only [build, buildA, AFrame.forget_repeated]; exact more _ fun _ h => AFrame.repeated_ok h

/-- The tree without non-capturing groups is the one of `Regex.parse`. -/
theorem parse_toRe (v : List Char) : Regex.parse v = emap Ast.toRe (Ast.parse v) := by
  unfold Regex.parse Ast.parse
  cases lex v with
  | error e => rfl
  | ok ts =>
    have := build_forget ts [] .start (fun h => by cases h) (by simp)
    simp only [List.map_nil] at this
    rw [show AFrame.start.forget = Frame.start from rfl] at this
    simp only [this]
    cases buildA [] .start ts with
    | error e => rfl
    | ok a =>
      simp only [emap]
      split <;> rfl

theorem ast_of_parse {v : List Char} {r : Re} (h : Regex.parse v = .ok r) : ∃ a, Ast.parse v = .ok a ∧ a.toRe = r := by
  rw [parse_toRe] at h
  cases ha : Ast.parse v with
  | error e => rw [ha] at h; cases h
  | ok a => rw [ha] at h; cases h; exact ⟨a, rfl, rfl⟩

/-! ## What the parser guarantees -/

def CItem.Valid : CItem → Prop
  | .range a b => a ≤ b
  | .ascii _ rs => ∀ r ∈ rs, r.1 ≤ r.2
  | .nested _ i => i.Valid
  | .union i j => i.Valid ∧ j.Valid
  | .op _ i j => i.Valid ∧ j.Valid
  | .fold _ i => i.Valid
  | _ => True

mutual
/-- Ranges and counts are in order, group names are valid, alternations have at least two branches. -/
def Ast.Valid : Ast → Prop
  | .cls k => ∀ i ∈ k.items, i.Valid
  | .cap n a => (∀ x, n = some x → Hir.ValidName x) ∧ a.Valid
  | .group a => a.Valid
  | .concat as => AllValid as
  | .alt as => 2 ≤ as.length ∧ AllValid as
  | .rep a m n _ => a.Valid ∧ ∀ k, n = some k → m ≤ k
  | _ => True
def Ast.AllValid : List Ast → Prop
  | [] => True
  | a :: as => a.Valid ∧ AllValid as
end

theorem allValid_iff (as : List Ast) : Ast.AllValid as ↔ ∀ a ∈ as, a.Valid := by
  induction as with
  | nil => simp [Ast.AllValid]
  | cons a as ih => simp [Ast.AllValid, ih]

def Tok.Valid : Tok → Prop
  | .cls k => ∀ i ∈ k.items, i.Valid
  | .capture n => ∀ x, n = some x → Hir.ValidName x
  | .count m n => ∀ k, n = some k → m ≤ k
  | _ => True

theorem clsPrim_valid {cs r : List Char} {i : CItem} (h : clsPrim cs = .ok (i, r)) : i.Valid := by
  unfold clsPrim at h
  split at h <;> try (simp at h; done)
  · split at h <;> simp at h
    · obtain ⟨rfl, _⟩ := h; trivial
    · obtain ⟨rfl, _⟩ := h; trivial
  · simp at h; obtain ⟨rfl, _⟩ := h; trivial

theorem clsRange_valid {cs r : List Char} {i : CItem} (h : clsRange cs = .ok (i, r)) : i.Valid := by
  unfold clsRange at h
  split at h
  · cases h
  · next a r1 h1 =>
    have v := clsPrim_valid h1
    split at h
    · cases h
    · cases h
    · split at h
      · cases h; exact v
      · split at h
        · cases h
        · split at h
          · split at h
            · cases h; assumption
            · cases h
          · cases h
    · cases h; exact v

theorem clsDashes_valid : ∀ cs : List Char, ∀ i ∈ (clsDashes cs).1, i.Valid
  | [] => by simp [clsDashes]
  | c :: r => by
    have := clsDashes_valid r
    unfold clsDashes
    split
    · next h => simp at h; obtain ⟨_, rfl⟩ := h; simpa using ⟨trivial, this⟩
    · simp

theorem clsLead_valid (cs : List Char) : ∀ i ∈ (clsLead cs).1, i.Valid := by
  have := clsDashes_valid cs
  unfold clsLead
  split
  · intro i hi; simp at hi; subst hi; trivial
  · exact this

theorem clsHead_valid (cs : List Char) : ∀ i ∈ (clsHead cs).2.1, i.Valid := by
  unfold clsHead
  split <;> exact clsLead_valid _

theorem all_valid : ∀ {is : List CItem}, (∀ i ∈ is, i.Valid) → (CItem.all is).Valid
  | [], _ => trivial
  | [i], h => h i (by simp)
  | i :: j :: is, h => ⟨h i (by simp), all_valid fun k hk => h k (by simp [hk])⟩

theorem popOp_valid {p : Option (SetOp × CItem)} {is : List CItem} (hp : ∀ x, p = some x → x.2.Valid) (h : ∀ i ∈ is, i.Valid) :
    ∀ i ∈ popOp p is, i.Valid := by
  cases p with
  | none => exact h
  | some x =>
    intro i hi
    simp [popOp] at hi
    subst hi
    exact ⟨hp x rfl, all_valid h⟩

def CPiece.Valid : CPiece → Prop
  | .item i => i.Valid
  | .op _ => True

theorem assemble_valid {ps : List CPiece} (hps : ∀ x ∈ ps, x.Valid) : ∀ {p : Option (SetOp × CItem)} {is : List CItem},
    (∀ x, p = some x → x.2.Valid) → (∀ i ∈ is, i.Valid) → ∀ i ∈ assemble p is ps, i.Valid := by
  induction ps with
  | nil => intro p is hp h; exact popOp_valid hp h
  | cons x ps ih =>
    intro p is hp h
    have ih := @ih fun x hx => hps x (by simp [hx])
    have hx := hps x (by simp)
    cases x with
    | item i =>
      refine ih hp ?_
      intro j hj
      simp at hj
      rcases hj with hj | rfl
      · exact h j hj
      · exact hx
    | op k =>
      refine ih ?_ (by simp)
      intro y hy
      cases hy
      exact all_valid (popOp_valid hp h)

theorem asciiTable_valid : ∀ x ∈ asciiTable, x.2.Valid := by
  have h : ∀ x ∈ asciiNames, ∀ r ∈ x.2, r.1 ≤ r.2 := by decide
  intro x hx
  simp only [asciiTable, List.mem_flatMap] at hx
  obtain ⟨y, hy, hx⟩ := hx
  simp at hx
  rcases hx with rfl | rfl <;> exact h y hy

theorem clsItems_valid : ∀ {n : Nat} {cs r : List Char} {is : List CPiece}, clsItems n cs = .ok (is, r) → ∀ i ∈ is, i.Valid
  | 0, _, _, _, h => by simp [clsItems] at h
  | n + 1, cs, r, is, h => by
    rcases clsItems_cases h with ⟨rfl, rfl⟩ | ⟨q, i, q', _, rfl, ha, hy, rfl⟩ | ⟨q, ks, q', _, rfl, ha, hk, hy, rfl⟩ |
      ⟨c, k, q, _, hc, rfl, hy, rfl⟩ | ⟨i, q, is', h1, h2, h3, hr, hy, rfl⟩
    · simp
    · obtain ⟨w, hw, _⟩ := asciiClass_some ha
      exact List.forall_mem_cons.2 ⟨asciiTable_valid _ hw, clsItems_valid hy⟩
    · exact List.forall_mem_cons.2 ⟨all_valid (assemble_valid (clsItems_valid hk) (by simp) (clsHead_valid q)), clsItems_valid hy⟩
    · exact List.forall_mem_cons.2 ⟨trivial, clsItems_valid hy⟩
    · exact List.forall_mem_cons.2 ⟨clsRange_valid hr, clsItems_valid hy⟩

theorem clsOpen_valid {cs r : List Char} {k : Cls} (h : clsOpen cs = .ok (k, r)) : ∀ i ∈ k.items, i.Valid := by
  obtain ⟨ps, hi, rfl⟩ := clsOpen_cases h
  exact assemble_valid (clsItems_valid hi) (by simp) (clsHead_valid cs)

theorem capName_rest : ∀ {cs n r : List Char}, capName false cs = .ok (n, r) → ∀ d ∈ n, isCaptureChar false d = true
  | [], _, _, h => by simp [capName] at h
  | c :: cs, n, r, h => by
    unfold capName at h
    split at h
    · simp at h; obtain ⟨rfl, _⟩ := h; simp
    · split at h
      · cases h
      · split at h
        · next hc =>
          split at h
          · next h2 => cases h; simpa using ⟨hc, capName_rest h2⟩
          · cases h
        · cases h

theorem validName_capName {cs n r : List Char} (h : capName true cs = .ok (n, r)) : Hir.ValidName n := by
  cases cs with
  | nil => simp [capName] at h
  | cons c cs =>
    unfold capName at h
    split at h
    · simp at h
    · split at h
      · cases h
      · split at h
        · next hc =>
          split at h
          · next h2 => cases h; exact ⟨_, _, rfl, hc, capName_rest h2⟩
          · cases h
        · cases h

theorem groupOpen_valid {cs r : List Char} {t : Tok} (h : groupOpen cs = .ok (t, r)) : t.Valid := by
  unfold groupOpen at h
  split at h <;> try (simp at h; done)
  · simp at h; obtain ⟨rfl, _⟩ := h; trivial
  · split at h
    · next h2 => cases h; intro x hx; cases hx; exact validName_capName h2
    · cases h
  · split at h
    · next h2 => cases h; intro x hx; cases hx; exact validName_capName h2
    · cases h
  · split at h <;> cases h
  · simp at h; obtain ⟨rfl, _⟩ := h; intro x hx; cases hx

theorem countTok_valid {cs r : List Char} {t : Tok} (h : countTok cs = .ok (t, r)) : t.Valid := by
  unfold countTok at h
  split at h <;> try (simp at h; done)
  · cases h; intro k hk; cases hk; exact Nat.le_refl _
  · cases h; intro k hk; cases hk
  · split at h <;> try (simp at h; done)
    split at h
    · cases h; intro k hk; cases hk; assumption
    · cases h

theorem lexOne_valid {c : Char} {cs r : List Char} {t : Tok} (h : lexOne c cs = .ok (t, r)) : t.Valid := by
  unfold lexOne at h
  split at h
  case h_1 => exact groupOpen_valid h
  case h_4 =>
    split at h
    · next h2 => cases h; exact clsOpen_valid h2
    · cases h
  case h_8 => exact countTok_valid h
  case h_12 =>
    split at h
    · cases h
    · split at h <;> cases h
      · trivial
      · intro i hi; simp at hi; subst hi; trivial
      · trivial
      · trivial
      · trivial
  all_goals (cases h; trivial)

theorem lexF_valid : ∀ {n : Nat} {cs : List Char} {ts : List RTok}, lexF n cs = .ok ts → ∀ t ∈ ts, ∀ c u, t = .tok c u → u.Valid
  | n, [], ts, h => by cases n <;> (cases h; simp)
  | 0, _ :: _, _, h => by cases h
  | n + 1, c :: r, ts, h => by
    rw [lexF] at h
    split at h
    · cases h
    · next h1 =>
      split at h
      · cases h
      · next h2 =>
        cases h
        refine List.forall_mem_cons.2 ⟨?_, lexF_valid h2⟩
        rintro d u rfl
        rcases rawOne_cases h1 with ⟨q, _, _, _, hq⟩ | ⟨_, u', hu, e⟩
        · obtain ⟨l, colon, _, _, _, e⟩ := flagsTok_cases hq
          cases colon <;> cases e
        · cases e; exact lexOne_valid hu

theorem insens_valid : ∀ {i : CItem}, i.Valid → i.insens.Valid
  | .single _, h => h
  | .range _ _, h => h
  | .perl _ .digit, h => h
  | .perl _ .space, h => h
  | .perl _ .word, h => h
  | .perl _ (.category _), h => h
  | .ascii _ _, h => h
  | .void, h => h
  | .nested _ i, h => insens_valid (i := i) h
  | .union _ _, h => ⟨insens_valid h.1, insens_valid h.2⟩
  | .op _ _ _, h => ⟨insens_valid h.1, insens_valid h.2⟩
  | .fold _ i, h => insens_valid (i := i) h

theorem alone_valid {i : CItem} (h : i.Valid) : i.alone.Valid := by
  unfold CItem.alone
  split
  · trivial
  · exact h

theorem under_valid {t : Tok} (h : t.Valid) (f : Flags) (c : Char) : (t.under f c).Valid := by
  cases t with
  | lit d => simp only [Tok.under]; split <;> simp [Tok.Valid, CItem.Valid]
  | dot => simp only [Tok.under]; split <;> simp [Tok.Valid, CItem.Valid]
  | cls k =>
    simp only [Tok.under]
    split
    · split
      · intro i hi
        simp [Cls.insens] at hi
        subst hi
        refine all_valid ?_
        intro i hi
        obtain ⟨j, hj, rfl⟩ := List.mem_map.1 hi
        exact insens_valid (h j hj)
      · intro i hi
        obtain ⟨j, hj, rfl⟩ := List.mem_map.1 hi
        exact alone_valid (h j hj)
    · exact h
  | bol => simp only [Tok.under]; split <;> trivial
  | eol => simp only [Tok.under]; split <;> trivial
  | _ => exact h

theorem resolve_valid : ∀ {ts : List RTok} {f : Flags} {fs : List Flags} {us : List Tok}, (∀ t ∈ ts, ∀ c u, t = .tok c u → u.Valid) →
    resolve f fs ts = .ok us → ∀ u ∈ us, u.Valid
  | [], _, _, _, _, h => by cases h; simp
  | .flags l :: ts, f, fs, us, ht, h => by
    simp only [resolve] at h
    split at h
    · cases h
    · obtain ⟨ws, hw, rfl⟩ := prep_eq_ok h
      have := resolve_valid (fun t h => ht t (by simp [h])) hw
      simp only [List.cons_append, List.nil_append, List.forall_mem_cons]
      exact ⟨trivial, trivial, this⟩
  | .scope l :: ts, f, fs, us, ht, h => by
    obtain ⟨ws, hw, rfl⟩ := prep_eq_ok h
    exact List.forall_mem_cons.2 ⟨trivial, resolve_valid (fun t h => ht t (by simp [h])) hw⟩
  | .tok c t :: ts, f, fs, us, ht, h => by
    have hv := ht _ (by simp) c t rfl
    rw [resolve_tok] at h
    obtain ⟨ws, hw, rfl⟩ := prep_eq_ok h
    have ih := resolve_valid (fun t h => ht t (by simp [h])) hw
    cases t with
    | capture n => exact List.forall_mem_cons.2 ⟨hv, ih⟩
    | group => exact List.forall_mem_cons.2 ⟨hv, ih⟩
    | close => exact List.forall_mem_cons.2 ⟨hv, ih⟩
    | _ => exact List.forall_mem_cons.2 ⟨under_valid hv f c, ih⟩

theorem lex_valid {cs : List Char} {ts : List Tok} (h : lex cs = .ok ts) : ∀ t ∈ ts, t.Valid := by
  unfold lex at h
  split at h
  · cases h
  · next hl => exact resolve_valid (lexF_valid hl) h

def AFrame.Valid (f : AFrame) : Prop := (∀ a ∈ f.branches, a.Valid) ∧ ∀ a ∈ f.items, a.Valid

theorem catA_valid {as : List Ast} (h : ∀ a ∈ as, a.Valid) : (catA as).Valid := by
  match as, h with
  | [], _ => trivial
  | [a], h => exact h a (by simp)
  | _ :: _ :: _, h => exact (allValid_iff _).2 h

theorem altA_valid {as : List Ast} (h : ∀ a ∈ as, a.Valid) : (altA as).Valid := by
  match as, h with
  | [], _ => trivial
  | [a], h => exact h a (by simp)
  | _ :: _ :: _, h => exact ⟨by simp, (allValid_iff _).2 h⟩

theorem AFrame.Valid.finish {f : AFrame} (h : f.Valid) : f.finish.Valid := by
  refine altA_valid fun a ha => ?_
  simp only [List.reverse_cons, List.mem_append, List.mem_reverse, List.mem_singleton] at ha
  rcases ha with ha | rfl
  · exact h.1 a ha
  · exact catA_valid fun b hb => h.2 b (by simpa using hb)

theorem AFrame.Valid.push {f : AFrame} (h : f.Valid) {a : Ast} (ha : a.Valid) : (f.push a).Valid :=
  ⟨h.1, by simpa [AFrame.push] using ⟨ha, h.2⟩⟩

theorem AFrame.Valid.repeated {f f' : AFrame} {m : Nat} {n : Option Nat} (h : f.Valid) (hn : ∀ k, n = some k → m ≤ k)
    (he : f.repeated m n = .ok f') : f'.Valid := by
  obtain ⟨br, it, fr⟩ := f
  cases it with
  | nil => cases he
  | cons a as =>
    cases he
    exact ⟨h.1, by simpa using ⟨⟨h.2 a (by simp), hn⟩, fun b hb => h.2 b (by simp [hb])⟩⟩

theorem AFrame.Valid.quest {f f' : AFrame} (h : f.Valid) (he : f.quest = .ok f') : f'.Valid := by
  unfold AFrame.quest at he
  split at he
  · rename_i a m n g as _ hi
    cases he
    have := h.2
    rw [hi] at this
    have h1 : (Ast.rep a m n false).Valid := this (.rep a m n g) (by simp)
    exact ⟨h.1, by simpa using ⟨h1, fun b hb => this b (by simp [hb])⟩⟩
  · exact h.repeated (by simp) he

theorem buildA_valid : ∀ (ts : List Tok) (st : List (Kind × AFrame)) (f : AFrame) (a : Ast), (∀ t ∈ ts, t.Valid) → f.Valid →
    (∀ k ∈ st, k.2.Valid ∧ ∀ x, k.1 = .capture (some x) → Hir.ValidName x) → buildA st f ts = .ok a → a.Valid
  | [], st, f, a, _, hf, _, h => by
    cases st with
    | nil => cases h; exact hf.finish
    | cons => cases h
  | t :: ts, st, f, a, ht, hf, hs, h => by
    have ht' : ∀ t ∈ ts, t.Valid := fun x hx => ht x (by simp [hx])
    have htt := ht t (by simp)
    have push : ∀ b : Ast, b.Valid → buildA st (f.push b) ts = .ok a → a.Valid := fun b hb h =>
      buildA_valid ts st _ a ht' (hf.push hb) hs h
    have more : ∀ q : Except RErr AFrame, (∀ f', q = .ok f' → f'.Valid) →
        (match q with
          | .ok f' => buildA st f' ts
          | .error e => .error e) = .ok a → a.Valid := by
      intro q hq h
      cases q with
      | error e => cases h
      | ok f' => exact buildA_valid ts st f' a ht' (hq f' rfl) hs h
    have opened : ∀ k : Kind, (∀ x, k = .capture (some x) → Hir.ValidName x) → buildA ((k, f) :: st) .start ts = .ok a → a.Valid :=
      fun k hk h => buildA_valid ts ((k, f) :: st) .start a ht' ⟨by simp [AFrame.start], by simp [AFrame.start]⟩
        (fun q hq => by
          rcases List.mem_cons.1 hq with rfl | hq
          · exact ⟨hf, hk⟩
          · exact hs q hq) h
    cases t with
    | lit c => exact push (.lit c) trivial h
    | dot => exact push .dot trivial h
    | cls k => exact push (.cls k) htt h
    | bol => exact push .bol trivial h
    | eol => exact push .eol trivial h
    | mark n => exact push (.mark n) trivial h
    | capture n => exact opened (.capture n) (fun x hx => htt x (by cases hx; rfl)) h
    | group => exact opened .group (fun x hx => by cases hx) h
    | close =>
      cases st with
      | nil => cases h
      | cons kg st =>
        obtain ⟨k, g⟩ := kg
        obtain ⟨h1, h2⟩ := hs (k, g) (by simp)
        refine buildA_valid ts st _ a ht' (h1.push ?_) (fun x hx => hs x (by simp [hx])) h
        cases k with
        | group => exact hf.finish
        | capture n => exact ⟨fun x hx => h2 x (by rw [hx]), hf.finish⟩
    | bar =>
      refine buildA_valid ts st _ a ht' ⟨?_, by simp⟩ hs h
      intro b hb
      rcases List.mem_cons.1 hb with rfl | hb
      · exact catA_valid fun c hc => hf.2 c (by simpa using hc)
      · exact hf.1 b hb
    | quest => exact more _ (fun f' => hf.quest) h
    | star => exact more _ (fun f' => hf.repeated (by simp)) h
    | plus => exact more _ (fun f' => hf.repeated (by simp)) h
    | count m n => exact more _ (fun f' => hf.repeated htt) h

theorem parse_valid {v : List Char} {a : Ast} (h : Ast.parse v = .ok a) : a.Valid := by
  unfold Ast.parse at h
  split at h
  · cases h
  · next ts hl =>
    split at h
    · cases h
    · next b hb =>
      split at h
      · cases h
        exact buildA_valid ts [] .start _ (lex_valid hl) ⟨by simp [AFrame.start], by simp [AFrame.start]⟩ (by simp) hb
      · cases h

end CE.Regex
