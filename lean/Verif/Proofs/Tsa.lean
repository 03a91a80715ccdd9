import Verif.Model.Tsa
import Verif.Proofs.Pda
import Verif.Proofs.TreeStack

/-!
# Helper lemmas: integerised tree stacks and tree stack automata
-/

set_option linter.unusedSectionVars false
set_option linter.unusedSimpArgs false

namespace Rustomata
open Spec Relator

section rel
variable {A B : Type _} {R : A → B → Prop}

/-- Vectors of subtrees of the same shape with related labels. -/
inductive Forest.Rel (R : A → B → Prop) : Forest A → Forest B → Prop
  | nil : Rel R .nil .nil
  | vac {f g} : Rel R f g → Rel R (.vac f) (.vac g)
  | occ {v w c d f g} : R v w → Rel R c d → Rel R f g → Rel R (.occ v c f) (.occ w d g)

/-- Related frames. -/
structure Frame.Rel (R : A → B → Prop) (f : Frame A) (g : Frame B) : Prop where
  index : f.index = g.index
  value : R f.value g.value
  children : Forest.Rel R f.children g.children

/-- Related tree stacks. -/
structure TreeStack.Rel (R : A → B → Prop) (t : TreeStack A) (s : TreeStack B) : Prop where
  parents : List.Forall₂ (Frame.Rel R) t.parents s.parents
  value : R t.value s.value
  children : Forest.Rel R t.children s.children

namespace Forest.Rel

theorem imp {R' : A → B → Prop} (h : ∀ a b, R a b → R' a b) {f : Forest A} {g : Forest B} (hr : Forest.Rel R f g) : Forest.Rel R' f g := by
  induction hr with
  | nil => exact .nil
  | vac _ ih => exact .vac ih
  | occ h1 _ _ ih1 ih2 => exact .occ (h _ _ h1) ih1 ih2

theorem left_unique (h : LeftUnique R) {f f' : Forest A} {g : Forest B} (h1 : Forest.Rel R f g) (h2 : Forest.Rel R f' g) : f = f' := by
  induction h1 generalizing f' with
  | nil => cases h2; rfl
  | vac _ ih => cases h2 with | vac h2 => rw [ih h2]
  | occ hv _ _ ih1 ih2 => cases h2 with | occ hv' h3 h4 => rw [ih1 h3, ih2 h4, h hv hv']

theorem right_unique (h : RightUnique R) {f : Forest A} {g g' : Forest B} (h1 : Forest.Rel R f g) (h2 : Forest.Rel R f g') : g = g' := by
  induction h1 generalizing g' with
  | nil => cases h2; rfl
  | vac _ ih => cases h2 with | vac h2 => rw [ih h2]
  | occ hv _ _ ih1 ih2 => cases h2 with | occ hv' h3 h4 => rw [ih1 h3, ih2 h4, h hv hv']

theorem length {f : Forest A} {g : Forest B} (h : Forest.Rel R f g) : f.length = g.length := by
  induction h with
  | nil => rfl
  | vac _ ih => simp [Forest.length, ih]
  | occ _ _ _ _ ih => simp [Forest.length, ih]

/-- Related slots. -/
def SlotRel (R : A → B → Prop) (x : Option (A × Forest A)) (y : Option (B × Forest B)) : Prop :=
  (x = none ∧ y = none) ∨ ∃ v c w d, x = some (v, c) ∧ y = some (w, d) ∧ R v w ∧ Forest.Rel R c d

theorem slot {f : Forest A} {g : Forest B} (h : Forest.Rel R f g) (n : Nat) : SlotRel R (f.slot n) (g.slot n) := by
  induction h generalizing n with
  | nil => exact .inl ⟨rfl, rfl⟩
  | vac _ ih =>
    cases n with
    | zero => exact .inl ⟨rfl, rfl⟩
    | succ n => exact ih n
  | occ hv hc _ _ ih =>
    cases n with
    | zero => exact .inr ⟨_, _, _, _, rfl, rfl, hv, hc⟩
    | succ n => exact ih n

theorem write {f : Forest A} {g : Forest B} (h : Forest.Rel R f g) (n : Nat) {x : Option (A × Forest A)} {y : Option (B × Forest B)}
    (hxy : SlotRel R x y) : Forest.Rel R (f.write n x) (g.write n y) := by
  rcases hxy with ⟨rfl, rfl⟩ | ⟨v, c, w, d, rfl, rfl, h1, h2⟩
  · induction h generalizing n with
    | nil => exact .nil
    | vac h ih =>
      cases n with
      | zero => exact .vac h
      | succ n => exact .vac (ih n)
    | occ hv hc hr _ ih =>
      cases n with
      | zero => exact .vac hr
      | succ n => exact .occ hv hc (ih n)
  · induction h generalizing n with
    | nil => exact .nil
    | vac h ih =>
      cases n with
      | zero => exact .occ h1 h2 h
      | succ n => exact .vac (ih n)
    | occ hv hc hr _ ih =>
      cases n with
      | zero => exact .occ h1 h2 hr
      | succ n => exact .occ hv hc (ih n)

theorem pad {f : Forest A} {g : Forest B} (h : Forest.Rel R f g) (n : Nat) : Forest.Rel R (f.pad n) (g.pad n) := by
  induction n generalizing f g with
  | zero =>
    cases h with
    | nil => exact .vac .nil
    | vac h => exact .vac h
    | occ h1 h2 h3 => exact .occ h1 h2 h3
  | succ n ih =>
    cases h with
    | nil => exact .vac (ih .nil)
    | vac h => exact .vac (ih h)
    | occ h1 h2 h3 => exact .occ h1 h2 (ih h3)

theorem mapO_iff {g : A → Option B} {f : Forest A} {f' : Forest B} : f.mapO g = some f' ↔ Forest.Rel (fun a b => g a = some b) f f' := by
  induction f generalizing f' with
  | nil =>
    simp only [Forest.mapO, Option.some.injEq]
    constructor
    · rintro rfl; exact .nil
    · intro h; cases h; rfl
  | vac f ih =>
    simp only [Forest.mapO, Option.map_eq_some_iff]
    constructor
    · rintro ⟨x, hx, rfl⟩; exact .vac (ih.1 hx)
    · intro h
      cases h with
      | vac h => exact ⟨_, ih.2 h, rfl⟩
  | occ v c f ih1 ih2 =>
    simp only [Forest.mapO]
    constructor
    · intro h
      split at h
      · rename_i a b d h1 h2 h3
        simp only [Option.some.injEq] at h
        subst h
        exact .occ h1 (ih1.1 h2) (ih2.1 h3)
      · simp at h
    · intro h
      cases h with
      | occ h1 h2 h3 => rw [h1, ih1.2 h2, ih2.2 h3]

end Forest.Rel

theorem Frame.Rel.biUnique (h : BiUnique R) : BiUnique (Frame.Rel R) := by
  constructor
  · rintro ⟨a, b, c⟩ ⟨d, e, f⟩ ⟨g, i, j⟩ ⟨h1, h2, h3⟩ ⟨h4, h5, h6⟩
    simp only at *
    rw [h.1 h2 h5, h1, h4, h3.left_unique h.1 h6]
  · rintro ⟨a, b, c⟩ ⟨d, e, f⟩ ⟨g, i, j⟩ ⟨h1, h2, h3⟩ ⟨h4, h5, h6⟩
    simp only at *
    rw [h.2 h2 h5, ← h1, ← h4, h3.right_unique h.2 h6]

theorem TreeStack.Rel.biUnique (h : BiUnique R) : BiUnique (TreeStack.Rel R) := by
  have hf := (Frame.Rel.biUnique h).forall₂
  constructor
  · rintro ⟨a, b, c⟩ ⟨d, e, f⟩ ⟨g, i, j⟩ ⟨h1, h2, h3⟩ ⟨h4, h5, h6⟩
    simp only at *
    rw [hf.1 h1 h4, h.1 h2 h5, h3.left_unique h.1 h6]
  · rintro ⟨a, b, c⟩ ⟨d, e, f⟩ ⟨g, i, j⟩ ⟨h1, h2, h3⟩ ⟨h4, h5, h6⟩
    simp only at *
    rw [hf.2 h1 h4, h.2 h2 h5, h3.right_unique h.2 h6]

theorem TreeStack.Rel.imp {R' : A → B → Prop} (h : ∀ a b, R a b → R' a b) {t : TreeStack A} {s : TreeStack B} (hr : TreeStack.Rel R t s) :
    TreeStack.Rel R' t s :=
  ⟨hr.parents.imp fun _ _ f => ⟨f.index, h _ _ f.value, f.children.imp h⟩, h _ _ hr.value, hr.children.imp h⟩

theorem TreeStack.Frame.mapO_iff {g : A → Option B} {f : Frame A} {f' : Frame B} :
    TreeStack.Frame.mapO g f = some f' ↔ Frame.Rel (fun a b => g a = some b) f f' := by
  unfold TreeStack.Frame.mapO
  constructor
  · intro h
    split at h
    · rename_i v c h1 h2
      simp only [Option.some.injEq] at h
      subst h
      exact ⟨rfl, h1, Forest.Rel.mapO_iff.1 h2⟩
    · simp at h
  · rintro ⟨h1, h2, h3⟩
    rw [h2, Forest.Rel.mapO_iff.2 h3, h1]

theorem TreeStack.mapO_iff {g : A → Option B} {t : TreeStack A} {s : TreeStack B} :
    t.mapO g = some s ↔ TreeStack.Rel (fun a b => g a = some b) t s := by
  unfold TreeStack.mapO
  constructor
  · intro h
    split at h
    · rename_i v p c h1 h2 h3
      simp only [Option.some.injEq] at h
      subst h
      exact ⟨(mapM_eq_some_iff.1 h2).imp fun _ _ => Frame.mapO_iff.1, h1, Forest.Rel.mapO_iff.1 h3⟩
    · simp at h
  · rintro ⟨h1, h2, h3⟩
    rw [h2, Forest.Rel.mapO_iff.2 h3, mapM_eq_some_iff.2 (h1.imp fun _ _ => Frame.mapO_iff.2)]

theorem TreeStack.Rel.push {t : TreeStack A} {s : TreeStack B} (h : TreeStack.Rel R t s) (n : Nat) {a : A} {b : B} (hab : R a b) :
    (∃ t' s', t.push n a = .ok t' ∧ s.push n b = .ok s' ∧ TreeStack.Rel R t' s') ∨ ∃ t' s', t.push n a = .error t' ∧ s.push n b = .error s' := by
  rcases h.children.slot n with ⟨h1, h2⟩ | ⟨v, c, w, d, h1, h2, h3, h4⟩
  · refine .inl ⟨_, _, TreeStack.push_ok.2 ⟨h1, rfl⟩, TreeStack.push_ok.2 ⟨h2, rfl⟩, .cons ⟨rfl, h.value, ?_⟩ h.parents, hab, .nil⟩
    rw [h.children.length]
    split
    · exact h.children.pad n
    · exact h.children
  · exact .inr ⟨_, _, TreeStack.push_err.2 ⟨by simp [h1], rfl⟩, TreeStack.push_err.2 ⟨by simp [h2], rfl⟩⟩

theorem TreeStack.Rel.up {t : TreeStack A} {s : TreeStack B} (h : TreeStack.Rel R t s) (n : Nat) :
    (∃ t' s', t.up n = .ok t' ∧ s.up n = .ok s' ∧ TreeStack.Rel R t' s') ∨ ∃ t' s', t.up n = .error t' ∧ s.up n = .error s' := by
  rcases h.children.slot n with ⟨h1, h2⟩ | ⟨v, c, w, d, h1, h2, h3, h4⟩
  · exact .inr ⟨_, _, TreeStack.up_err.2 ⟨h1, rfl⟩, TreeStack.up_err.2 ⟨h2, rfl⟩⟩
  · exact .inl ⟨_, _, TreeStack.up_ok.2 ⟨v, c, h1, rfl⟩, TreeStack.up_ok.2 ⟨w, d, h2, rfl⟩,
      .cons ⟨rfl, h.value, h.children.write n (.inl ⟨rfl, rfl⟩)⟩ h.parents, h3, h4⟩

theorem TreeStack.Rel.down {t : TreeStack A} {s : TreeStack B} (h : TreeStack.Rel R t s) :
    (∃ t' s', t.down = .ok t' ∧ s.down = .ok s' ∧ TreeStack.Rel R t' s') ∨ ∃ t' s', t.down = .error t' ∧ s.down = .error s' := by
  obtain ⟨p, v, c⟩ := t
  obtain ⟨q, w, d⟩ := s
  obtain ⟨h1, h2, h3⟩ := h
  cases h1 with
  | nil => exact .inr ⟨_, _, rfl, rfl⟩
  | cons hf hp =>
    refine .inl ⟨_, _, rfl, rfl, hp, hf.value, ?_⟩
    rw [hf.index]
    exact hf.children.write _ (.inr ⟨_, _, _, _, rfl, rfl, h2, h3⟩)

end rel

section instr
variable {A B : Type _} {R : A → B → Prop}

/-- Related instructions. -/
inductive TsInstr.Rel (R : A → B → Prop) : TsInstr A → TsInstr B → Prop
  | up {n c o w c' o' w'} : R c c' → R o o' → R w w' → Rel R (.up n c o w) (.up n c' o' w')
  | push {n c w c' w'} : R c c' → R w w' → Rel R (.push n c w) (.push n c' w')
  | down {c o w c' o' w'} : R c c' → R o o' → R w w' → Rel R (.down c o w) (.down c' o' w')

theorem TsInstr.Rel.biUnique (h : BiUnique R) : BiUnique (TsInstr.Rel R) := by
  constructor
  · intro a b c h1 h2
    cases h1 <;> cases h2
    · rename_i r1 r2 r3 _ _ _ s1 s2 s3; rw [h.1 r1 s1, h.1 r2 s2, h.1 r3 s3]
    · rename_i r1 r2 _ _ s1 s2; rw [h.1 r1 s1, h.1 r2 s2]
    · rename_i r1 r2 r3 _ _ _ s1 s2 s3; rw [h.1 r1 s1, h.1 r2 s2, h.1 r3 s3]
  · intro a b c h1 h2
    cases h1 <;> cases h2
    · rename_i r1 r2 r3 _ _ _ s1 s2 s3; rw [h.2 r1 s1, h.2 r2 s2, h.2 r3 s3]
    · rename_i r1 r2 _ _ s1 s2; rw [h.2 r1 s1, h.2 r2 s2]
    · rename_i r1 r2 r3 _ _ _ s1 s2 s3; rw [h.2 r1 s1, h.2 r2 s2, h.2 r3 s3]

theorem TsInstr.Rel.imp {R' : A → B → Prop} (h : ∀ a b, R a b → R' a b) {x : TsInstr A} {y : TsInstr B} (hr : TsInstr.Rel R x y) : TsInstr.Rel R' x y := by
  cases hr with
  | up a b c => exact .up (h _ _ a) (h _ _ b) (h _ _ c)
  | push a b => exact .push (h _ _ a) (h _ _ b)
  | down a b c => exact .down (h _ _ a) (h _ _ b) (h _ _ c)

theorem TsInstr.mapO_iff {g : A → Option B} {x : TsInstr A} {y : TsInstr B} : x.mapO g = some y ↔ TsInstr.Rel (fun a b => g a = some b) x y := by
  cases x with
  | up n c o w =>
    simp only [mapO]
    constructor
    · intro h
      split at h
      · rename_i h1 h2 h3; cases h; exact .up h1 h2 h3
      · simp at h
    · intro h; cases h with | up a b c => rw [a, b, c]
  | push n c w =>
    simp only [mapO]
    constructor
    · intro h
      split at h
      · rename_i h1 h2; cases h; exact .push h1 h2
      · simp at h
    · intro h; cases h with | push a b => rw [a, b]
  | down c o w =>
    simp only [mapO]
    constructor
    · intro h
      split at h
      · rename_i h1 h2 h3; cases h; exact .down h1 h2 h3
      · simp at h
    · intro h; cases h with | down a b c => rw [a, b, c]

theorem TsInstr.Rel.current {x : TsInstr A} {y : TsInstr B} (h : TsInstr.Rel R x y) : R x.current y.current := by
  cases h <;> assumption

theorem TsInstr.apply_eq_nil [DecidableEq A] {x : TsInstr A} {t : TreeStack A} (h : t.value ≠ x.current) : x.apply t = [] := by
  cases x <;> simp only [apply] <;> exact if_neg h

theorem TsInstr.apply_rel [DecidableEq A] [DecidableEq B] (h : BiUnique R) {x : TsInstr A} {y : TsInstr B} (hxy : TsInstr.Rel R x y)
    {t : TreeStack A} {s : TreeStack B} (hts : TreeStack.Rel R t s) : List.Forall₂ (TreeStack.Rel R) (x.apply t) (y.apply s) := by
  have eqv : ∀ {a a' : A} {b b' : B}, R a b → R a' b' → (a = a' ↔ b = b') := fun h1 h2 =>
    ⟨fun e => h.2 h1 (by rw [e]; exact h2), fun e => h.1 h1 (by rw [e]; exact h2)⟩
  cases hxy with
  | @up n c o w c' o' w' hc ho hw =>
    simp only [apply]
    have e1 : t.currentSymbol = c ↔ s.currentSymbol = c' := eqv hts.value hc
    by_cases hcur : t.currentSymbol = c
    · rw [if_pos hcur, if_pos (e1.1 hcur)]
      rcases hts.up n with ⟨t', s', h1, h2, h3⟩ | ⟨t', s', h1, h2⟩
      · rw [h1, h2]
        have e2 : t'.currentSymbol = o ↔ s'.currentSymbol = o' := eqv h3.value ho
        simp only
        by_cases ho : t'.currentSymbol = o
        · rw [if_pos ho, if_pos (e2.1 ho)]
          exact .cons ⟨h3.parents, hw, h3.children⟩ .nil
        · rw [if_neg ho, if_neg (fun e => ho (e2.2 e))]; exact .nil
      · rw [h1, h2]; exact .nil
    · rw [if_neg hcur, if_neg (fun e => hcur (e1.2 e))]; exact .nil
  | @push n c w c' w' hc hw =>
    simp only [apply]
    have e1 : t.currentSymbol = c ↔ s.currentSymbol = c' := eqv hts.value hc
    by_cases hcur : t.currentSymbol = c
    · rw [if_pos hcur, if_pos (e1.1 hcur)]
      rcases hts.push n hw with ⟨t', s', h1, h2, h3⟩ | ⟨t', s', h1, h2⟩
      · rw [h1, h2]; exact .cons h3 .nil
      · rw [h1, h2]; exact .nil
    · rw [if_neg hcur, if_neg (fun e => hcur (e1.2 e))]; exact .nil
  | @down c o w c' o' w' hc ho hw =>
    simp only [apply]
    have e1 : t.currentSymbol = c ↔ s.currentSymbol = c' := eqv hts.value hc
    by_cases hcur : t.currentSymbol = c
    · rw [if_pos hcur, if_pos (e1.1 hcur)]
      rcases hts.down with ⟨t', s', h1, h2, h3⟩ | ⟨t', s', h1, h2⟩
      · rw [h1, h2]
        have e2 : t'.currentSymbol = o ↔ s'.currentSymbol = o' := eqv h3.value ho
        simp only
        by_cases ho : t'.currentSymbol = o
        · rw [if_pos ho, if_pos (e2.1 ho)]
          exact .cons ⟨h3.parents, hw, h3.children⟩ .nil
        · rw [if_neg ho, if_neg (fun e => ho (e2.2 e))]; exact .nil
      · rw [h1, h2]; exact .nil
    · rw [if_neg hcur, if_neg (fun e => hcur (e1.2 e))]; exact .nil

end instr

section integ
variable {A : Type _} [DecidableEq A]

theorem Forest.integ_spec (f : Forest A) : ∀ {i : Integeriser A}, i.Wf →
    (f.mapS Integeriser.integerise i).1.Wf ∧ i.Le (f.mapS Integeriser.integerise i).1 ∧
      Forest.Rel (f.mapS Integeriser.integerise i).1.Rel (f.mapS Integeriser.integerise i).2 f := by
  induction f with
  | nil => intro i h; exact ⟨h, .refl _, .nil⟩
  | vac f ih =>
    intro i h
    obtain ⟨h1, h2, h3⟩ := ih h
    exact ⟨h1, h2, .vac h3⟩
  | occ v c f ih1 ih2 =>
    intro i h
    obtain ⟨a1, a2, a3⟩ := Integeriser.integerise_spec h v
    obtain ⟨b1, b2, b3⟩ := ih1 a1
    obtain ⟨c1, c2, c3⟩ := ih2 b1
    exact ⟨c1, a2.trans (b2.trans c2), .occ (a3.mono (b2.trans c2)) (b3.imp fun _ _ r => r.mono c2) c3⟩

theorem TreeStack.frames_spec (ps : List (Frame A)) : ∀ {i : Integeriser A}, i.Wf →
    (mapFrames Integeriser.integerise i ps).1.Wf ∧ i.Le (mapFrames Integeriser.integerise i ps).1 ∧
      List.Forall₂ (Frame.Rel (mapFrames Integeriser.integerise i ps).1.Rel) (mapFrames Integeriser.integerise i ps).2 ps := by
  induction ps with
  | nil => intro i h; exact ⟨h, .refl _, .nil⟩
  | cons f ps ih =>
    intro i h
    obtain ⟨a1, a2, a3⟩ := Integeriser.integerise_spec h f.value
    obtain ⟨b1, b2, b3⟩ := ih a1
    obtain ⟨c1, c2, c3⟩ := Forest.integ_spec f.children b1
    refine ⟨c1, a2.trans (b2.trans c2), .cons ⟨rfl, a3.mono (b2.trans c2), c3⟩ (b3.imp ?_)⟩
    exact fun _ _ r => ⟨r.index, r.value.mono c2, r.children.imp fun _ _ r => r.mono c2⟩

theorem TreeStack.integLaws : IntegLaws (TreeStack.integ (A := A)) (fun i => TreeStack.Rel i.Rel) where
  mono h hr := hr.imp fun _ _ r => r.mono h
  unInteg := TreeStack.mapO_iff
  biUnique h := TreeStack.Rel.biUnique (Integeriser.biUnique h)
  integerise := by
    intro i h t
    obtain ⟨a1, a2, a3⟩ := Integeriser.integerise_spec h t.value
    obtain ⟨b1, b2, b3⟩ := TreeStack.frames_spec t.parents a1
    obtain ⟨c1, c2, c3⟩ := Forest.integ_spec t.children b1
    refine ⟨c1, a2.trans (b2.trans c2), ⟨b3.imp ?_, a3.mono (b2.trans c2), c3⟩⟩
    exact fun _ _ r => ⟨r.index, r.value.mono c2, r.children.imp fun _ _ r => r.mono c2⟩

theorem TsInstr.integLaws : IntegLaws (TsInstr.integ (A := A)) (fun i => TsInstr.Rel i.Rel) where
  mono h hr := hr.imp fun _ _ r => r.mono h
  unInteg := TsInstr.mapO_iff
  biUnique h := TsInstr.Rel.biUnique (Integeriser.biUnique h)
  integerise := by
    intro i h x
    cases x with
    | up n c o w =>
      obtain ⟨a1, a2, a3⟩ := Integeriser.integerise_spec h c
      obtain ⟨b1, b2, b3⟩ := Integeriser.integerise_spec a1 o
      obtain ⟨c1, c2, c3⟩ := Integeriser.integerise_spec b1 w
      exact ⟨c1, a2.trans (b2.trans c2), .up (a3.mono (b2.trans c2)) (b3.mono c2) c3⟩
    | push n c w =>
      obtain ⟨a1, a2, a3⟩ := Integeriser.integerise_spec h c
      obtain ⟨c1, c2, c3⟩ := Integeriser.integerise_spec a1 w
      exact ⟨c1, a2.trans c2, .push (a3.mono c2) c3⟩
    | down c o w =>
      obtain ⟨a1, a2, a3⟩ := Integeriser.integerise_spec h c
      obtain ⟨b1, b2, b3⟩ := Integeriser.integerise_spec a1 o
      obtain ⟨c1, c2, c3⟩ := Integeriser.integerise_spec b1 w
      exact ⟨c1, a2.trans (b2.trans c2), .down (a3.mono (b2.trans c2)) (b3.mono c2) c3⟩

end integ

namespace TSA
variable {A T W : Type _} [DecidableEq A] [DecidableEq T]

/-- What a user sees of a tree stack automaton. -/
def device (L : List (Transition (TsInstr A) T W)) (initial : TreeStack A) : Device (TreeStack A) (TsInstr A) T W where
  apply := TsInstr.apply
  transitions := L
  initial := initial
  accepts t := t.isAtBottom

theorem new_represents (ts : List (Transition (TsInstr A) T W)) (initial : TreeStack A) :
    ∃ L, (new ts initial).listTransitions = some L ∧ L.Perm ts ∧ (new ts initial).initialStack = some initial ∧
      Represents (new ts initial).automaton (device L initial) (new ts initial).tInt.findKey
        (itemMap TsInstr.integ TreeStack.integ (new ts initial).tInt (new ts initial).aInt)
        (new ts initial).tInt.Rel (TreeStack.Rel (new ts initial).aInt.Rel) (TsInstr.Rel (new ts initial).aInt.Rel) := by
  obtain ⟨a1, a2, a3⟩ := TreeStack.integLaws.integerise (Integeriser.wf_new (A := A)) initial
  obtain ⟨g1, g2, g3, g4, g5, L, g6, g7⟩ := buildTable_list (T := T) (W := W) TsInstr.integLaws TsInstr.current ts a1
  refine ⟨L, ?_, g7, TreeStack.integLaws.unInteg.2 (TreeStack.integLaws.mono g3 a3), ?_⟩
  · unfold listTransitions
    rw [mapM_eq_some_iff]
    exact g6.imp fun _ _ hr => (Transition.unInteg_iff TsInstr.integLaws).2 hr
  · refine ⟨Integeriser.biUnique g1, TreeStack.Rel.biUnique (Integeriser.biUnique g2), TsInstr.Rel.biUnique (Integeriser.biUnique g2),
      fun i i' s s' hi hs => TsInstr.apply_rel (Integeriser.biUnique g2) hi hs, g6, TreeStack.integLaws.mono g3 a3, ?_,
      fun _ _ => Integeriser.findKey_some g1, fun _ _ => itemMap_iff TsInstr.integLaws TreeStack.integLaws⟩
    intro c c' hc
    have hw : c.word = [] ↔ c'.word = [] := by
      rw [← List.length_eq_zero_iff, ← List.length_eq_zero_iff, hc.word.length_eq]
    have hp : c.storage.parents = [] ↔ c'.storage.parents = [] := by
      rw [← List.length_eq_zero_iff, ← List.length_eq_zero_iff, hc.storage.parents.length_eq]
    simp only [automaton, device, Bool.and_eq_true, List.isEmpty_iff, hw, TreeStack.isAtBottom, hp]

theorem new_coherent [Mul W] (ts : List (Transition (TsInstr A) T W)) (initial : TreeStack A) : (new ts initial).automaton.Coherent := by
  obtain ⟨a1, a2, a3⟩ := TreeStack.integLaws.integerise (Integeriser.wf_new (A := A)) initial
  obtain ⟨g1, g2, g3, g4, g5, _⟩ := buildTable_list (T := T) (W := W) TsInstr.integLaws TsInstr.current ts a1
  refine ⟨g4, ?_⟩
  intro k l hl t ht c c' hst k' hk
  have h1 := g5 k l hl t ht
  have h2 : c'.storage ∈ t.instruction.apply c.storage := hst.storage
  have h3 : c.storage.value = k' := by simpa [automaton, TreeStack.currentSymbol] using hk
  have h4 : t.instruction.current = c.storage.value := by
    generalize t.instruction = x at h2
    by_cases hc : c.storage.value = x.current
    · exact hc.symm
    · rw [TsInstr.apply_eq_nil hc] at h2
      simp at h2
  rw [← h1, h4, h3]

theorem apply_length (x : TsInstr A) (t : TreeStack A) : (x.apply t).length ≤ 1 := by
  unfold TsInstr.apply
  split <;> split <;> try simp
  all_goals split <;> try simp
  all_goals split <;> simp

/-- Instructions keep the invariant of tree stacks. -/
theorem apply_reachable {x : TsInstr A} {t s : TreeStack A} (ht : Reachable t) (h : s ∈ x.apply t) : Reachable s := by
  unfold TsInstr.apply at h
  split at h
  · split at h
    · split at h
      · rename_i hu
        split at h
        · rw [List.mem_singleton] at h
          subst h
          exact .set _ (.up ht hu)
        · simp at h
      · simp at h
    · simp at h
  · split at h
    · split at h
      · rename_i hu
        rw [List.mem_singleton] at h
        subst h
        exact .push ht hu
      · simp at h
    · simp at h
  · split at h
    · split at h
      · rename_i hu
        split at h
        · rw [List.mem_singleton] at h
          subst h
          exact .set _ (.down ht hu)
        · simp at h
      · simp at h
    · simp at h

/-- Instructions keep the invariant of tree stacks. -/
theorem wf_apply {x : TsInstr A} {t s : TreeStack A} (ht : t.Wf) (h : s ∈ x.apply t) : s.Wf := by
  unfold TsInstr.apply at h
  split at h
  · split at h
    · split at h
      · rename_i hu
        split at h
        · rw [List.mem_singleton] at h
          subst h
          exact TreeStack.wf_set (TreeStack.wf_up ht hu) _
        · simp at h
      · simp at h
    · simp at h
  · split at h
    · split at h
      · rename_i hu
        rw [List.mem_singleton] at h
        subst h
        exact TreeStack.wf_push ht hu
      · simp at h
    · simp at h
  · split at h
    · split at h
      · rename_i hu
        split at h
        · rw [List.mem_singleton] at h
          subst h
          exact TreeStack.wf_set (TreeStack.wf_down ht hu) _
        · simp at h
      · simp at h
    · simp at h

theorem wf_run [Mul W] {c c' : Configuration (TreeStack A) T W} {ts : List (Transition (TsInstr A) T W)}
    (h : Exec TsInstr.apply c ts c') (hc : c.storage.Wf) : c'.storage.Wf := by
  induction h with
  | nil => exact hc
  | cons h1 _ ih => exact ih (wf_apply hc h1.storage)

theorem forall₂_mem_left {X Y : Type _} {R : X → Y → Prop} {l : List X} {m : List Y} (h : List.Forall₂ R l m) {x : X} (hx : x ∈ l) : ∃ y ∈ m, R x y := by
  induction h with
  | nil => simp at hx
  | cons h1 _ ih =>
    rcases List.mem_cons.1 hx with rfl | hx
    · exact ⟨_, by simp, h1⟩
    · obtain ⟨y, hy, hr⟩ := ih hx
      exact ⟨y, by simp [hy], hr⟩

end TSA
end Rustomata
