import Verif.Spec.Ord

/-!
# Helper lemmas: comparisons
-/

namespace Rustomata
open Spec
variable {A B S T I N W X : Type _}

/-! ### three comparisons of three values -/

/-- The results of comparing `a` with `b`, `b` with `c` and `a` with `c` fit together. -/
def Tri (x y z : Ordering) : Prop := (x = .eq → z = y) ∧ (y = .eq → z = x) ∧ (x = y → z = x)

instance (x y z : Ordering) : Decidable (Tri x y z) := by unfold Tri; infer_instance

theorem tri_then : ∀ x y z x' y' z' : Ordering, Tri x y z → Tri x' y' z' → Tri (x.then x') (y.then y') (z.then z') := by
  intro x y z x' y' z'
  cases x <;> cases y <;> cases z <;> cases x' <;> cases y' <;> cases z' <;> decide

theorem tri_le {x y z : Ordering} (h : Tri x y z) (hx : x ≠ .gt) (hy : y ≠ .gt) : z ≠ .gt := by
  revert h hx hy; cases x <;> cases y <;> cases z <;> decide

theorem Spec.CmpLaws.tri {c : A → A → Ordering} (h : CmpLaws c) (x y z : A) : Tri (c x y) (c y z) (c x z) := by
  have h1 := h.trans x y z
  have h2 := h.trans z y x
  have h3 := h.trans y x z
  have h4 := h.trans z x y
  have h5 := h.trans x z y
  have h6 := h.trans y z x
  rw [h.swap x y] at h2 h3 h6
  rw [h.swap y z] at h2 h4 h5
  rw [h.swap x z] at h2 h4 h6
  revert h1 h2 h3 h4 h5 h6
  cases c x y <;> cases c y z <;> cases c x z <;> simp [Tri, Ordering.swap]

theorem Spec.CmpLaws.of_tri {c : A → A → Ordering} (hs : ∀ a b, c b a = (c a b).swap) (ht : ∀ x y z, Tri (c x y) (c y z) (c x z)) : CmpLaws c :=
  ⟨hs, fun a b d hab hbd => tri_le (ht a b d) hab hbd⟩

theorem Spec.CmpLaws.then {c d : A → A → Ordering} (hc : CmpLaws c) (hd : CmpLaws d) : CmpLaws (fun a b => (c a b).then (d a b)) :=
  .of_tri (fun a b => by show (c b a).then (d b a) = _; rw [hc.swap a b, hd.swap a b, Ordering.swap_then])
    (fun x y z => tri_then _ _ _ _ _ _ (hc.tri x y z) (hd.tri x y z))

theorem Spec.CmpLaws.on {c : A → A → Ordering} (hc : CmpLaws c) (f : B → A) : CmpLaws (fun a b => c (f a) (f b)) :=
  ⟨fun a b => hc.swap (f a) (f b), fun a b d => hc.trans (f a) (f b) (f d)⟩

theorem Spec.CmpLaws.flip {c : A → A → Ordering} (hc : CmpLaws c) : CmpLaws (fun a b => c b a) :=
  ⟨fun a b => hc.swap b a, fun a b d h1 h2 => hc.trans d b a h2 h1⟩

theorem Spec.CmpLaws.nat : CmpLaws (compare : Nat → Nat → Ordering) := by
  refine ⟨fun a b => by rw [Std.OrientedOrd.eq_swap (a := a) (b := b), Ordering.swap_swap], fun a b c h1 h2 => ?_⟩
  simp only [ne_eq, Nat.compare_eq_gt] at *
  omega

theorem Spec.CmpLaws.vec {c : A → A → Ordering} (hc : CmpLaws c) : CmpLaws (vecCmp c) := by
  refine .of_tri ?_ ?_
  · intro a
    induction a with
    | nil => intro b; cases b <;> rfl
    | cons a l ih =>
      intro b
      cases b with
      | nil => rfl
      | cons b m => simp only [vecCmp]; rw [hc.swap a b, ih, Ordering.swap_then]
  · intro x
    induction x with
    | nil =>
      intro y z
      cases y <;> cases z <;> simp only [vecCmp] <;> simp [Tri, eq_comm]
    | cons a l ih =>
      intro y z
      cases y with
      | nil => cases z <;> simp only [vecCmp] <;> simp [Tri, eq_comm]
      | cons b m =>
        cases z with
        | nil => simp only [vecCmp]; simp [Tri, eq_comm]
        | cons d n => simp only [vecCmp]; exact tri_then _ _ _ _ _ _ (hc.tri _ _ _) (ih _ _)

theorem Spec.CmpAgrees.nat : CmpAgrees (fun a b : Nat => a == b) compare := fun a b => by simp [Nat.compare_eq_eq]

theorem then_eq {x y : Ordering} : x.then y = .eq ↔ x = .eq ∧ y = .eq := Ordering.then_eq_eq

theorem Spec.CmpAgrees.vec {e : A → A → Bool} {c : A → A → Ordering} (h : CmpAgrees e c) : CmpAgrees (vecEq e) (vecCmp c) := by
  intro a
  induction a with
  | nil => intro b; cases b <;> simp [vecCmp, vecEq]
  | cons a l ih =>
    intro b
    cases b with
    | nil => simp [vecCmp, vecEq]
    | cons b m => simp only [vecCmp, vecEq, then_eq, h a b, ih m, Bool.and_eq_true]

/-- An order that agrees with `==` makes it an equivalence. -/
theorem Spec.EqLaws.of_cmp {e : A → A → Bool} {c : A → A → Ordering} (h : CmpAgrees e c) (hc : CmpLaws c) : EqLaws e where
  refl a := by
    rw [← h a a]
    have := hc.swap a a
    revert this; cases c a a <;> simp
  symm a b := by
    rw [← h a b, ← h b a, hc.swap a b]
    intro hh; rw [hh]; rfl
  trans a b d := by
    rw [← h a b, ← h b d, ← h a d]
    intro h1 h2
    rw [(hc.tri a b d).1 h1, h2]

/-! ### `==` -/

theorem Spec.EqLaws.vec {e : A → A → Bool} (h : EqLaws e) : EqLaws (vecEq e) where
  refl a := by induction a with
    | nil => rfl
    | cons a l ih => simp [vecEq, h.refl, ih]
  symm a := by
    induction a with
    | nil => intro b; cases b <;> simp [vecEq]
    | cons a l ih =>
      intro b
      cases b with
      | nil => simp [vecEq]
      | cons b m => simp only [vecEq, Bool.and_eq_true]; exact fun hh => ⟨h.symm _ _ hh.1, ih _ hh.2⟩
  trans a := by
    induction a with
    | nil => intro b d; cases b <;> cases d <;> simp [vecEq]
    | cons a l ih =>
      intro b d
      cases b with
      | nil => simp [vecEq]
      | cons b m =>
        cases d with
        | nil => simp [vecEq]
        | cons d n => simp only [vecEq, Bool.and_eq_true]; exact fun h1 h2 => ⟨h.trans _ _ _ h1.1 h2.1, ih _ _ h1.2 h2.2⟩

theorem Spec.EqLaws.and {e f : A → A → Bool} (he : EqLaws e) (hf : EqLaws f) : EqLaws (fun a b => e a b && f a b) where
  refl a := by simp [he.refl, hf.refl]
  symm a b := by simp only [Bool.and_eq_true]; exact fun h => ⟨he.symm _ _ h.1, hf.symm _ _ h.2⟩
  trans a b c := by simp only [Bool.and_eq_true]; exact fun h k => ⟨he.trans _ _ _ h.1 k.1, hf.trans _ _ _ h.2 k.2⟩

theorem Spec.EqLaws.on {e : A → A → Bool} (he : EqLaws e) (f : B → A) : EqLaws (fun a b => e (f a) (f b)) :=
  ⟨fun _ => he.refl _, fun _ _ => he.symm _ _, fun _ _ _ => he.trans _ _ _⟩

/-! ### `hash` -/

theorem Spec.HashAgrees.vec {e : A → A → Bool} {h : A → List Nat} (hh : HashAgrees e h) : HashAgrees (vecEq e) (vecFeed h) := by
  have key : ∀ a b, vecEq e a b = true → a.length = b.length ∧ a.flatMap h = b.flatMap h := by
    intro a
    induction a with
    | nil => intro b; cases b <;> simp [vecEq]
    | cons a l ih =>
      intro b
      cases b with
      | nil => simp [vecEq]
      | cons b m =>
        simp only [vecEq, Bool.and_eq_true]
        intro hab
        obtain ⟨h1, h2⟩ := ih m hab.2
        simp [h1, h2, hh a b hab.1]
  intro a b hab
  obtain ⟨h1, h2⟩ := key a b hab
  rw [vecFeed, vecFeed, h1, h2]

/-! ### `partial_cmp` -/

theorem pAnd_some (x y : Ordering) : pAnd (some x) (some y) = some (x.then y) := by cases x <;> cases y <;> rfl
theorem pOr_some (x y : Ordering) : pOr (some x) (some y) = some (x.then y) := by cases x <;> cases y <;> rfl

theorem Spec.PartialAgrees.vec {p : A → A → Option Ordering} {c : A → A → Ordering} (h : PartialAgrees p c) : PartialAgrees (vecPcmp p) (vecCmp c) := by
  intro a
  induction a with
  | nil => intro b; cases b <;> rfl
  | cons a l ih =>
    intro b
    cases b with
    | nil => rfl
    | cons b m => rw [vecPcmp, h a b, ih m, pAnd_some, vecCmp]

/-! ### push-downs -/

theorem Pushdown.cmp_laws {c : A → A → Ordering} (hc : CmpLaws c) : CmpLaws (Pushdown.cmp c) := by
  refine .of_tri ?_ ?_
  · intro a
    induction a with
    | empty => intro b; cases b <;> rfl
    | cons a l ih =>
      intro b
      cases b with
      | empty => rfl
      | cons b m => simp only [Pushdown.cmp]; rw [hc.swap a b, ih, Ordering.swap_then]
  · intro x
    induction x with
    | empty => intro y z; cases y <;> cases z <;> simp only [Pushdown.cmp] <;> simp [Tri, eq_comm]
    | cons a l ih =>
      intro y z
      cases y with
      | empty => cases z <;> simp only [Pushdown.cmp] <;> simp [Tri, eq_comm]
      | cons b m =>
        cases z with
        | empty => simp only [Pushdown.cmp]; simp [Tri, eq_comm]
        | cons d n => simp only [Pushdown.cmp]; exact tri_then _ _ _ _ _ _ (hc.tri _ _ _) (ih _ _)

theorem Pushdown.cmp_eq {c : A → A → Ordering} {P : A → A → Prop} (h : ∀ a b, c a b = .eq ↔ P a b) : ∀ x y : Pushdown A,
    Pushdown.cmp c x y = .eq ↔ match x, y with
      | .empty, .empty => True
      | .cons a l, .cons b m => P a b ∧ Pushdown.cmp c l m = .eq
      | _, _ => False := by
  intro x y
  cases x <;> cases y <;> simp [Pushdown.cmp, then_eq, h]

theorem Pushdown.cmp_agrees {e : A → A → Bool} {c : A → A → Ordering} (h : CmpAgrees e c) : CmpAgrees (Pushdown.eq e) (Pushdown.cmp c) := by
  intro x
  induction x with
  | empty => intro y; cases y <;> simp [Pushdown.cmp, Pushdown.eq]
  | cons a l ih => intro y; cases y <;> simp [Pushdown.cmp, Pushdown.eq, then_eq, h _ _, ih]

theorem Pushdown.eq_laws {e : A → A → Bool} (h : EqLaws e) : EqLaws (Pushdown.eq e) where
  refl a := by induction a with
    | empty => rfl
    | cons a l ih => simp [Pushdown.eq, h.refl, ih]
  symm a := by
    induction a with
    | empty => intro b; cases b <;> simp [Pushdown.eq]
    | cons a l ih =>
      intro b
      cases b with
      | empty => simp [Pushdown.eq]
      | cons b m => simp only [Pushdown.eq, Bool.and_eq_true]; exact fun hh => ⟨h.symm _ _ hh.1, ih _ hh.2⟩
  trans a := by
    induction a with
    | empty => intro b d; cases b <;> cases d <;> simp [Pushdown.eq]
    | cons a l ih =>
      intro b d
      cases b with
      | empty => simp [Pushdown.eq]
      | cons b m =>
        cases d with
        | empty => simp [Pushdown.eq]
        | cons d n => simp only [Pushdown.eq, Bool.and_eq_true]; exact fun h1 h2 => ⟨h.trans _ _ _ h1.1 h2.1, ih _ _ h1.2 h2.2⟩

theorem Pushdown.pcmp_agrees {p : A → A → Option Ordering} {c : A → A → Ordering} (h : PartialAgrees p c) :
    PartialAgrees (Pushdown.pcmp p) (Pushdown.cmp c) := by
  intro a
  induction a with
  | empty => intro b; cases b <;> rfl
  | cons a l ih =>
    intro b
    cases b with
    | empty => rfl
    | cons b m => rw [Pushdown.pcmp, h a b, ih m, pAnd_some, Pushdown.cmp]

/-! ### tree stacks -/

theorem Forest.cmp_swap {o : A → A → Ordering} (ho : CmpLaws o) (f : Forest A) : ∀ g, Forest.cmp o g f = (Forest.cmp o f g).swap := by
  induction f with
  | nil => intro g; cases g <;> rfl
  | vac f ih => intro g; cases g with
    | nil => rfl
    | vac g => simp only [Forest.cmp]; exact ih g
    | occ w d g => rfl
  | occ v c f ihc ihf => intro g; cases g with
    | nil => rfl
    | vac g => rfl
    | occ w d g => simp only [Forest.cmp]; rw [ho.swap v w, ihc d, ihf g, Ordering.swap_then, Ordering.swap_then]

theorem Forest.cmp_tri {o : A → A → Ordering} (ho : CmpLaws o) (f : Forest A) :
    ∀ g h, Tri (Forest.cmp o f g) (Forest.cmp o g h) (Forest.cmp o f h) := by
  induction f with
  | nil => intro g h; cases g <;> cases h <;> simp only [Forest.cmp] <;> simp [Tri, eq_comm]
  | vac f ih =>
    intro g h
    cases g <;> cases h <;> simp only [Forest.cmp] <;> first | exact ih _ _ | simp [Tri, eq_comm]
  | occ v c f ihc ihf =>
    intro g h
    cases g <;> cases h <;> simp only [Forest.cmp] <;>
      first
      | exact tri_then _ _ _ _ _ _ (tri_then _ _ _ _ _ _ (ho.tri _ _ _) (ihc _ _)) (ihf _ _)
      | simp [Tri, eq_comm]

theorem Forest.cmp_laws {o : A → A → Ordering} (ho : CmpLaws o) : CmpLaws (Forest.cmp o) := .of_tri (fun f g => Forest.cmp_swap ho f g) (Forest.cmp_tri ho)

theorem Forest.cmp_agrees {e : A → A → Bool} {o : A → A → Ordering} (h : CmpAgrees e o) : CmpAgrees (Forest.eq e) (Forest.cmp o) := by
  intro f
  induction f with
  | nil => intro g; cases g <;> simp [Forest.cmp, Forest.eq]
  | vac f ih => intro g; cases g <;> simp [Forest.cmp, Forest.eq, ih]
  | occ v c f ihc ihf => intro g; cases g <;> simp [Forest.cmp, Forest.eq, then_eq, h _ _, ihc, ihf]

theorem Forest.pcmp_agrees {p : A → A → Option Ordering} {o : A → A → Ordering} (h : PartialAgrees p o) : PartialAgrees (Forest.pcmp p) (Forest.cmp o) := by
  intro f
  induction f with
  | nil => intro g; cases g <;> rfl
  | vac f ih => intro g; cases g <;> first | rfl | exact ih _
  | occ v c f ihc ihf => intro g; cases g <;> first | rfl | (simp only [Forest.pcmp, Forest.cmp, h _ _, ihc, ihf, pOr_some, pAnd_some])

theorem framesCmp_laws {o : A → A → Ordering} (ho : CmpLaws o) : CmpLaws (framesCmp o) := by
  refine .of_tri ?_ ?_
  · intro a
    induction a with
    | nil => intro b; cases b <;> rfl
    | cons f ps ih =>
      intro b
      cases b with
      | nil => rfl
      | cons g qs =>
        simp only [framesCmp]
        rw [CmpLaws.nat.swap f.index g.index, ho.swap f.value g.value, ih qs, (Forest.cmp_laws ho).swap f.children g.children]
        simp only [Ordering.swap_then]
  · intro x
    induction x with
    | nil => intro y z; cases y <;> cases z <;> simp only [framesCmp] <;> simp [Tri, eq_comm]
    | cons f ps ih =>
      intro y z
      cases y with
      | nil => cases z <;> simp only [framesCmp] <;> simp [Tri, eq_comm]
      | cons g qs =>
        cases z with
        | nil => simp only [framesCmp]; simp [Tri, eq_comm]
        | cons k rs =>
          simp only [framesCmp]
          exact tri_then _ _ _ _ _ _ (CmpLaws.nat.tri _ _ _) (tri_then _ _ _ _ _ _ (ho.tri _ _ _) (tri_then _ _ _ _ _ _ (ih _ _) (Forest.cmp_tri ho _ _ _)))

theorem framesCmp_agrees {e : A → A → Bool} {o : A → A → Ordering} (h : CmpAgrees e o) : CmpAgrees (framesEq e) (framesCmp o) := by
  intro x
  induction x with
  | nil => intro y; cases y <;> simp [framesCmp, framesEq]
  | cons f ps ih =>
    intro y
    cases y with
    | nil => simp [framesCmp, framesEq]
    | cons g qs => simp [framesCmp, framesEq, then_eq, h _ _, ih, Forest.cmp_agrees h _ _, Nat.compare_eq_eq, and_assoc]

theorem framesPcmp_agrees {p : A → A → Option Ordering} {o : A → A → Ordering} (h : PartialAgrees p o) : PartialAgrees (framesPcmp p) (framesCmp o) := by
  intro x
  induction x with
  | nil => intro y; cases y <;> rfl
  | cons f ps ih =>
    intro y
    cases y with
    | nil => rfl
    | cons g qs => simp only [framesPcmp, framesCmp, h _ _, ih qs, Forest.pcmp_agrees h _ _, pOr_some, pAnd_some]

theorem Forest.eq_refl {e : A → A → Bool} (h : ∀ a, e a a = true) (f : Forest A) : Forest.eq e f f = true := by
  induction f <;> simp_all [Forest.eq]

/-! ### grammars -/

theorem LetterT.cmp_laws {cN : N → N → Ordering} {cT : T → T → Ordering} (hN : CmpLaws cN) (hT : CmpLaws cT) : CmpLaws (LetterT.cmp cN cT) := by
  refine .of_tri ?_ ?_
  · intro a b; cases a <;> cases b <;> simp only [LetterT.cmp] <;> first | exact hN.swap _ _ | exact hT.swap _ _ | rfl
  · intro a b c; cases a <;> cases b <;> cases c <;> simp only [LetterT.cmp] <;>
      first | exact hN.tri _ _ _ | exact hT.tri _ _ _ | simp [Tri, eq_comm]

theorem LetterT.cmp_agrees {eN : N → N → Bool} {eT : T → T → Bool} {cN : N → N → Ordering} {cT : T → T → Ordering} (hN : CmpAgrees eN cN)
    (hT : CmpAgrees eT cT) : CmpAgrees (LetterT.eq eN eT) (LetterT.cmp cN cT) := by
  intro a b; cases a <;> cases b <;> simp [LetterT.cmp, LetterT.eq, hN _ _, hT _ _]

theorem LetterT.hash_agrees {eN : N → N → Bool} {eT : T → T → Bool} {hN : N → List Nat} {hT : T → List Nat} (h : HashAgrees eN hN) (k : HashAgrees eT hT) :
    HashAgrees (LetterT.eq eN eT) (LetterT.feed hN hT) := by
  intro a b hab
  cases a <;> cases b <;> simp only [LetterT.eq, reduceCtorEq] at hab
  · rw [LetterT.feed, LetterT.feed, h _ _ hab]
  · rw [LetterT.feed, LetterT.feed, k _ _ hab]

theorem LetterT.eq_laws {eN : N → N → Bool} {eT : T → T → Bool} (h : EqLaws eN) (k : EqLaws eT) : EqLaws (LetterT.eq eN eT) where
  refl a := by cases a <;> simp [LetterT.eq, h.refl, k.refl]
  symm a b := by cases a <;> cases b <;> simp only [LetterT.eq] <;> first | exact h.symm _ _ | exact k.symm _ _ | exact fun x => x
  trans a b c := by
    cases a <;> cases b <;> cases c <;> simp only [LetterT.eq] <;> first | exact h.trans _ _ _ | exact k.trans _ _ _ | simp

theorem VarT.cmp_laws {cT : T → T → Ordering} (hT : CmpLaws cT) : CmpLaws (VarT.cmp cT) := by
  refine .of_tri ?_ ?_
  · intro a b; cases a <;> cases b <;> simp only [VarT.cmp] <;>
      first | exact hT.swap _ _ | rfl | (rename_i i j k l; rw [CmpLaws.nat.swap i k, CmpLaws.nat.swap j l, Ordering.swap_then])
  · intro a b c; cases a <;> cases b <;> cases c <;> simp only [VarT.cmp] <;>
      first | exact hT.tri _ _ _ | exact tri_then _ _ _ _ _ _ (CmpLaws.nat.tri _ _ _) (CmpLaws.nat.tri _ _ _) | simp [Tri, eq_comm]

theorem VarT.cmp_agrees {eT : T → T → Bool} {cT : T → T → Ordering} (hT : CmpAgrees eT cT) : CmpAgrees (VarT.eq eT) (VarT.cmp cT) := by
  intro a b; cases a <;> cases b <;> simp [VarT.cmp, VarT.eq, hT _ _, then_eq, Nat.compare_eq_eq]

theorem VarT.hash_agrees {eT : T → T → Bool} {hT : T → List Nat} (k : HashAgrees eT hT) : HashAgrees (VarT.eq eT) (VarT.feed hT) := by
  intro a b hab
  cases a <;> cases b <;> simp only [VarT.eq, reduceCtorEq, Bool.and_eq_true, beq_iff_eq] at hab
  · rw [hab.1, hab.2]
  · rw [VarT.feed, VarT.feed, k _ _ hab]

theorem VarT.eq_laws {eT : T → T → Bool} (k : EqLaws eT) : EqLaws (VarT.eq eT) where
  refl a := by cases a <;> simp [VarT.eq, k.refl]
  symm a b := by
    cases a <;> cases b <;> simp only [VarT.eq] <;> first | exact k.symm _ _ | exact fun x => x | (simp only [Bool.and_eq_true, beq_iff_eq]; exact fun h => ⟨h.1.symm, h.2.symm⟩)
  trans a b c := by
    cases a <;> cases b <;> cases c <;> simp only [VarT.eq] <;>
      first | exact k.trans _ _ _ | (simp only [Bool.and_eq_true, beq_iff_eq]; exact fun h h' => ⟨h.1.trans h'.1, h.2.trans h'.2⟩) | simp

end Rustomata
