import Verif.Proofs.Ord
import Verif.Proofs.TreeStackEq
import Verif.Proofs.EquivalenceRelation

/-!
# C63: equality, hashing and order
-/

namespace Rustomata.Props
open Rustomata Rustomata.Spec
variable {A B S T I N W X : Type _}

/-! ### configurations, transitions and items -/

/-- **C63** Configurations: `==` is an equivalence, equal configurations have equal hashes, `cmp` is a total preorder that first compares weights, and `partial_cmp` agrees
with it. Two configurations compare as equal iff they are equal and have equal weights. -/
theorem C63_configuration {eT : T → T → Bool} {eS : S → S → Bool} {hT : T → List Nat} {hS : S → List Nat} {cW : W → W → Ordering} {cT : T → T → Ordering}
    {cS : S → S → Ordering} {pW : W → W → Option Ordering} {pT : T → T → Option Ordering} {pS : S → S → Option Ordering} :
    (EqLaws eT → EqLaws eS → EqLaws (Configuration.eq (W := W) eT eS)) ∧
    (HashAgrees eT hT → HashAgrees eS hS → HashAgrees (Configuration.eq (W := W) eT eS) (Configuration.feed hT hS)) ∧
    (CmpLaws cW → CmpLaws cT → CmpLaws cS → CmpLaws (Configuration.cmp cW cT cS)) ∧
    (PartialAgrees pW cW → PartialAgrees pT cT → PartialAgrees pS cS → PartialAgrees (Configuration.pcmp pW pT pS) (Configuration.cmp cW cT cS)) ∧
    (CmpAgrees eT cT → CmpAgrees eS cS → ∀ x y : Configuration S T W,
      x.cmp cW cT cS y = .eq ↔ x.eq eT eS y = true ∧ cW x.weight y.weight = .eq) ∧
    (∀ x y : Configuration S T W, cW x.weight y.weight ≠ .eq → x.cmp cW cT cS y = cW x.weight y.weight) := by
  refine ⟨?_, ?_, ?_, ?_, ?_, ?_⟩
  · intro h k
    exact (h.vec.on Configuration.word).and (k.on Configuration.storage)
  · intro h k x y hxy
    simp only [Configuration.eq, Bool.and_eq_true] at hxy
    rw [Configuration.feed, Configuration.feed, HashAgrees.vec h _ _ hxy.1, k _ _ hxy.2]
  · intro h1 h2 h3
    exact (h1.on Configuration.weight).then (((CmpLaws.nat.flip.on fun x : Configuration S T W => x.word.length)).then
      ((h2.vec.on Configuration.word).then (h3.on Configuration.storage)))
  · intro h1 h2 h3 x y
    rw [Configuration.pcmp, h1, PartialAgrees.vec h2, h3, pOr_some, pOr_some, pOr_some, Configuration.cmp]
  · intro h1 h2 x y
    have hv := CmpAgrees.vec h1 x.word y.word
    simp only [Configuration.cmp, Configuration.eq, then_eq, hv, h2 _ _, Bool.and_eq_true, Nat.compare_eq_eq]
    constructor
    · rintro ⟨a, _, b, c⟩; exact ⟨⟨b, c⟩, a⟩
    · rintro ⟨⟨b, c⟩, a⟩
      refine ⟨a, ?_, b, c⟩
      have hl : ∀ l m : List T, vecEq eT l m = true → l.length = m.length := by
        intro l
        induction l with
        | nil => intro m; cases m <;> simp [vecEq]
        | cons a l ih => intro m; cases m <;> simp [vecEq]; exact fun _ h => ih _ h
      exact (hl _ _ b).symm
  · intro x y h
    rw [Configuration.cmp]
    revert h; cases cW x.weight y.weight <;> simp

/-- **C63** Transitions, likewise. -/
theorem C63_transition {eT : T → T → Bool} {eI : I → I → Bool} {hT : T → List Nat} {hI : I → List Nat} {cW : W → W → Ordering} {cT : T → T → Ordering}
    {cI : I → I → Ordering} {pW : W → W → Option Ordering} {pT : T → T → Option Ordering} {pI : I → I → Option Ordering} :
    (EqLaws eT → EqLaws eI → EqLaws (Transition.eq (W := W) eT eI)) ∧
    (HashAgrees eT hT → HashAgrees eI hI → HashAgrees (Transition.eq (W := W) eT eI) (Transition.feed hT hI)) ∧
    (CmpLaws cW → CmpLaws cT → CmpLaws cI → CmpLaws (Transition.cmp cW cT cI)) ∧
    (PartialAgrees pW cW → PartialAgrees pT cT → PartialAgrees pI cI → PartialAgrees (Transition.pcmp pW pT pI) (Transition.cmp cW cT cI)) ∧
    (CmpAgrees eT cT → CmpAgrees eI cI → ∀ x y : Transition I T W,
      x.cmp cW cT cI y = .eq ↔ x.eq eT eI y = true ∧ cW x.weight y.weight = .eq) := by
  refine ⟨?_, ?_, ?_, ?_, ?_⟩
  · intro h k
    exact (h.vec.on Transition.word).and (k.on Transition.instruction)
  · intro h k x y hxy
    simp only [Transition.eq, Bool.and_eq_true] at hxy
    rw [Transition.feed, Transition.feed, HashAgrees.vec h _ _ hxy.1, k _ _ hxy.2]
  · intro h1 h2 h3
    exact (h1.on Transition.weight).then ((h2.vec.on Transition.word).then (h3.on Transition.instruction))
  · intro h1 h2 h3 x y
    rw [Transition.pcmp, h1, PartialAgrees.vec h2, h3, pOr_some, pOr_some, Transition.cmp]
  · intro h1 h2 x y
    simp only [Transition.cmp, Transition.eq, then_eq, CmpAgrees.vec h1 _ _, h2 _ _, Bool.and_eq_true]
    tauto

/-- **C63** Items: `==` is an equivalence, `cmp` is a total preorder that first compares the weights of the configurations, `partial_cmp` agrees with it, and items that
compare as equal are equal. -/
theorem C63_item {eT : T → T → Bool} {eS : S → S → Bool} {eI : I → I → Bool} {cW : W → W → Ordering} {cT : T → T → Ordering} {cS : S → S → Ordering}
    {cI : I → I → Ordering} {pW : W → W → Option Ordering} {pT : T → T → Option Ordering} {pS : S → S → Option Ordering} {pI : I → I → Option Ordering} :
    (EqLaws eT → EqLaws eS → EqLaws eI → EqLaws (Item.eq (W := W) eT eS eI)) ∧
    (CmpLaws cW → CmpLaws cT → CmpLaws cS → CmpLaws cI → CmpLaws (Item.cmp cW cT cS cI)) ∧
    (PartialAgrees pW cW → PartialAgrees pT cT → PartialAgrees pS cS → PartialAgrees pI cI → PartialAgrees (Item.pcmp pW pT pS pI) (Item.cmp cW cT cS cI)) ∧
    (CmpAgrees eT cT → CmpAgrees eS cS → CmpAgrees eI cI → ∀ x y : Item S I T W, x.cmp cW cT cS cI y = .eq → x.eq eT eS eI y = true) ∧
    (∀ x y : Item S I T W, cW x.conf.weight y.conf.weight ≠ .eq → x.cmp cW cT cS cI y = cW x.conf.weight y.conf.weight) := by
  refine ⟨?_, ?_, ?_, ?_, ?_⟩
  · intro h1 h2 h3
    exact ((C63_configuration (hT := fun _ => []) (hS := fun _ => []) (cW := fun _ _ => .eq) (cT := fun _ _ => .eq) (cS := fun _ _ => .eq)
      (pW := fun _ _ => none) (pT := fun _ _ => none) (pS := fun _ _ => none)).1 h1 h2 |>.on Item.conf).and
      (Pushdown.eq_laws ((h1.vec.on Transition.word).and (h3.on Transition.instruction)) |>.on Item.run)
  · intro h1 h2 h3 h4
    exact ((h1.on Configuration.weight).then (((CmpLaws.nat.flip.on fun x : Configuration S T W => x.word.length)).then
      ((h2.vec.on Configuration.word).then (h3.on Configuration.storage))) |>.on Item.conf).then
      (Pushdown.cmp_laws ((h1.on Transition.weight).then ((h2.vec.on Transition.word).then (h4.on Transition.instruction))) |>.on Item.run)
  · intro h1 h2 h3 h4 x y
    have hc : x.conf.pcmp pW pT pS y.conf = some (x.conf.cmp cW cT cS y.conf) := by
      rw [Configuration.pcmp, h1, PartialAgrees.vec h2, h3, pOr_some, pOr_some, pOr_some, Configuration.cmp]
    have ht : PartialAgrees (Transition.pcmp pW pT pI) (Transition.cmp cW cT cI) := by
      intro x y
      rw [Transition.pcmp, h1, PartialAgrees.vec h2, h4, pOr_some, pOr_some, Transition.cmp]
    rw [Item.pcmp, hc, Pushdown.pcmp_agrees ht, pAnd_some, Item.cmp]
  · intro h1 h2 h3 x y h
    rw [Item.cmp, then_eq] at h
    rw [Item.eq, Bool.and_eq_true]
    refine ⟨?_, ?_⟩
    · have h' := h.1
      simp only [Configuration.cmp, then_eq, CmpAgrees.vec h1 _ _, h2 _ _] at h'
      simp [Configuration.eq, h'.2.2.1, h'.2.2.2]
    · have key : ∀ p q : Pushdown (Transition I T W), p.cmp (Transition.cmp cW cT cI) q = .eq → p.eq (Transition.eq eT eI) q = true := by
        intro p
        induction p with
        | empty => intro q; cases q <;> simp [Pushdown.cmp, Pushdown.eq]
        | cons a l ih =>
          intro q
          cases q with
          | empty => simp [Pushdown.cmp]
          | cons b m =>
            simp only [Pushdown.cmp, Pushdown.eq, then_eq, Bool.and_eq_true, Transition.cmp, CmpAgrees.vec h1 _ _, h3 _ _, Transition.eq]
            exact fun hh => ⟨⟨hh.1.2.1, hh.1.2.2⟩, ih _ hh.2⟩
      exact key _ _ h.2
  · intro x y h
    rw [Item.cmp, Configuration.cmp]
    revert h; cases cW x.conf.weight y.conf.weight <;> simp

/-- The claim for configurations as it is usually understood: `cmp` agrees with `==`. -/
def C63_configuration_claim : Prop :=
  ∀ (S T W : Type) (eT : T → T → Bool) (eS : S → S → Bool) (cW : W → W → Ordering) (cT : T → T → Ordering) (cS : S → S → Ordering),
    CmpLaws cW → CmpLaws cT → CmpLaws cS → CmpAgrees eT cT → CmpAgrees eS cS → CmpAgrees (Configuration.eq (W := W) eT eS) (Configuration.cmp cW cT cS)

/-- **C63** does not hold in general: `==` ignores the weights of configurations but `cmp` does not. -/
theorem C63_configuration_violated : ¬ C63_configuration_claim := by
  intro h
  have := (h Nat Nat Nat (· == ·) (· == ·) compare compare compare CmpLaws.nat CmpLaws.nat CmpLaws.nat CmpAgrees.nat CmpAgrees.nat ⟨[], 0, 1⟩ ⟨[], 0, 2⟩).2 rfl
  revert this; decide

/-- The same for transitions. -/
def C63_transition_claim : Prop :=
  ∀ (I T W : Type) (eT : T → T → Bool) (eI : I → I → Bool) (cW : W → W → Ordering) (cT : T → T → Ordering) (cI : I → I → Ordering),
    CmpLaws cW → CmpLaws cT → CmpLaws cI → CmpAgrees eT cT → CmpAgrees eI cI → CmpAgrees (Transition.eq (W := W) eT eI) (Transition.cmp cW cT cI)

/-- **C63** does not hold for transitions. -/
theorem C63_transition_violated : ¬ C63_transition_claim := by
  intro h
  have := (h Nat Nat Nat (· == ·) (· == ·) compare compare compare CmpLaws.nat CmpLaws.nat CmpLaws.nat CmpAgrees.nat CmpAgrees.nat ⟨[], 1, 0⟩ ⟨[], 2, 0⟩).2 rfl
  revert this; decide

/-- `partial_cmp` of configurations is a partial order if those of its parts are. -/
def C63_partial_cmp_claim : Prop :=
  ∀ (S T W : Type) (pW : W → W → Option Ordering) (pT : T → T → Option Ordering) (pS : S → S → Option Ordering), PartialLaws pW → PartialLaws pT → PartialLaws pS →
    PartialLaws (Configuration.pcmp pW pT pS)

/-- Numbers with one value that is not comparable, like the floating point numbers with `NaN`. -/
def nanCmp : Option Nat → Option Nat → Option Ordering
  | some a, some b => some (compare a b)
  | _, _ => none

theorem nanCmp_laws : PartialLaws nanCmp := by
  refine ⟨?_, ?_⟩
  · intro a b
    cases a <;> cases b <;> simp only [nanCmp, Option.map_none, Option.map_some]
    rename_i a b
    rw [CmpLaws.nat.swap a b]
  · intro a b c
    cases a <;> cases b <;> cases c <;> simp [nanCmp, Nat.compare_eq_lt]
    omega

theorem natPcmp_laws : PartialLaws (fun a b : Nat => some (compare a b)) := by
  refine ⟨?_, ?_⟩
  · intro a b
    simp only [Option.map_some]
    rw [CmpLaws.nat.swap a b]
  · intro a b c
    simp [Nat.compare_eq_lt]
    omega

/-- **C63** does not hold for weights that are not comparable: they are treated as equal, and then `<` is not transitive. -/
theorem C63_partial_cmp_violated : ¬ C63_partial_cmp_claim := by
  intro h
  have := (h Nat Nat (Option Nat) nanCmp (fun a b => some (compare a b)) (fun a b => some (compare a b)) nanCmp_laws natPcmp_laws natPcmp_laws).trans
    ⟨[0, 0], 0, some 2⟩ ⟨[0], 0, none⟩ ⟨[], 0, some 1⟩ (by decide) (by decide)
  revert this; decide

/-! ### rules -/

/-- **C63** Rules of context-free grammars: `==` and `hash` ignore the weight and agree; rules compare as equal iff they are equal and have equal weights. -/
theorem C63_cfg_rule {eN : N → N → Bool} {eT : T → T → Bool} {hN : N → List Nat} {hT : T → List Nat} {cN : N → N → Ordering} {cT : T → T → Ordering}
    {cW : W → W → Ordering} :
    (EqLaws eN → EqLaws eT → EqLaws (CFGRule.eq (W := W) eN eT)) ∧
    (HashAgrees eN hN → HashAgrees eT hT → HashAgrees (CFGRule.eq (W := W) eN eT) (CFGRule.feed hN hT)) ∧
    (CmpLaws cN → CmpLaws cT → CmpLaws cW → CmpLaws (CFGRule.cmp cN cT cW)) ∧
    (CmpAgrees eN cN → CmpAgrees eT cT → ∀ x y : CFGRule N T W, x.cmp cN cT cW y = .eq ↔ x.eq eN eT y = true ∧ cW x.weight y.weight = .eq) := by
  refine ⟨?_, ?_, ?_, ?_⟩
  · intro h k
    exact (h.on CFGRule.head).and ((LetterT.eq_laws h k).vec.on CFGRule.composition)
  · intro h k x y hxy
    simp only [CFGRule.eq, Bool.and_eq_true] at hxy
    rw [CFGRule.feed, CFGRule.feed, HashAgrees.vec (LetterT.hash_agrees h k) _ _ hxy.2, h _ _ hxy.1]
  · intro h1 h2 h3
    exact (h1.on CFGRule.head).then (((LetterT.cmp_laws h1 h2).vec.on CFGRule.composition).then (h3.on CFGRule.weight))
  · intro h1 h2 x y
    simp only [CFGRule.cmp, CFGRule.eq, then_eq, CmpAgrees.vec (LetterT.cmp_agrees h1 h2) _ _, h1 _ _, Bool.and_eq_true]
    tauto

/-- **C63** Rules of PMCFG, likewise. -/
theorem C63_pmcfg_rule {eN : N → N → Bool} {eT : T → T → Bool} {hN : N → List Nat} {hT : T → List Nat} {cN : N → N → Ordering} {cT : T → T → Ordering}
    {cW : W → W → Ordering} :
    (EqLaws eN → EqLaws eT → EqLaws (PMCFGRule.eq (W := W) eN eT)) ∧
    (HashAgrees eN hN → HashAgrees eT hT → HashAgrees (PMCFGRule.eq (W := W) eN eT) (PMCFGRule.feed hN hT)) ∧
    (CmpLaws cN → CmpLaws cT → CmpLaws cW → CmpLaws (PMCFGRule.cmp cN cT cW)) ∧
    (CmpAgrees eN cN → CmpAgrees eT cT → ∀ x y : PMCFGRule N T W, x.cmp cN cT cW y = .eq ↔ x.eq eN eT y = true ∧ cW x.weight y.weight = .eq) := by
  refine ⟨?_, ?_, ?_, ?_⟩
  · intro h k
    exact ((h.on PMCFGRule.head).and (h.vec.on PMCFGRule.tail)).and ((VarT.eq_laws k).vec.vec.on PMCFGRule.composition)
  · intro h k x y hxy
    simp only [PMCFGRule.eq, Bool.and_eq_true] at hxy
    rw [PMCFGRule.feed, PMCFGRule.feed, HashAgrees.vec (HashAgrees.vec (VarT.hash_agrees k)) _ _ hxy.2, HashAgrees.vec h _ _ hxy.1.2, h _ _ hxy.1.1]
  · intro h1 h2 h3
    exact (h1.on PMCFGRule.head).then ((h1.vec.on PMCFGRule.tail).then (((VarT.cmp_laws h2).vec.vec.on PMCFGRule.composition).then (h3.on PMCFGRule.weight)))
  · intro h1 h2 x y
    simp only [PMCFGRule.cmp, PMCFGRule.eq, then_eq, CmpAgrees.vec (CmpAgrees.vec (VarT.cmp_agrees h2)) _ _, CmpAgrees.vec h1 _ _, h1 _ _, Bool.and_eq_true]
    tauto

/-! ### push-downs and tree stacks -/

/-- **C63** Push-downs: the comparison of addresses does not change the result of `==`, as long as `==` of the symbols is reflexive. -/
theorem C63_pushdown_pointer {e : A → A → Bool} (he : ∀ a, e a a = true) (memory : Nat → RcPushdown A) (p q : RcPushdown A) (hp : Allocated memory p)
    (hq : Allocated memory q) : p.eq e q = p.forget.eq e q.forget := by
  induction p generalizing q with
  | empty => cases q <;> rfl
  | cons a r b ih =>
    cases q with
    | empty => rfl
    | cons a' r' b' =>
      simp only [RcPushdown.eq, RcPushdown.forget, Pushdown.eq]
      rw [ih _ hp.2 hq.2]
      by_cases hr : r = r'
      · subst hr
        obtain ⟨rfl, _⟩ := hp
        obtain ⟨rfl, _⟩ := hq
        have hrefl : ∀ x : Pushdown A, Pushdown.eq e x x = true := by
          intro x; induction x <;> simp_all [Pushdown.eq]
        simp [hrefl]
      · simp [beq_eq_false_iff_ne.2 hr]

/-- Without reflexivity (for instance for floating point numbers), sharing can be observed. -/
def C63_pointer_claim : Prop :=
  ∀ (A : Type) (e : A → A → Bool) (memory : Nat → RcPushdown A) (p q : RcPushdown A), Allocated memory p → Allocated memory q →
    p.eq e q = p.forget.eq e q.forget

theorem C63_pointer_violated : ¬ C63_pointer_claim := by
  intro h
  have := h Nat (fun a b => a == b && a != 0) (fun r => if r = 0 then .empty else .cons 0 0 .empty) (.cons 1 1 (.cons 0 0 .empty)) (.cons 1 1 (.cons 0 0 .empty))
    ⟨rfl, rfl, trivial⟩ ⟨rfl, rfl, trivial⟩
  revert this; decide

/-- **C63** Push-downs: `==` is an equivalence, `cmp` is a total preorder and agrees with `==`; `partial_cmp` agrees with `cmp`. -/
theorem C63_pushdown {e : A → A → Bool} {c : A → A → Ordering} {p : A → A → Option Ordering} :
    (EqLaws e → EqLaws (Pushdown.eq e)) ∧ (CmpLaws c → CmpLaws (Pushdown.cmp c)) ∧ (CmpAgrees e c → CmpAgrees (Pushdown.eq e) (Pushdown.cmp c)) ∧
    (PartialAgrees p c → PartialAgrees (Pushdown.pcmp p) (Pushdown.cmp c)) :=
  ⟨Pushdown.eq_laws, Pushdown.cmp_laws, Pushdown.cmp_agrees, Pushdown.pcmp_agrees⟩

/-- **C63** Tree stacks: the comparison of the addresses of parents does not change the result of `==`. -/
theorem C63_tree_stack_pointer {e : A → A → Bool} (he : ∀ a, e a a = true) (memory : Nat → A × RcParents A × Forest A) (p q : RcParents A)
    (hp : AllocatedParents memory p) (hq : AllocatedParents memory q) : p.eq e q = framesEq e p.forget q.forget := by
  induction p generalizing q with
  | none => cases q <;> rfl
  | some i r v ps c ih =>
    cases q with
    | none => rfl
    | some i' r' v' ps' c' =>
      simp only [RcParents.eq, RcParents.forget, framesEq]
      rw [ih _ hp.2 hq.2]
      by_cases hr : r = r'
      · subst hr
        have h := hp.1.symm.trans hq.1
        simp only [Prod.mk.injEq] at h
        obtain ⟨rfl, rfl, rfl⟩ := h
        have hrefl : ∀ x : List (Frame A), framesEq e x x = true := by
          intro x; induction x <;> simp_all [framesEq, Forest.eq_refl]
        simp [hrefl, he, Forest.eq_refl he]
      · simp [beq_eq_false_iff_ne.2 hr]

/-- **C63** Tree stacks: `cmp` is a total preorder and agrees with `==`, which is an equivalence; `partial_cmp` agrees with `cmp`. -/
theorem C63_tree_stack {e : A → A → Bool} {c : A → A → Ordering} {p : A → A → Option Ordering} (hc : CmpLaws c) (he : CmpAgrees e c) :
    EqLaws (TreeStack.eq e) ∧ CmpLaws (TreeStack.cmp c) ∧ CmpAgrees (TreeStack.eq e) (TreeStack.cmp c) ∧
    (PartialAgrees p c → PartialAgrees (TreeStack.pcmp p) (TreeStack.cmp c)) := by
  have h1 : CmpLaws (TreeStack.cmp c) := (hc.on TreeStack.value).then (((framesCmp_laws hc).on TreeStack.parents).then ((Forest.cmp_laws hc).on TreeStack.children))
  have h2 : CmpAgrees (TreeStack.eq e) (TreeStack.cmp c) := by
    intro x y
    simp only [TreeStack.cmp, TreeStack.eq, then_eq, he _ _, framesCmp_agrees he _ _, Forest.cmp_agrees he _ _, Bool.and_eq_true, and_assoc]
  refine ⟨EqLaws.of_cmp h2 h1, h1, h2, ?_⟩
  intro hp x y
  rw [TreeStack.pcmp, hp, framesPcmp_agrees hp, Forest.pcmp_agrees hp, pOr_some, pOr_some, TreeStack.cmp]

theorem vecEq_iff {e : A → A → Bool} (he : ∀ a b, e a b = true ↔ a = b) (l m : List A) : vecEq e l m = true ↔ l = m := by
  induction l generalizing m with
  | nil => cases m <;> simp [vecEq]
  | cons a l ih => cases m <;> simp [vecEq, he, ih]

theorem Forest.eq_iff {e : A → A → Bool} (he : ∀ a b, e a b = true ↔ a = b) (f g : Forest A) : f.eq e g = true ↔ f = g := by
  induction f generalizing g with
  | nil => cases g <;> simp [Forest.eq]
  | vac f ih => cases g <;> simp [Forest.eq, ih]
  | occ v c f ihc ihf => cases g <;> simp [Forest.eq, he, ihc, ihf, and_assoc]

/-- **C63** The meaning of `==` for tree stacks that are built with the operations of `TreeStack`: two of them are equal iff they show the same tree and the same pointer. -/
theorem C63_tree_stack_meaning {e : A → A → Bool} (he : ∀ a b, e a b = true ↔ a = b) {s t : TreeStack A} (hs : Reachable s) (ht : Reachable t) :
    s.eq e t = true ↔ view s = view t := by
  have hfr : ∀ ps qs : List (Frame A), framesEq e ps qs = true ↔ ps = qs := by
    intro ps
    induction ps with
    | nil => intro qs; cases qs <;> simp [framesEq]
    | cons f ps ih =>
      intro qs
      cases qs with
      | nil => simp [framesEq]
      | cons g qs =>
        obtain ⟨i, v, c⟩ := f
        obtain ⟨j, w, d⟩ := g
        simp only [framesEq, Bool.and_eq_true, beq_iff_eq, he, ih, Forest.eq_iff he, List.cons.injEq, Frame.mk.injEq]
        tauto
  have : s.eq e t = true ↔ s = t := by
    obtain ⟨ps, v, c⟩ := s
    obtain ⟨qs, w, d⟩ := t
    simp only [TreeStack.eq, Bool.and_eq_true, he, hfr, Forest.eq_iff he, TreeStack.mk.injEq]
    tauto
  rw [this]
  exact ⟨fun h => by rw [h], TreeStack.view_inj (TreeStack.reachable_wf hs) (TreeStack.reachable_wf ht) (TreeStack.reachable_canon hs) (TreeStack.reachable_canon ht)⟩

/-- **C63** `==` of Gorn trees: the same addresses with equal values. -/
theorem C63_gorn_tree {e : A → A → Bool} (he : ∀ a b, e a b = true ↔ a = b) {x y : GornTree A} (hx : (x.map Prod.fst).Pairwise (· < ·))
    (hy : (y.map Prod.fst).Pairwise (· < ·)) : x.eq e y = true ↔ ∀ p, x.get p = y.get p := by
  have h1 : x.eq e y = true ↔ x = y := by
    unfold GornTree.eq
    refine vecEq_iff ?_ x y
    rintro ⟨a, b⟩ ⟨c, d⟩
    simp [he]
  rw [h1]
  constructor
  · rintro rfl p; rfl
  · intro h
    have key : ∀ (x : GornTree A) (p : List Nat) (v : A), (x.map Prod.fst).Pairwise (· < ·) → (x.get p = some v ↔ (p, v) ∈ x) := by
      intro x p v hx
      induction x with
      | nil => simp [GornTree.get]
      | cons kv m ih =>
        obtain ⟨k, u⟩ := kv
        simp only [List.map_cons, List.pairwise_cons] at hx
        simp only [GornTree.get, List.mem_cons, Prod.mk.injEq]
        split
        · rename_i hk
          subst hk
          simp only [Option.some.injEq, true_and]
          constructor
          · intro h; exact .inl h.symm
          · rintro (h | h)
            · exact h.symm
            · exact absurd (hx.1 p (List.mem_map.2 ⟨_, h, rfl⟩)) (lt_irrefl _)
        · rename_i hk
          rw [ih hx.2]
          simp [hk]
    have hmem : ∀ a, a ∈ x ↔ a ∈ y := by
      rintro ⟨p, v⟩
      rw [← key x p v hx, ← key y p v hy, h]
    have hx' : x.Pairwise (fun a b => a.1 < b.1) := List.pairwise_map.1 hx
    have hy' : y.Pairwise (fun a b => a.1 < b.1) := List.pairwise_map.1 hy
    refine List.Perm.eq_of_pairwise (le := fun a b => a.1 < b.1) ?_ hx' hy' ?_
    · intro a b _ _ hab hba
      exact absurd (hab.trans hba) (lt_irrefl _)
    · refine (List.perm_ext_iff_of_nodup ?_ ?_).2 hmem
      · exact hx'.imp fun h e => by rw [e] at h; exact lt_irrefl _ h
      · exact hy'.imp fun h e => by rw [e] at h; exact lt_irrefl _ h

/-! ### the rest -/

/-- **C63** `Reverse` and `WeightedItem` inherit the laws of the weights; the order of `Reverse` is the reverse order. -/
theorem C63_weights {e : W → W → Bool} {c : W → W → Ordering} {p : W → W → Option Ordering} :
    (EqLaws e → EqLaws (Reverse.eq e) ∧ EqLaws (WeightedItem.eq (X := X) e)) ∧
    (CmpLaws c → CmpLaws (Reverse.cmp c) ∧ CmpLaws (WeightedItem.cmp (X := X) c)) ∧
    (CmpLaws c → CmpAgrees e c → CmpAgrees (Reverse.eq e) (Reverse.cmp c) ∧ CmpAgrees (WeightedItem.eq (X := X) e) (WeightedItem.cmp c)) ∧
    (PartialAgrees p c → PartialAgrees (Reverse.pcmp p) (Reverse.cmp c) ∧ PartialAgrees (WeightedItem.pcmp (X := X) p) (WeightedItem.cmp c)) ∧
    (CmpLaws c → ∀ a b : Reverse W, a.cmp c b = (c a.inner b.inner).swap) := by
  refine ⟨fun h => ⟨h.on Reverse.inner, h.on WeightedItem.weight⟩, fun h => ⟨h.flip.on Reverse.inner, h.on WeightedItem.weight⟩, ?_, ?_, ?_⟩
  · intro hc h
    refine ⟨fun a b => ?_, fun a b => h _ _⟩
    rw [Reverse.cmp, Reverse.eq, h]
    have hl := EqLaws.of_cmp h hc
    exact ⟨hl.symm _ _, hl.symm _ _⟩
  · intro h
    exact ⟨fun a b => h _ _, fun a b => h _ _⟩
  · intro h a b
    exact h.swap _ _

/-- **C63** Backtraces: `==` is an equivalence, equal backtraces have equal hashes, and `cmp` is a total preorder that agrees with `==`. -/
theorem C63_backtrace : EqLaws (Backtrace.same (W := W)) ∧ HashAgrees (Backtrace.same (W := W)) Backtrace.feed ∧ CmpLaws (Backtrace.cmp (W := W)) ∧
    CmpAgrees (Backtrace.same (W := W)) Backtrace.cmp ∧ PartialAgrees (Backtrace.pcmp (W := W)) Backtrace.cmp := by
  have h1 : CmpLaws (Backtrace.cmp (W := W)) := by
    refine .of_tri ?_ ?_
    · intro a b
      cases a <;> cases b <;> simp only [Backtrace.cmp] <;>
        first
        | rfl
        | exact CmpLaws.nat.swap _ _
        | (simp only [Ordering.swap_then, ← CmpLaws.nat.swap])
    · intro a b c
      cases a <;> cases b <;> cases c <;> simp only [Backtrace.cmp] <;>
        first
        | exact CmpLaws.nat.tri _ _ _
        | exact tri_then _ _ _ _ _ _ (CmpLaws.nat.flip.tri _ _ _) (CmpLaws.nat.tri _ _ _)
        | exact tri_then _ _ _ _ _ _ (CmpLaws.nat.flip.tri _ _ _) (tri_then _ _ _ _ _ _ (CmpLaws.nat.flip.tri _ _ _)
            (tri_then _ _ _ _ _ _ (CmpLaws.nat.tri _ _ _) (CmpLaws.nat.tri _ _ _)))
        | simp [Tri, eq_comm]
  have h2 : CmpAgrees (Backtrace.same (W := W)) Backtrace.cmp := by
    intro a b
    cases a <;> cases b <;> simp [Backtrace.cmp, Backtrace.same, then_eq, Nat.compare_eq_eq] <;> omega
  refine ⟨EqLaws.of_cmp h2 h1, ?_, h1, h2, fun _ _ => rfl⟩
  intro a b h
  cases a <;> cases b <;> simp_all [Backtrace.same, Backtrace.feed]

/-- The keys of a map that `new_safe` builds are distinct. -/
theorem newSafe_nodup [DecidableEq A] [DecidableEq B] {classes : List (B × List A)} {d : B} {r : EquivalenceRelation A B}
    (h : EquivalenceRelation.newSafe classes d = .ok r) : (r.map.map Prod.fst).Nodup := by
  have hm : ∀ (name : B) (vs : List A) (m m' : List (A × B)), EquivalenceRelation.addMembers name vs m = .ok m' → (m.map Prod.fst).Nodup → (m'.map Prod.fst).Nodup := by
    intro name vs
    induction vs with
    | nil => intro m m' h hn; simp only [EquivalenceRelation.addMembers, Except.ok.injEq] at h; rw [← h]; exact hn
    | cons v vs ih =>
      intro m m' h hn
      simp only [EquivalenceRelation.addMembers] at h
      cases hg : EquivalenceRelation.get m v with
      | some b => rw [hg] at h; simp at h
      | none =>
        rw [hg] at h
        refine ih _ _ h ?_
        have hv : v ∉ m.map Prod.fst := by
          intro hv
          obtain ⟨p, hp, rfl⟩ := List.mem_map.1 hv
          simp only [EquivalenceRelation.get, Option.map_eq_none_iff, List.find?_eq_none, decide_eq_true_eq] at hg
          exact hg p hp rfl
        rw [EquivalenceRelation.insert, EquivalenceRelation.upd_new _ _ _ hv, List.map_append, List.nodup_append]
        refine ⟨hn, by simp, ?_⟩
        intro a ha b hb
        simp only [List.map_cons, List.map_nil, List.mem_singleton] at hb
        rintro rfl
        exact hv (hb ▸ ha)
  have hc : ∀ (cs : List (B × List A)) (m m' : List (A × B)), EquivalenceRelation.addClasses d cs m = .ok m' → (m.map Prod.fst).Nodup → (m'.map Prod.fst).Nodup := by
    intro cs
    induction cs with
    | nil => intro m m' h hn; simp only [EquivalenceRelation.addClasses, Except.ok.injEq] at h; rw [← h]; exact hn
    | cons c cs ih =>
      intro m m' h hn
      obtain ⟨name, vs⟩ := c
      simp only [EquivalenceRelation.addClasses] at h
      split at h
      · cases h
      · split at h
        · rename_i m1 hm1
          exact ih _ _ h (hm _ _ _ _ hm1 hn)
        · cases h
  exact hc _ _ _ (EquivalenceRelation.newSafe_ok.1 h).1 (by simp)

/-- **C63** `==` of equivalence relations made with `new_safe`: two relations are equal iff they have the same default class and put every element into the same class. -/
theorem C63_equivalence_relation [DecidableEq A] [DecidableEq B] {e : B → B → Bool} (he : ∀ a b, e a b = true ↔ a = b) {cs ds : List (B × List A)} {b d : B}
    {x y : EquivalenceRelation A B} (hx : EquivalenceRelation.newSafe cs b = .ok x) (hy : EquivalenceRelation.newSafe ds d = .ok y) :
    x.eq e y = true ↔ x.default = y.default ∧ ∀ a, x.project a = y.project a := by
  have nx := newSafe_nodup hx
  have ny := newSafe_nodup hy
  have key : ∀ (m : List (A × B)) (a : A) (b : B), (m.map Prod.fst).Nodup → (EquivalenceRelation.get m a = some b ↔ (a, b) ∈ m) := by
    intro m a b hn
    induction m with
    | nil => simp [EquivalenceRelation.get]
    | cons kv m ih =>
      obtain ⟨k, u⟩ := kv
      simp only [List.map_cons, List.nodup_cons] at hn
      have ih' := ih hn.2
      simp only [EquivalenceRelation.get] at ih' ⊢
      simp only [List.find?_cons, List.mem_cons, Prod.mk.injEq]
      by_cases hk : k = a
      · subst hk
        simp only [decide_true, Option.map_some, Option.some.injEq, true_and]
        constructor
        · intro h; exact .inl h.symm
        · rintro (h | h)
          · exact h.symm
          · exact absurd (List.mem_map.2 ⟨_, h, rfl⟩) hn.1
      · simp only [hk, decide_false, ih', Ne.symm (Ne.intro hk), false_and, false_or]
  have nd : ∀ {cs : List (B × List A)} {b : B} {x : EquivalenceRelation A B}, EquivalenceRelation.newSafe cs b = .ok x →
      ∀ a v, EquivalenceRelation.get x.map a = some v → v ≠ x.default := by
    intro cs b x hx a v hv
    obtain ⟨h1, rfl⟩ := EquivalenceRelation.newSafe_ok.1 hx
    rcases (EquivalenceRelation.addClasses_get h1 a v).1 hv with ⟨ms, h2, _⟩ | h2
    · exact ((EquivalenceRelation.addClasses_ok _ _ _).1 ⟨_, h1⟩).1 _ h2
    · simp [EquivalenceRelation.get] at h2
  have hsub : EquivalenceRelation.subMap e x.map y.map = true ↔ ∀ a ∈ x.map, a ∈ y.map := by
    rw [EquivalenceRelation.subMap, List.all_eq_true]
    refine forall_congr' fun kv => forall_congr' fun _ => ?_
    obtain ⟨k, u⟩ := kv
    rw [← key y.map k u ny]
    cases EquivalenceRelation.get y.map k with
    | none => simp
    | some b => simp [he, eq_comm]
  have nodx : x.map.Nodup := List.Nodup.of_map _ nx
  have nody : y.map.Nodup := List.Nodup.of_map _ ny
  rw [EquivalenceRelation.eq, Bool.and_eq_true, Bool.and_eq_true, he, beq_iff_eq, hsub]
  refine and_congr_right fun hd => ?_
  have hget : (∀ a, x.project a = y.project a) ↔ ∀ a, EquivalenceRelation.get x.map a = EquivalenceRelation.get y.map a := by
    constructor
    · intro h a
      have ha := h a
      simp only [EquivalenceRelation.project] at ha
      cases hxa : EquivalenceRelation.get x.map a with
      | none =>
        cases hya : EquivalenceRelation.get y.map a with
        | none => rfl
        | some v =>
          rw [hxa, hya] at ha
          exact absurd ha.symm (by rw [Option.getD_none, hd]; exact nd hy a v hya)
      | some u =>
        cases hya : EquivalenceRelation.get y.map a with
        | none =>
          rw [hxa, hya] at ha
          exact absurd ha (by rw [Option.getD_none, ← hd]; exact nd hx a u hxa)
        | some v => rw [hxa, hya] at ha; simpa using ha
    · intro h a
      rw [EquivalenceRelation.project, EquivalenceRelation.project, h, hd]
  rw [hget]
  constructor
  · rintro ⟨hl, hs⟩ a
    have hsubs : x.map ⊆ y.map := fun a ha => hs a ha
    have hp : x.map.Perm y.map := (List.subperm_of_subset nodx hsubs).perm_of_length_le (by omega)
    refine Option.ext fun v => ?_
    rw [key _ _ _ nx, key _ _ _ ny, hp.mem_iff]
  · intro h
    have hmem : ∀ a, a ∈ x.map ↔ a ∈ y.map := by
      rintro ⟨a, v⟩
      rw [← key _ _ _ nx, ← key _ _ _ ny, h]
    exact ⟨((List.perm_ext_iff_of_nodup nodx nody).2 hmem).length_eq, fun a ha => (hmem a).1 ha⟩

/-- The same for relations made from vectors of classes. -/
def C63_from_classes_claim : Prop :=
  ∀ (A B : Type) [DecidableEq A] [DecidableEq B] (cs ds : List (B × Option (List A))) (x y : EquivalenceRelation A B), EquivalenceRelation.fromClasses cs = some x →
    EquivalenceRelation.fromClasses ds = some y → x.default = y.default → (∀ a, x.project a = y.project a) → x.eq (fun a b => decide (a = b)) y = true

/-- **C63** does not hold for them: an element may be listed in the default class. -/
theorem C63_from_classes_violated : ¬ C63_from_classes_claim := by
  intro h
  have := h Nat Nat [(0, some [1]), (0, none)] [(0, none)] ⟨[(1, 0)], 0⟩ ⟨[], 0⟩ rfl rfl rfl (by
    intro a
    simp only [EquivalenceRelation.project, EquivalenceRelation.get, List.find?_cons, List.find?_nil]
    by_cases h : 1 = a <;> simp [h])
  revert this; decide

/-! ### the assumptions can be satisfied -/

example : EqLaws (fun a b : Nat => a == b) := EqLaws.of_cmp CmpAgrees.nat CmpLaws.nat
example : HashAgrees (fun a b : Nat => a == b) (fun a => [a]) := fun a b h => by simpa using h
example : PartialAgrees (fun a b : Nat => some (compare a b)) compare := fun _ _ => rfl
example : Allocated (fun r => if r = 0 then .empty else .cons 0 0 .empty) (.cons 1 1 (.cons 0 0 .empty) : RcPushdown Nat) := ⟨rfl, rfl, trivial⟩
example : Configuration.cmp compare compare compare (⟨[1], 0, 2⟩ : Configuration Nat Nat Nat) ⟨[1, 1], 0, 2⟩ = .gt := by decide
example : (Spec.Reachable (TreeStack.mk [⟨2, 7, .vac (.vac (.vac .nil))⟩] 8 .nil)) := .push (n := 2) (a := 8) (.new 7) rfl
example : ∃ r, EquivalenceRelation.newSafe [(1, [10, 11])] 0 = .ok r := ⟨⟨[(10, 1), (11, 1)], 0⟩, rfl⟩

/-! ### hashing distinguishes values -/

theorem hashSeparates_vec {e : A → A → Bool} {h : A → List Nat} (hh : HashSeparates e h) : HashSeparates (vecEq e) (vecFeed h) := by
  intro l
  induction l with
  | nil =>
    intro m r s hm
    cases m with
    | nil => simpa [vecFeed, vecEq] using hm
    | cons b m => simp [vecFeed] at hm
  | cons a l ih =>
    intro m r s hm
    cases m with
    | nil => simp [vecFeed] at hm
    | cons b m =>
      simp only [vecFeed, List.length_cons, List.flatMap_cons, List.cons_append, List.cons.injEq, Nat.add_right_cancel_iff, List.append_assoc] at hm
      obtain ⟨h1, h2⟩ := hh _ _ _ _ hm.2
      obtain ⟨h3, h4⟩ := ih m r s (by rw [vecFeed, vecFeed, List.cons_append, List.cons_append, hm.1, h2])
      exact ⟨by rw [vecEq, h1, h3]; rfl, h4⟩

theorem hashSeparates_letter {eN : N → N → Bool} {eT : T → T → Bool} {hN : N → List Nat} {hT : T → List Nat} (h : HashSeparates eN hN)
    (k : HashSeparates eT hT) : HashSeparates (LetterT.eq eN eT) (LetterT.feed hN hT) := by
  intro x y r s hxy
  cases x <;> cases y <;> simp only [LetterT.feed, List.cons_append, List.cons.injEq] at hxy
  · exact h _ _ _ _ hxy.2
  · exact absurd hxy.1 (by decide)
  · exact absurd hxy.1 (by decide)
  · exact k _ _ _ _ hxy.2

theorem hashSeparates_varT {eT : T → T → Bool} {hT : T → List Nat} (k : HashSeparates eT hT) : HashSeparates (VarT.eq eT) (VarT.feed hT) := by
  intro x y r s hxy
  cases x <;> cases y <;> simp only [VarT.feed, List.cons_append, List.cons.injEq, List.nil_append] at hxy
  · exact ⟨by simp [VarT.eq, hxy.2.1, hxy.2.2.1], hxy.2.2.2⟩
  · exact absurd hxy.1 (by decide)
  · exact absurd hxy.1 (by decide)
  · exact k _ _ _ _ hxy.2

/-- **C63** All parts that `==` compares are hashed: values for which the hashers get the same data are equal, if this holds for the type parameters. -/
theorem C63_hash_separates {eN : N → N → Bool} {eT : T → T → Bool} {eS : S → S → Bool} {eI : I → I → Bool} {hN : N → List Nat} {hT : T → List Nat}
    {hS : S → List Nat} {hI : I → List Nat} (sN : HashSeparates eN hN) (sT : HashSeparates eT hT) (sS : HashSeparates eS hS) (sI : HashSeparates eI hI) :
    HashSeparates (Configuration.eq (W := W) eT eS) (Configuration.feed hT hS) ∧ HashSeparates (Transition.eq (W := W) eT eI) (Transition.feed hT hI) ∧
    HashSeparates (CFGRule.eq (W := W) eN eT) (CFGRule.feed hN hT) ∧ HashSeparates (PMCFGRule.eq (W := W) eN eT) (PMCFGRule.feed hN hT) := by
  refine ⟨fun x y r s h => ?_, fun x y r s h => ?_, fun x y r s h => ?_, fun x y r s h => ?_⟩
  · simp only [Configuration.feed, List.append_assoc] at h
    obtain ⟨h1, h2⟩ := hashSeparates_vec sT _ _ _ _ h
    obtain ⟨h3, h4⟩ := sS _ _ _ _ h2
    exact ⟨by rw [Configuration.eq, h1, h3]; rfl, h4⟩
  · simp only [Transition.feed, List.append_assoc] at h
    obtain ⟨h1, h2⟩ := hashSeparates_vec sT _ _ _ _ h
    obtain ⟨h3, h4⟩ := sI _ _ _ _ h2
    exact ⟨by rw [Transition.eq, h1, h3]; rfl, h4⟩
  · simp only [CFGRule.feed, List.append_assoc] at h
    obtain ⟨h1, h2⟩ := sN _ _ _ _ h
    obtain ⟨h3, h4⟩ := hashSeparates_vec (hashSeparates_letter sN sT) _ _ _ _ h2
    exact ⟨by rw [CFGRule.eq, h1, h3]; rfl, h4⟩
  · simp only [PMCFGRule.feed, List.append_assoc] at h
    obtain ⟨h1, h2⟩ := sN _ _ _ _ h
    obtain ⟨h3, h4⟩ := hashSeparates_vec sN _ _ _ _ h2
    obtain ⟨h5, h6⟩ := hashSeparates_vec (hashSeparates_vec (hashSeparates_varT sT)) _ _ _ _ h4
    exact ⟨by rw [PMCFGRule.eq, h1, h3, h5]; rfl, h6⟩

/-- Numbers are distinguished. -/
example : HashSeparates (fun a b : Nat => a == b) (fun a => [a]) := by
  intro a b r s h
  simpa using h

/-- The position at which a binary backtrace splits the span. -/
def splitPoint : Backtrace W → Option Nat
  | .binary _ _ mid _ _ _ _ => some mid
  | _ => none

/-- **C63** Backtraces are equal iff the hasher gets the same data and the spans are split at the same position (which is not hashed). -/
theorem C63_backtrace_hash (a b : Backtrace W) : a.same b = true ↔ a.feed = b.feed ∧ splitPoint a = splitPoint b := by
  cases a <;> cases b <;> simp [Backtrace.same, Backtrace.feed, splitPoint] <;> tauto

end Rustomata.Props
