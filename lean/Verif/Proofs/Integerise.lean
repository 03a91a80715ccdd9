import Verif.Model.Pda
import Verif.Proofs.Outer

/-!
# Helper lemmas: integerisers
-/

set_option linter.unusedSectionVars false
set_option linter.unusedSimpArgs false

namespace Rustomata
open Relator Spec

namespace Integeriser
variable {A : Type _} [DecidableEq A]

/-- Well-formed: no value twice. -/
def Wf (i : Integeriser A) : Prop := i.values.Nodup

/-- Later state of the same integeriser. -/
def Le (i j : Integeriser A) : Prop := i.values <+: j.values

/-- `n` stands for `a`. -/
def Rel (i : Integeriser A) (n : Nat) (a : A) : Prop := i.findValue n = some a

theorem wf_new : (new : Integeriser A).Wf := List.nodup_nil

theorem Le.refl (i : Integeriser A) : i.Le i := List.prefix_refl _

theorem Le.trans {i j k : Integeriser A} (h1 : i.Le j) (h2 : j.Le k) : i.Le k := List.IsPrefix.trans h1 h2

theorem Rel.mono {i j : Integeriser A} (h : i.Le j) {n : Nat} {a : A} (hr : i.Rel n a) : j.Rel n a := by
  unfold Rel findValue at *
  obtain ⟨l, hl⟩ := h
  rw [← hl, List.getElem?_append_left]
  · exact hr
  · exact (List.getElem?_eq_some_iff.1 hr).1

theorem biUnique {i : Integeriser A} (h : i.Wf) : BiUnique i.Rel := by
  constructor
  · intro n a m h1 h2
    unfold Rel findValue at *
    have l1 := (List.getElem?_eq_some_iff.1 h1).1
    exact (List.getElem?_inj l1 h).1 (h1.trans h2.symm)
  · intro n a b h1 h2
    unfold Rel at *
    rw [h1] at h2
    exact Option.some.inj h2

theorem findKey_some {i : Integeriser A} (h : i.Wf) {a : A} {n : Nat} : i.findKey a = some n ↔ i.Rel n a := by
  unfold findKey Rel findValue
  rw [List.findIdx?_eq_some_iff_getElem]
  constructor
  · rintro ⟨hn, h1, _⟩
    rw [List.getElem?_eq_getElem hn]
    simpa using h1
  · intro h1
    obtain ⟨hn, h2⟩ := List.getElem?_eq_some_iff.1 h1
    refine ⟨hn, by simpa using h2, ?_⟩
    intro j hj he
    simp only [decide_eq_true_eq] at he
    have := (List.Nodup.getElem_inj_iff h (i := j) (hi := by omega) (j := n) (hj := hn)).1 (he.trans h2.symm)
    omega

theorem findKey_none {i : Integeriser A} {a : A} : i.findKey a = none ↔ a ∉ i.values := by
  unfold findKey
  rw [List.findIdx?_eq_none_iff]
  constructor
  · intro h ha
    simpa using h a ha
  · intro h x hx
    simp only [decide_eq_false_iff_not]
    rintro rfl
    exact h hx

theorem integerise_spec {i : Integeriser A} (h : i.Wf) (a : A) :
    (i.integerise a).1.Wf ∧ i.Le (i.integerise a).1 ∧ (i.integerise a).1.Rel (i.integerise a).2 a := by
  unfold integerise
  cases hk : i.findKey a with
  | some n => exact ⟨h, Le.refl i, (findKey_some h).1 hk⟩
  | none =>
    refine ⟨?_, ⟨[a], rfl⟩, ?_⟩
    · unfold Wf
      simp only
      rw [List.nodup_append]
      refine ⟨h, by simp, ?_⟩
      intro b hb c hc e
      rw [List.mem_singleton] at hc
      exact findKey_none.1 hk (by rw [← hc, ← e]; exact hb)
    · simp [Rel, findValue]

theorem integeriseList_spec {i : Integeriser A} (h : i.Wf) (l : List A) :
    (i.integeriseList l).1.Wf ∧ i.Le (i.integeriseList l).1 ∧
      List.Forall₂ (i.integeriseList l).1.Rel (i.integeriseList l).2 l := by
  induction l generalizing i with
  | nil => exact ⟨h, Le.refl i, .nil⟩
  | cons a l ih =>
    obtain ⟨h1, h2, h3⟩ := integerise_spec h a
    obtain ⟨h4, h5, h6⟩ := ih h1
    simp only [integeriseList]
    exact ⟨h4, h2.trans h5, .cons (h3.mono h5) h6⟩

theorem unList_iff {i : Integeriser A} {l : List Nat} {l' : List A} : i.unList l = some l' ↔ List.Forall₂ i.Rel l l' := by
  unfold unList
  rw [mapM_eq_some_iff]; rfl

theorem integerisePushdown_spec {i : Integeriser A} (h : i.Wf) (p : Pushdown A) :
    (i.integerisePushdown p).1.Wf ∧ i.Le (i.integerisePushdown p).1 ∧
      List.Forall₂ (i.integerisePushdown p).1.Rel (i.integerisePushdown p).2.toVec p.toVec := by
  unfold integerisePushdown
  induction p generalizing i with
  | empty => exact ⟨h, Le.refl i, .nil⟩
  | cons a l ih =>
    obtain ⟨h1, h2, h3⟩ := integerise_spec h a
    obtain ⟨h4, h5, h6⟩ := ih h1
    simp only [Pushdown.mapS, Pushdown.toVec_cons]
    exact ⟨h4, h2.trans h5, List.rel_append h6 (.cons (h3.mono h5) .nil)⟩

theorem unPushdown_iff {i : Integeriser A} {p : Pushdown Nat} {p' : Pushdown A} :
    i.unPushdown p = some p' ↔ List.Forall₂ i.Rel p.toVec p'.toVec := by
  induction p generalizing p' with
  | empty =>
    simp only [unPushdown, Pushdown.toVec_empty, List.forall₂_nil_left_iff, Option.some.injEq]
    constructor
    · rintro rfl; rfl
    · intro h; exact (Pushdown.toVec_injective (by simpa using h)).symm
  | cons n b ih =>
    simp only [unPushdown, Pushdown.toVec_cons]
    cases p' with
    | empty =>
      constructor
      · intro h
        split at h
        · simp at h
        · obtain ⟨_, _, h2⟩ := Option.map_eq_some_iff.1 h
          simp at h2
      · intro h
        have := h.length_eq
        simp at this
    | cons a b' =>
      simp only [Pushdown.toVec_cons]
      constructor
      · intro h
        split at h
        · simp at h
        · rename_i c hc
          obtain ⟨q, h1, h2⟩ := Option.map_eq_some_iff.1 h
          simp only [Pushdown.cons.injEq] at h2
          obtain ⟨rfl, rfl⟩ := h2
          exact List.rel_append (ih.1 h1) (.cons hc .nil)
      · intro h
        have hl : b.toVec.length = b'.toVec.length := by
          have := h.length_eq
          simpa using this
        have h1 := List.forall₂_take b.toVec.length h
        have h2 := List.forall₂_drop b.toVec.length h
        rw [List.take_left, hl, List.take_left] at h1
        rw [List.drop_left, hl, List.drop_left] at h2
        cases h2 with
        | cons h3 _ =>
          have h3' : i.findValue n = some a := h3
          rw [h3']
          simp only
          rw [ih.2 h1]; rfl

end Integeriser

/-- The laws of an `Integerisable1`: for some relation `R i y x` ("`y` stands for `x`"). -/
structure IntegLaws {A X Y : Type _} [DecidableEq A] (Z : Integerisable A X Y) (R : Integeriser A → Y → X → Prop) : Prop where
  mono : ∀ {i j y x}, i.Le j → R i y x → R j y x
  unInteg : ∀ {i y x}, Z.unInteg i y = some x ↔ R i y x
  biUnique : ∀ {i}, i.Wf → BiUnique (R i)
  integerise : ∀ {i}, i.Wf → ∀ x, (Z.integerise i x).1.Wf ∧ i.Le (Z.integerise i x).1 ∧ R (Z.integerise i x).1 (Z.integerise i x).2 x

section transitions
variable {A T I J S R W : Type _} [DecidableEq A] [DecidableEq T] {Z : Integerisable A I J} {RI : Integeriser A → J → I → Prop}

theorem Transition.integerise_spec (hZ : IntegLaws Z RI) {tI : Integeriser T} {aI : Integeriser A} (ht : tI.Wf) (ha : aI.Wf)
    (t : Transition I T W) :
    (Transition.integerise Z tI aI t).1.1.Wf ∧ (Transition.integerise Z tI aI t).1.2.Wf ∧
    tI.Le (Transition.integerise Z tI aI t).1.1 ∧ aI.Le (Transition.integerise Z tI aI t).1.2 ∧
    TrRel (Transition.integerise Z tI aI t).1.1.Rel (RI (Transition.integerise Z tI aI t).1.2) (Transition.integerise Z tI aI t).2 t := by
  obtain ⟨h1, h2, h3⟩ := Integeriser.integeriseList_spec ht t.word
  obtain ⟨h4, h5, h6⟩ := hZ.integerise ha t.instruction
  exact ⟨h1, h4, h2, h5, ⟨h3, rfl, h6⟩⟩

theorem TrRel.mono (hZ : IntegLaws Z RI) {tI tI' : Integeriser T} {aI aI' : Integeriser A} (ht : tI.Le tI') (ha : aI.Le aI')
    {x : Transition J Nat W} {y : Transition I T W} (h : TrRel tI.Rel (RI aI) x y) : TrRel tI'.Rel (RI aI') x y :=
  ⟨h.word.imp fun _ _ hr => hr.mono ht, h.weight, hZ.mono ha h.instruction⟩

theorem Transition.unInteg_iff (hZ : IntegLaws Z RI) {tI : Integeriser T} {aI : Integeriser A} {x : Transition J Nat W} {y : Transition I T W} :
    Transition.unInteg Z tI aI x = some y ↔ TrRel tI.Rel (RI aI) x y := by
  unfold Transition.unInteg
  constructor
  · intro h
    split at h
    · rename_i w i hw hi
      simp only [Option.some.injEq] at h
      subst h
      exact ⟨Integeriser.unList_iff.1 hw, rfl, hZ.unInteg.1 hi⟩
    · simp at h
  · rintro ⟨h1, h2, h3⟩
    rw [Integeriser.unList_iff.2 h1, hZ.unInteg.2 h3]
    obtain ⟨w, u, i⟩ := y
    simp only at h2
    rw [h2]

theorem itemMap_iff {Y : Integerisable A S R} {RS : Integeriser A → R → S → Prop} (hZ : IntegLaws Z RI) (hY : IntegLaws Y RS)
    {tI : Integeriser T} {aI : Integeriser A} {x : Item R J Nat W} {y : Item S I T W} :
    itemMap Z Y tI aI x = some y ↔ ItemRel tI.Rel (RS aI) (RI aI) x y := by
  have hv : ∀ (ts : List (Transition I T W)), (Pushdown.ofSlice ts).toVec = ts := by
    intro ts; unfold Pushdown.ofSlice; rw [Pushdown.toVec_foldl]; simp
  unfold itemMap
  constructor
  · intro h
    split at h
    · rename_i ts w s h1 h2 h3
      simp only [Option.some.injEq] at h
      subst h
      refine ⟨⟨Integeriser.unList_iff.1 h2, rfl, hY.unInteg.1 h3⟩, ?_⟩
      simp only [hv]
      exact (mapM_eq_some_iff.1 h1).imp fun a b hab => (Transition.unInteg_iff hZ).1 hab
    · simp at h
  · rintro ⟨⟨h1, h2, h3⟩, h4⟩
    have h5 : x.run.toVec.mapM (Transition.unInteg Z tI aI) = some y.run.toVec :=
      mapM_eq_some_iff.2 (h4.imp fun a b hab => (Transition.unInteg_iff hZ).2 hab)
    rw [h5, Integeriser.unList_iff.2 h1, hY.unInteg.2 h3]
    obtain ⟨⟨w, s, u⟩, p⟩ := y
    simp only at h2
    simp only [Option.some.injEq, Item.mk.injEq, h2, true_and]
    exact Pushdown.toVec_injective (hv _)

end transitions

/-! ### Maps with `entry` -/

namespace HMap
variable {K V : Type _} [DecidableEq K]

theorem upd_keys (k : K) (d : V) (f : V → V) (m : List (K × V)) :
    (upd k d f m).map Prod.fst = if k ∈ m.map Prod.fst then m.map Prod.fst else m.map Prod.fst ++ [k] := by
  induction m with
  | nil => simp [upd]
  | cons p m ih =>
    obtain ⟨k', v⟩ := p
    unfold upd
    by_cases h : k' = k
    · simp [h]
    · simp only [h, if_false, List.map_cons, ih, List.mem_cons]
      have : ¬ k = k' := fun e => h e.symm
      simp only [this, false_or]
      split <;> simp

theorem upd_nodup {k : K} {d : V} {f : V → V} {m : List (K × V)} (h : (m.map Prod.fst).Nodup) :
    ((upd k d f m).map Prod.fst).Nodup := by
  rw [upd_keys]
  split
  · exact h
  · rename_i hk
    rw [List.nodup_append]
    exact ⟨h, by simp, by simpa using fun a ha b => fun e => hk (by rw [← e]; exact List.mem_map.2 ⟨_, ‹_›, rfl⟩)⟩

/-- The entries after an update: those of other keys, and the updated one. -/
theorem mem_upd {k : K} {d : V} {f : V → V} {m : List (K × V)} (h : (m.map Prod.fst).Nodup) {p : K × V} :
    p ∈ upd k d f m ↔ (p ∈ m ∧ p.1 ≠ k) ∨ (p.1 = k ∧ ∃ v, (((k, v) ∈ m) ∨ (k ∉ m.map Prod.fst ∧ v = d)) ∧ p.2 = f v) := by
  induction m with
  | nil =>
    obtain ⟨a, b⟩ := p
    simp only [upd, List.mem_singleton, Prod.mk.injEq, List.not_mem_nil, false_and, List.map_nil, not_false_eq_true, true_and, false_or]
    constructor
    · rintro ⟨rfl, rfl⟩; exact ⟨rfl, d, rfl, rfl⟩
    · rintro ⟨rfl, v, rfl, rfl⟩; exact ⟨rfl, rfl⟩
  | cons q m ih =>
    obtain ⟨k', v⟩ := q
    obtain ⟨a, b⟩ := p
    simp only [List.map_cons, List.nodup_cons] at h
    have ih := ih h.2
    unfold upd
    by_cases hk : k' = k
    · subst hk
      simp only [if_true, List.mem_cons, Prod.mk.injEq, List.map_cons, true_and, true_or, not_true_eq_false, false_and, or_false]
      constructor
      · rintro (⟨rfl, rfl⟩ | hm)
        · exact .inr ⟨rfl, v, .inl rfl, rfl⟩
        · refine .inl ⟨.inr hm, ?_⟩
          rintro rfl
          exact h.1 (List.mem_map.2 ⟨_, hm, rfl⟩)
      · rintro (⟨⟨rfl, rfl⟩ | hm, hne⟩ | ⟨rfl, u, rfl | hm, rfl⟩)
        · exact absurd rfl hne
        · exact .inr hm
        · exact .inl ⟨rfl, rfl⟩
        · exact absurd (List.mem_map.2 ⟨_, hm, rfl⟩) h.1
    · have hk' : ¬ k = k' := fun e => hk e.symm
      simp only [hk, if_false, List.mem_cons, ih, Prod.mk.injEq, List.map_cons, hk', false_and, false_or]
      constructor
      · rintro (⟨rfl, rfl⟩ | h1 | h1)
        · exact .inl ⟨.inl ⟨rfl, rfl⟩, hk⟩
        · exact .inl ⟨.inr h1.1, h1.2⟩
        · exact .inr h1
      · rintro (⟨⟨rfl, rfl⟩ | h1, h2⟩ | h1)
        · exact .inl ⟨rfl, rfl⟩
        · exact .inr (.inl ⟨h1, h2⟩)
        · exact .inr (.inr h1)

end HMap

end Rustomata
