import Verif.Proofs.Recognise
import Mathlib.Algebra.BigOperators.Group.Multiset.Basic

/-!
# Termination and absence of panics
-/

set_option linter.unusedSectionVars false

namespace Rustomata
open Spec
variable {A X K S I T W : Type _}

/-- Number of nodes of the search tree below `x` up to depth `n`. -/
def treeSize (succ : X → List X) : Nat → X → Nat
  | 0, _ => 1
  | n + 1, x => 1 + ((succ x).map (treeSize succ n)).sum

theorem treeSize_stable {succ : X → List X} {m : X → Nat} {P : X → Prop} (hP : ∀ x, P x → ∀ y ∈ succ x, P y ∧ m y < m x) (k : Nat) :
    ∀ x, P x → m x ≤ k → treeSize succ k x = treeSize succ (m x) x := by
  induction k using Nat.strong_induction_on with
  | _ k ih =>
    intro x hx hk
    have hnil : m x = 0 → succ x = [] := by
      intro h0
      cases hs : succ x with
      | nil => rfl
      | cons y ys =>
        have := (hP x hx y (by simp [hs])).2
        omega
    cases k with
    | zero => rw [Nat.le_zero.1 hk]
    | succ k =>
      cases hm : m x with
      | zero => simp [treeSize, hnil hm]
      | succ j =>
        simp only [treeSize]
        congr 2
        refine List.map_congr_left ?_
        intro y hy
        have h1 := hP x hx y hy
        rw [ih k (by omega) y h1.1 (by omega)]
        by_cases hj : j = k
        · subst hj; rw [ih j (by omega) y h1.1 (by omega)]
        · rw [ih j (by omega) y h1.1 (by omega)]

/-- If successors are strictly smaller in some measure, the search ends after finitely many steps. -/
theorem Search.terminates {G : Agenda A X} {content : A → Multiset X} (hG : G.Sound content) (succ : X → List X)
    (P : X → Prop) (m : X → Nat) (hP : ∀ x, P x → ∀ y ∈ succ x, P y ∧ m y < m x) (a : A) (ha : ∀ x ∈ content a, P x) :
    ∃ N, ∀ n ≥ N, G.pop (Search.run G succ n a).2 = none := by
  let size : X → Nat := fun x => treeSize succ (m x) x
  have hsize : ∀ x, P x → size x = 1 + ((succ x).map size).sum := by
    intro x hx
    have := treeSize_stable hP (m x + 1) x hx (by omega)
    show treeSize succ (m x) x = _
    rw [← this]
    simp only [treeSize]
    congr 2
    refine List.map_congr_left ?_
    intro y hy
    have h1 := hP x hx y hy
    exact treeSize_stable hP (m x) y h1.1 (by omega)
  have main : ∀ (n : Nat) (a : A), (∀ x ∈ content a, P x) → ((content a).map size).sum ≤ n →
      G.pop (Search.run G succ n a).2 = none := by
    intro n
    induction n with
    | zero =>
      intro a hx hs
      simp only [Search.run]
      cases hp : G.pop a with
      | none => rfl
      | some p =>
        obtain ⟨x, a'⟩ := p
        exfalso
        have hc := hG.pop_some _ _ _ hp
        rw [hc] at hs hx
        rw [Multiset.map_cons, Multiset.sum_cons, hsize x (hx x (by simp))] at hs
        omega
    | succ n ih =>
      intro a hx hs
      unfold Search.run Search.next
      cases hp : G.pop a with
      | none => exact hp
      | some p =>
        obtain ⟨x, a'⟩ := p
        simp only
        have hc := hG.pop_some _ _ _ hp
        rw [hc] at hs hx
        have hxP := hx x (by simp)
        rw [Multiset.map_cons, Multiset.sum_cons, hsize x hxP] at hs
        refine ih _ ?_ ?_
        · intro y hy
          replace hy := Multiset.mem_of_le (hG.extend _ _) hy
          rw [Multiset.mem_add, Multiset.mem_coe] at hy
          rcases hy with hy | hy
          · exact hx y (by simp [hy])
          · exact (hP x hxP y hy).1
        · obtain ⟨u, hu⟩ := Multiset.le_iff_exists_add.1 (hG.extend a' (succ x))
          have hle := congrArg (fun s => (s.map size).sum) hu
          simp only [Multiset.map_add, Multiset.sum_add, Multiset.map_coe, Multiset.sum_coe] at hle
          omega
  exact ⟨((content a).map size).sum, fun n hn => main n a ha hn⟩

namespace Automaton
variable [DecidableEq K] [DecidableEq T]

/-- If every transition reads something, recognition ends. -/
theorem recognise_terminates [Mul W] [One W] {G : Agenda A (Item S I T W)} {content : A → Multiset (Item S I T W)} (hG : G.Sound content)
    (empty : A) (M : Automaton K S I T W) (hread : ∀ t ∈ M.transitions, t.word ≠ []) (word : Option (List T)) :
    ∃ N, ∀ n ≥ N, ∀ out a, M.recognise G empty word n = some (out, a) → G.pop a = none := by
  obtain ⟨N, hN⟩ := Search.terminates hG (noPanic M.successors) (fun _ => True) (fun i => i.conf.word.length) (by
    intro x _ y hy
    refine ⟨trivial, ?_⟩
    obtain ⟨t, ht, hst, _⟩ := mem_successors hy
    have := hst.word
    rw [this, List.length_append]
    have := List.length_pos_iff.2 (hread t ht)
    omega) (G.extend empty (M.initItem word)) (fun _ _ => trivial)
  refine ⟨N, fun n hn out a hrun => ?_⟩
  unfold recognise at hrun
  obtain ⟨⟨Y, b⟩, hr, he⟩ := Option.map_eq_some_iff.1 hrun
  simp only [Prod.mk.injEq] at he
  obtain ⟨_, rfl⟩ := he
  have := hN n hn
  rw [(Search.runP_run hr).1] at this
  exact this

/-- If all reachable configurations have a key, recognition does not panic. -/
theorem recognise_no_panic [Mul W] [One W] {G : Agenda A (Item S I T W)} {content : A → Multiset (Item S I T W)} (hG : G.Sound content)
    {empty : A} (hempty : content empty = 0) (M : Automaton K S I T W) (word : Option (List T))
    (hkey : ∀ w ts c, word = some w → IsRun M.apply M.transitions M.initial w ts c → ∃ k, M.key c = some k) (n : Nat) :
    ∃ out a, M.recognise G empty word n = some (out, a) := by
  have hstart : ∀ x ∈ content (G.extend empty (M.initItem word)),
      Reach (noPanic M.successors) (· ∈ M.initItem word) x := by
    intro x hx
    have := Multiset.mem_of_le (hG.extend _ _) hx
    rw [hempty, zero_add] at this
    exact .base (by simpa using this)
  have h1 := Search.runP_of_no_panic (G := G) (succ := M.successors) (n := n) (a := G.extend empty (M.initItem word)) (by
    intro x hx
    have h2 := (Search.run_reach hG (noPanic M.successors) _ n _ hstart).1 x hx
    obtain ⟨w, hw, hrun⟩ := reach_isRun h2
    obtain ⟨k, hk⟩ := hkey w _ _ hw hrun
    unfold successors
    rw [hk]
    exact ⟨_, rfl⟩)
  unfold recognise
  rw [h1]
  exact ⟨_, _, rfl⟩

end Automaton
end Rustomata
