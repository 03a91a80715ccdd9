import Verif.Proofs.ComponentsRun
import Verif.Proofs.CfgEnds

/-!
# Lemmas: the grammar of the components generates what the PMCFG generates
-/

namespace Rustomata
open Spec
variable {N T W : Type _}

/-- Each component of a derived tuple is derived by the grammar of the components. -/
theorem component_yields {g : PMCFG N T W} {A : N} {d : DTree (PMCFGRule N T W)} {v : List (List T)} (h : Derives g.rules A d v) :
    ∀ (j : Nat) x, v[j]? = some x → Yields (componentCfg g) [.label (some A, j)] x := by
  refine Derives.rec (motive_1 := fun A _ v _ => ∀ (j : Nat) x, v[j]? = some x → Yields (componentCfg g) [.label (some A, j)] x)
    (motive_2 := fun As _ vs _ => ∀ (i : Nat) v, vs[i]? = some v → ∃ A, As[i]? = some A ∧ ∀ (j : Nat) x, v[j]? = some x → Yields (componentCfg g) [.label (some A, j)] x)
    ?_ ?_ ?_ h
  · intro r ds args v hr _ hv ih j x hx
    have hj := mapM_getElem? hv j
    rw [hx] at hj
    obtain ⟨c, hc, hs⟩ := Option.bind_eq_some_iff.1 hj.symm
    have hrule : (⟨(some r.head, j), c.map (componentLetter r.tail), r.weight⟩ : CFGRule (Option N × Nat) T W) ∈ (componentCfg g).rules :=
      mem_cutCfg.2 ⟨r, hr, j, c, hc, rfl⟩
    refine Yields.expand hrule (γ := []) ?_
    rw [List.append_nil]
    have key : ∀ (c : List (VarT T)) x, substAll (fun i => args[i]?) c = some x → Yields (componentCfg g) (c.map (componentLetter r.tail)) x := by
      intro c
      induction c with
      | nil => intro x hx; cases hx; exact Yields.nil _
      | cons y c ihc =>
        intro x hx
        unfold substAll at hx
        obtain ⟨l, hl, rfl⟩ := Option.map_eq_some_iff.1 hx
        rw [List.mapM_cons] at hl
        obtain ⟨a, ha, hl⟩ := Option.bind_eq_some_iff.1 hl
        obtain ⟨b, hb, hl⟩ := Option.bind_eq_some_iff.1 hl
        cases hl
        have h1 : Yields (componentCfg g) [componentLetter r.tail y] a := by
          cases y with
          | t z => cases ha; exact Yields.value _ z
          | var i j' =>
            obtain ⟨v', hv', hx'⟩ := Option.bind_eq_some_iff.1 (show (args[i]?).bind (fun v => v[j']?) = some a from ha)
            obtain ⟨B, hB, hy⟩ := ih i v' hv'
            simp only [componentLetter, hB]
            exact hy j' a hx'
        exact h1.append (ihc b.flatten (by unfold substAll; rw [hb]; rfl))
    exact key c x hs
  · intro i v hv; simp at hv
  · intro A As d ds v vs _ _ ih1 ih2 i v' hv'
    cases i with
    | zero => cases hv'; exact ⟨A, rfl, ih1⟩
    | succ i => exact ih2 i v' (by simpa using hv')

end Rustomata
