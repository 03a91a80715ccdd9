import Verif.Props.CsWords
import Verif.Proofs.CsUseful

/-!
# The construction of the automaton does not panic
-/

namespace Rustomata
open Spec

section
variable {N T W : Type _} [DecidableEq N] [DecidableEq T] [One W]

theorem CsBuild.rest_total {rid cid : Nat} {tail : List N} {q : Nat} (c : List (VarT T)) (hv : ∀ x ∈ c, ∃ i j, x = VarT.var i j ∧ i < tail.length) :
    ∀ (off : Nat) (b : CsBuild N T W) (left : Nat), ∃ b', CsBuild.rest rid cid tail q c off b left = some b' := by
  induction c with
  | nil => intro off b left; exact ⟨b, rfl⟩
  | cons x c ih =>
    intro off b left
    obtain ⟨i, j, rfl, hi⟩ := hv x (List.mem_cons_self ..)
    have ih := ih fun x hx => hv x (List.mem_cons_of_mem _ hx)
    rw [CsBuild.rest, List.getElem?_eq_getElem hi]
    cases c with
    | nil => exact ⟨_, rfl⟩
    | cons y c => exact ih _ _ _

theorem CsBuild.component_total {rid cid : Nat} {head : N} {tail : List N} {c : List (VarT T)} {w : W} (b : CsBuild N T W)
    (hc : (∃ a, c = [.t a]) ∨ (c ≠ [] ∧ ∀ x ∈ c, ∃ i j, x = VarT.var i j ∧ i < tail.length)) :
    ∃ b', CsBuild.component rid cid head tail c w b = some b' := by
  rcases hc with ⟨a, rfl⟩ | ⟨hne, hv⟩
  · exact ⟨_, rfl⟩
  · match c, hne, hv with
    | [x], _, hv =>
      obtain ⟨i, j, rfl, hi⟩ := hv x (by simp)
      unfold CsBuild.component
      simp only [List.getElem?_eq_getElem hi]
      exact ⟨_, rfl⟩
    | x :: y :: c, _, hv =>
      obtain ⟨i, j, rfl, hi⟩ := hv x (by simp)
      obtain ⟨i', j', rfl, hi'⟩ := hv y (by simp)
      unfold CsBuild.component
      simp only [List.getElem?_eq_getElem hi, List.getElem?_eq_getElem hi']
      cases c with
      | nil => exact ⟨_, rfl⟩
      | cons z c => exact CsBuild.rest_total _ (fun x hx => hv x (List.mem_cons_of_mem _ (List.mem_cons_of_mem _ hx))) _ _ _

theorem CsBuild.components_total {rid : Nat} {head : N} {tail : List N} (cs : List (List (VarT T) × W))
    (hc : ∀ x ∈ cs, (∃ a, x.1 = [.t a]) ∨ (x.1 ≠ [] ∧ ∀ y ∈ x.1, ∃ i j, y = VarT.var i j ∧ i < tail.length)) :
    ∀ (cid : Nat) (b : CsBuild N T W), ∃ b', CsBuild.components rid head tail cs cid b = some b' := by
  induction cs with
  | nil => intro cid b; exact ⟨b, rfl⟩
  | cons x cs ih =>
    intro cid b
    obtain ⟨b', hb'⟩ := CsBuild.component_total (rid := rid) (cid := cid) (head := head) (tail := tail) (w := x.2) b (hc x (List.mem_cons_self ..))
    obtain ⟨c, w⟩ := x
    rw [CsBuild.components, hb']
    exact ih (fun x hx => hc x (List.mem_cons_of_mem _ hx)) _ _

theorem CsBuild.rules_total {factorize : W → Nat → List W} (rs : List (Nat × PMCFGRule N T W))
    (hc : ∀ r ∈ rs, ∀ c ∈ r.2.composition, (∃ a, c = [.t a]) ∨ (c ≠ [] ∧ ∀ y ∈ c, ∃ i j, y = VarT.var i j ∧ i < r.2.tail.length)) :
    ∀ (b : CsBuild N T W), ∃ b', CsBuild.rules factorize rs b = some b' := by
  induction rs with
  | nil => intro b; exact ⟨b, rfl⟩
  | cons r rs ih =>
    intro b
    obtain ⟨rid, r⟩ := r
    obtain ⟨b', hb'⟩ := CsBuild.components_total (rid := rid) (head := r.head) (tail := r.tail) (r.composition.zip (factorize r.weight r.composition.length))
      (fun x hx => hc _ (List.mem_cons_self ..) _ (List.of_mem_zip hx).1) 0 b
    rw [CsBuild.rules, hb']
    exact ih (fun x hx => hc x (List.mem_cons_of_mem _ hx)) _

theorem fromGrammar_total {factorize : W → Nat → List W} {rules : List (PMCFGRule N T W)} {init : N} (hg : ParserGrammar rules init)
    {rs : List (Nat × PMCFGRule N T W)} (hrs : ∀ r ∈ rs, r.2 ∈ rules) : ∃ A, CsAutomaton.fromGrammar factorize rs init = some A := by
  obtain ⟨b, hb⟩ := CsBuild.rules_total (factorize := factorize) rs (fun r hr c hc => by
    obtain ⟨_, h2, h3⟩ := hg.normal r.2 (hrs r hr)
    rcases h3 with ⟨a, h3⟩ | h3
    · rw [h3, List.mem_singleton] at hc
      exact .inl ⟨a, hc⟩
    · refine .inr ⟨h2 c hc, fun y hy => ?_⟩
      obtain ⟨i, j, rfl⟩ := h3 c hc y hy
      obtain ⟨n, hn, _⟩ := (lcfrs_var hg.lcfrs (hrs r hr)).1 (mem_varsOf.2 ⟨c, hc, hy⟩)
      exact ⟨i, j, rfl, (List.getElem?_eq_some_iff.1 hn).1⟩) CsBuild.empty
  exact ⟨_, by rw [CsAutomaton.fromGrammar, hb]; rfl⟩

end

end Rustomata
