import Verif.Spec.McfgCommand
import Verif.Proofs.CsCommand
import Verif.Proofs.Prefix
import Verif.Props.TsaOnce

/-!
# The command `mcfg parse --negra`
-/

namespace Rustomata
open Spec
variable {N T W H : Type _}

/-- Derivations without weights. -/
theorem derives_key {rules : List (PMCFGRule N T W)} {A : N} {d : DTree (PMCFGRule N T W)} {v : List (List T)} (hd : Derives rules A d v) :
    ∃ d' : DTree (PMCFGRule N T Unit), Derives (rules.map PMCFGRule.key) A d' v ∧ ∀ p, d'.at? p = (d.at? p).map PMCFGRule.key := by
  refine derives_induct (P := fun A d v => ∃ d' : DTree (PMCFGRule N T Unit), Derives (rules.map PMCFGRule.key) A d' v ∧
    ∀ p, d'.at? p = (d.at? p).map PMCFGRule.key) ?_ hd
  intro r ds args v hr hl1 hl2 ih hv
  have hch : ∃ ds' : List (DTree (PMCFGRule N T Unit)), DerivesAll (rules.map PMCFGRule.key) r.tail ds' args ∧
      List.Forall₂ (fun (d : DTree (PMCFGRule N T W)) (d' : DTree (PMCFGRule N T Unit)) => ∀ p, d'.at? p = (d.at? p).map PMCFGRule.key) ds ds' := by
    clear hv
    generalize r.tail = As at *
    induction As generalizing ds args with
    | nil =>
      obtain rfl := List.eq_nil_of_length_eq_zero hl1
      obtain rfl := List.eq_nil_of_length_eq_zero hl2
      exact ⟨[], .nil, .nil⟩
    | cons A As ihA =>
      cases ds with
      | nil => simp at hl1
      | cons d ds =>
        cases args with
        | nil => simp at hl2
        | cons x args =>
          obtain ⟨_, d', h1, h2⟩ := ih 0 A d x rfl rfl rfl
          obtain ⟨ds', h3, h4⟩ := ihA ds args (by simpa using hl1) (by simpa using hl2) fun i A d v e1 e2 e3 => ih (i + 1) A d v e1 e2 e3
          exact ⟨d' :: ds', .cons h1 h3, .cons h2 h4⟩
  obtain ⟨ds', h1, h2⟩ := hch
  refine ⟨.node r.key ds', .node (r := r.key) (List.mem_map.2 ⟨r, hr, rfl⟩) h1 hv, fun p => ?_⟩
  cases p with
  | nil => rfl
  | cons i p =>
    simp only [DTree.at?]
    have : ∀ i : Nat, Option.Rel (fun (d : DTree (PMCFGRule N T W)) (d' : DTree (PMCFGRule N T Unit)) => ∀ p, d'.at? p = (d.at? p).map PMCFGRule.key) ds[i]? ds'[i]? := by
      clear * - h2
      induction h2 with
      | nil => intro i; simp
      | cons h _ ih =>
        intro i
        cases i with
        | zero => exact .some h
        | succ i => exact ih i
    have hi := this i
    generalize ds[i]? = x at hi
    generalize ds'[i]? = y at hi
    cases hi with
    | none => rfl
    | some h => exact h p

theorem exportOf_key {showN : N → List Nat} {m : List Nat → Option (PMCFGRule N (List Nat) W)} {sentence names : List (List Nat)} {id : Nat} {text : List Nat}
    (h : ExportOf showN (fun p => (m p).map PMCFGRule.key) sentence names id text) : ExportOf showN m sentence names id text := by
  obtain ⟨v, nodes, ls, ns, h1, h2, h3, h4, h5, h6, h7, h8⟩ := h
  refine ⟨v, nodes, ls, ns, ?_, h2, h3, h4, h5, h6.imp fun p l h => ?_, h7.imp fun p l h => ?_, h8⟩
  · unfold Yield at h1 ⊢
    simpa [Function.comp_def, PMCFGRule.key] using h1
  · obtain ⟨r, e1, e2⟩ := h
    obtain ⟨r', e3, rfl⟩ := Option.map_eq_some_iff.1 e1
    exact ⟨r', e3, e2⟩
  · obtain ⟨r, e1, e2⟩ := h
    obtain ⟨r', e3, rfl⟩ := Option.map_eq_some_iff.1 e1
    exact ⟨r', e3, e2⟩

theorem toAst_sorted {X : Type _} (l : GornTree (PosState X)) {m : GornTree X} (h : toAbstractSyntaxTree l = some m) : m.Sorted := by
  unfold toAbstractSyntaxTree at h
  have : ∀ (l : List (List Nat × PosState X)) (acc m : GornTree X), acc.Sorted → (l.foldlM (init := acc) fun acc p =>
      match p.1 with
      | [] => some acc
      | 0 :: rest =>
        match p.2 with
        | .position x _ _ => some (acc.insert rest x)
        | _ => none
      | _ :: _ => some acc) = some m → m.Sorted := by
    intro l
    induction l with
    | nil =>
      intro acc m ha h
      cases h
      exact ha
    | cons p l ih =>
      intro acc m ha h
      rw [List.foldlM_cons] at h
      obtain ⟨acc', h1, h2⟩ := Option.bind_eq_some_iff.1 h
      refine ih acc' m ?_ h2
      split at h1
      · cases h1; exact ha
      · split at h1
        · cases h1; exact GornTree.sorted_insert ha _ _
        · cases h1
      · cases h1; exact ha
  exact this l [] m (by simp [GornTree.Sorted]) h

/-- The export of a derivation that is shown by a tree stack. -/
theorem shown_export {rules : List (PMCFGRule (List Nat) (List Nat) W)} {S : List Nat} {d : DTree (PMCFGRule (List Nat) (List Nat) W)} {w : List (List Nat)}
    (hd : Derives rules S d [w]) (hsep : ∀ r ∈ rules, TerminalSeparated r.composition)
    (hroot : ∀ r ∈ rules, r.head = S → ∀ t, VarT.t t ∉ r.composition.flatten) {s : TreeStack (TsaSymbol (List Nat) (List Nat))} (hs : Props.C68_shows s d)
    (id : Nat) : ∃ b, ((toAbstractSyntaxTree s.toTree.1).bind fun ast => (toNegra (fun s => s) (fun s => s) ast id none).map fun s => s ++ [10]) = some b ∧
      ExportOf (fun s => s) d.at? w w id b := by
  obtain ⟨m, m1, m2⟩ := hs
  obtain ⟨d', h1, h2⟩ := derives_key hd
  obtain ⟨r1, r2⟩ := derives_rules hd
  obtain ⟨s', h3, h4⟩ := derivation_export (W := Unit) (fun s => s) (toAst_sorted _ m1) (fun a => by rw [m2, h2]) h1 (withPos := false) (names := w)
    (fun a r hr => by
      rw [m2] at hr
      obtain ⟨r', hr', rfl⟩ := Option.map_eq_some_iff.1 hr
      exact hsep r' (r1 a r' hr'))
    (fun r hr t => by
      rw [m2] at hr
      obtain ⟨r', hr', rfl⟩ := Option.map_eq_some_iff.1 hr
      exact hroot r' (r1 _ r' hr') (r2 r' hr') t)
    id rfl (fun _ => rfl)
  rw [m1, Option.bind_some]
  simp only [Bool.false_eq_true, if_false] at h3
  rw [h3, Option.map_some]
  refine ⟨_, rfl, exportOf_key ?_⟩
  have : m.get = fun p => (d.at? p).map PMCFGRule.key := funext m2
  rw [← this]
  exact h4

end Rustomata
