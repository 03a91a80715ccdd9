import Verif.Proofs.TsaOnce
import Verif.Proofs.CsGroup
import Verif.Proofs.McfgLcfrs
import Verif.Proofs.CsKBestRead
import Verif.Props.FromPmcfg

/-!
# Property C68: `recognise` with the automaton of a PMCFG returns each derivation once

Only property theorems and the examples that show their hypotheses to be satisfiable.
-/

namespace Rustomata.Props
open Rustomata Rustomata.Spec
variable {N T W H : Type _}

/-- The tree stack shows the derivation: `to_abstract_syntax_tree` gives its rules. -/
def C68_shows [DecidableEq N] [DecidableEq T] (s : TreeStack (TsaSymbol N T)) (d : DTree (PMCFGRule N T W)) : Prop :=
  ∃ m, toAbstractSyntaxTree s.toTree.1 = some m ∧ ∀ p, GornTree.get m p = (d.at? p).map PMCFGRule.key

/-- The full claim **C68**: for a grammar with the hypotheses of C28, each derivation of the word is shown by exactly one returned parse. -/
def C68_claim : Prop :=
  ∀ (g : PMCFG Nat Nat Nat) (a : TSA (TsaSymbol Nat Nat) Nat Nat), TSA.ofPmcfg g = some a → Ordered g.rules → (∀ r ∈ g.rules, ShortTrails r.composition) →
    (∀ r ∈ g.rules, r.composition ≠ []) → (∀ r ∈ g.rules, r.head ∈ g.initial → r.composition.length = 1) → g.rules.Nodup →
    ∀ w n out b, a.recognise (vecAgenda _) [] w n = some (out, b) → b = [] → ∀ S ∈ g.initial, ∀ d, Derives g.rules S d [w] →
    ∃ l₁ i l₂, out = l₁ ++ i :: l₂ ∧ C68_shows i.conf.storage d ∧ ∀ j ∈ l₁ ++ l₂, ¬ (C68_shows j.conf.storage d ∧ j.conf.weight = d.weight)

section
variable [CommMonoid W] [DecidableEq N] [DecidableEq T]

/-- **C68, partial**: if rules differ in more than their weights, then `recognise` returns no abstract syntax tree twice, whatever the agenda keeps of
the items (e.g. a beam) and however many steps are made; and no run is returned twice. -/
theorem C68_once_partial (g : PMCFG N T W) (a : TSA (TsaSymbol N T) T W) (ha : TSA.ofPmcfg g = some a) (ho : Ordered g.rules)
    (hs : ∀ r ∈ g.rules, ShortTrails r.composition) (hne : ∀ r ∈ g.rules, r.composition ≠ [])
    (hinit : ∀ r ∈ g.rules, r.head ∈ g.initial → r.composition.length = 1) (hk : (g.rules.map PMCFGRule.key).Nodup)
    {G : Agenda H (Item (TreeStack Nat) (TsInstr Nat) Nat W)} {content : H → Multiset (Item (TreeStack Nat) (TsInstr Nat) Nat W)} (hG : G.Sound content)
    {empty : H} (hempty : content empty = 0) {w : List T} {n : Nat} {out : List (Item (TreeStack (TsaSymbol N T)) (TsInstr (TsaSymbol N T)) T W)} {b : H}
    (hrun : a.recognise G empty w n = some (out, b)) : (out.map fun i => i.run.toVec).Nodup ∧
      out.Pairwise fun i j => i.run.toVec ≠ [] → j.run.toVec ≠ [] →
        ∀ m m', toAbstractSyntaxTree i.conf.storage.toTree.1 = some m → toAbstractSyntaxTree j.conf.storage.toTree.1 = some m' → ∃ p, m.get p ≠ m'.get p := by
  unfold TSA.ofPmcfg at ha
  obtain ⟨ts, hts, rfl⟩ := Option.map_eq_some_iff.1 ha
  have hnd : (out.map fun i => i.run.toVec).Nodup := by
    obtain ⟨L, h1, h2, h3, h4⟩ := TSA.new_represents (W := W) ts (TreeStack.new .initial)
    exact h4.once hG hempty (h2.nodup_iff.2 (tsaTransitions_once hts hk)) (fun i s => TsInstr.apply_length i s) hrun
  refine ⟨hnd, ?_⟩
  refine (List.pairwise_map.1 hnd).imp_of_mem fun {i j} hi hj hij ri rj m m' hm hm' => ?_
  by_contra he
  push Not at he
  refine hij ?_
  obtain ⟨_, h1⟩ := C16_tsa_sound ts _ hG hempty hrun i hi
  obtain ⟨_, h2⟩ := C16_tsa_sound ts _ hG hempty hrun j hj
  exact accepting_unique hts ho hs hne hinit hk h1 ri h2 rj fun m₁ m₂ e1 e2 => by
    rw [hm, Option.some_inj] at e1
    rw [hm', Option.some_inj] at e2
    subst e1 e2
    exact he

/-- **C68**: then a derivation is determined by the rules up to their weights. -/
theorem C68_derivation [One W] {rules : List (PMCFGRule N T W)} (hk : (rules.map PMCFGRule.key).Nodup) {S S' : N} {d d' : DTree (PMCFGRule N T W)}
    {v v' : List (List T)} (hd : Derives rules S d v) (hd' : Derives rules S' d' v') (h : ∀ p, (d.at? p).map PMCFGRule.key = (d'.at? p).map PMCFGRule.key) :
    d = d' := by
  refine at?_ext d d' fun p => ?_
  have := h p
  cases h1 : d.at? p with
  | none =>
    rw [h1, Option.map_none] at this
    rw [Option.map_eq_none_iff.1 this.symm]
  | some r =>
    rw [h1, Option.map_some] at this
    obtain ⟨r', h2, h3⟩ := Option.map_eq_some_iff.1 this.symm
    rw [h2, List.inj_on_of_nodup_map hk ((derives_rules hd).1 p r h1) ((derives_rules hd').1 p r' h2) h3.symm]

/-- **C68, partial**: one parse for each derivation. If rules differ in more than their weights and recognition has ended, then the parses with non-empty
runs are the derivations of the word: each of these parses shows one derivation, whose weight is the weight of the parse, and each derivation is shown by
exactly one of these parses. -/
theorem C68_one_to_one_partial [DecidableEq W] (g : PMCFG N T W) (a : TSA (TsaSymbol N T) T W) (ha : TSA.ofPmcfg g = some a) (ho : Ordered g.rules)
    (hs : ∀ r ∈ g.rules, ShortTrails r.composition) (hne : ∀ r ∈ g.rules, r.composition ≠ [])
    (hinit : ∀ r ∈ g.rules, r.head ∈ g.initial → r.composition.length = 1) (hk : (g.rules.map PMCFGRule.key).Nodup)
    {G : Agenda H (Item (TreeStack Nat) (TsInstr Nat) Nat W)} {content : H → Multiset (Item (TreeStack Nat) (TsInstr Nat) Nat W)} (hG : G.Lossless content)
    {empty : H} (hempty : content empty = 0) {w : List T} {n : Nat} {out : List (Item (TreeStack (TsaSymbol N T)) (TsInstr (TsaSymbol N T)) T W)} {b : H}
    (hrun : a.recognise G empty w n = some (out, b)) (hend : G.pop b = none) :
    ∃ ds : List (DTree (PMCFGRule N T W)), ds.Nodup ∧ (∀ d, d ∈ ds ↔ ∃ S ∈ g.initial, Derives g.rules S d [w]) ∧
      List.Forall₂ (fun i d => C68_shows i.conf.storage d ∧ i.conf.weight = d.weight) (out.filter fun i => !i.run.toVec.isEmpty) ds := by
  obtain ⟨_, hpw⟩ := C68_once_partial g a ha ho hs hne hinit hk hG.sound hempty hrun
  have hsound := C53_ast_sound_partial g a ha ho hs hne hinit hG.sound hempty hrun
  obtain ⟨ds, hds⟩ : ∃ ds, List.Forall₂ (fun i d => (C68_shows i.conf.storage d ∧ i.conf.weight = d.weight) ∧ ∃ S ∈ g.initial, Derives g.rules S d [w])
      (out.filter fun i => !i.run.toVec.isEmpty) ds := by
    refine exists_forall₂ _ fun i hi => ?_
    rw [List.mem_filter] at hi
    obtain ⟨m, m1, S, hS, d, d1, d2, d3⟩ := hsound i hi.1 (by simpa using hi.2)
    exact ⟨d, ⟨⟨m, m1, d3⟩, d2.symm⟩, S, hS, d1⟩
  have huniq : ∀ {i d d'}, C68_shows i d → C68_shows i d' → (∃ S ∈ g.initial, Derives g.rules S d [w]) → (∃ S ∈ g.initial, Derives g.rules S d' [w]) →
      d = d' := by
    rintro i d d' ⟨m, m1, m2⟩ ⟨m', m1', m2'⟩ ⟨S, _, hd⟩ ⟨S', _, hd'⟩
    rw [m1, Option.some_inj] at m1'
    subst m1'
    exact C68_derivation hk hd hd' fun p => by rw [← m2, m2']
  refine ⟨ds, ?_, fun d => ⟨fun h => ?_, ?_⟩, hds.imp fun _ _ h => h.1⟩
  · have h1 := hpw.filter (fun i => !i.run.toVec.isEmpty)
    have h2 : ∀ i ∈ out.filter (fun i => !i.run.toVec.isEmpty), i.run.toVec ≠ [] := fun i hi => by
      rw [List.mem_filter] at hi
      simpa using hi.2
    clear hpw
    generalize (out.filter fun i => !i.run.toVec.isEmpty) = l at hds h1 h2
    induction hds with
    | nil => simp
    | @cons i d l ds hh ht ih =>
      rw [List.pairwise_cons] at h1
      rw [List.nodup_cons]
      refine ⟨fun hm => ?_, ih h1.2 (fun i hi => h2 i (by simp [hi]))⟩
      obtain ⟨j, hj, hjd⟩ := forall₂_exists_left ht hm
      obtain ⟨m, m1, m2⟩ := hh.1.1
      obtain ⟨m', m1', m2'⟩ := hjd.1.1
      obtain ⟨p, hp⟩ := h1.1 j hj (h2 i (by simp)) (h2 j (by simp [hj])) m m' m1 m1'
      rw [m2, m2'] at hp
      exact hp rfl
  · obtain ⟨i, _, hi⟩ := forall₂_exists_left hds h
    exact hi.2
  · rintro ⟨S, hS, hd⟩
    obtain ⟨i, hi, hw, m, m1, m2⟩ := C53_ast_complete_partial g a ha ho hs hne hG hempty hrun hend hS hd
    have hr : i.run.toVec ≠ [] := by
      intro hr
      unfold TSA.ofPmcfg at ha
      obtain ⟨ts, hts, rfl⟩ := Option.map_eq_some_iff.1 ha
      obtain ⟨_, ⟨h1, _⟩, _⟩ := C16_tsa_sound ts _ hG.sound hempty hrun i hi
      rw [exec_iff, hr] at h1
      have h2 := h1.2.1
      simp only [List.map_nil, storages, List.mem_singleton, TSA.device] at h2
      rw [h2] at m1
      cases m1
      obtain ⟨r, h3⟩ := at?_root d
      have := m2 []
      rw [h3] at this
      cases this
    obtain ⟨d', hd', h1⟩ := forall₂_exists_right hds (List.mem_filter.2 ⟨hi, by simpa using hr⟩)
    rwa [huniq ⟨m, m1, m2⟩ h1.1.1 ⟨S, hS, hd⟩ h1.2]

end

namespace C68Example

/-- `S → [x₀,₀] (A)` and two rules `A → [0] ()` with the weights 2 and 3. -/
def g : PMCFG Nat Nat Nat := ⟨[0], [⟨0, [1], [[.var 0 0]], 1⟩, ⟨1, [], [[.t 0]], 2⟩, ⟨1, [], [[.t 0]], 3⟩]⟩

/-- The same grammar without the last rule. -/
def g' : PMCFG Nat Nat Nat := ⟨[0], [⟨0, [1], [[.var 0 0]], 1⟩, ⟨1, [], [[.t 0]], 2⟩]⟩

theorem ordered : Ordered g.rules := by
  intro r hr i A hA r' hr' hh
  simp only [g, List.mem_cons, List.not_mem_nil, or_false] at hr hr'
  rcases hr with rfl | rfl | rfl <;> rcases i with _ | i <;> simp at hA <;> subst hA <;>
    rcases hr' with rfl | rfl | rfl <;> simp at hh <;> simp [varsOf, List.range_succ]

theorem short : ∀ r ∈ g.rules, ShortTrails r.composition := by
  intro r hr
  simp only [g, List.mem_cons, List.not_mem_nil, or_false] at hr
  constructor
  · intro comp hc l a b e
    have := congrArg List.length e
    rcases hr with rfl | rfl | rfl <;> simp at hc <;> subst hc <;> simp at this
  · intro j hj l a hl
    rcases hr with rfl | rfl | rfl <;> rcases j with _ | j <;> simp at hj hl

end C68Example

open C68Example in
/-- **C68 is violated** by rules that differ only in their weights: for `S → [x₀,₀] (A)` and two rules `A → [0] ()` with the weights 2 and 3, the
transition that leaves a node for `A` is built for each of the two, so that the derivation with weight 2 is returned twice. -/
theorem C68_same_rules_violated : ¬ C68_claim := by
  intro h
  obtain ⟨a, ha⟩ : ∃ a, TSA.ofPmcfg g = some a := ⟨_, rfl⟩
  obtain ⟨out, hout⟩ : ∃ out, a.recognise (vecAgenda _) [] [0] 20 = some (out, []) := by
    have : (((TSA.ofPmcfg g).bind fun a => a.recognise (vecAgenda _) [] [0] 20).map fun x => x.2.isEmpty) = some true := by decide +kernel
    rw [ha, Option.bind_some] at this
    obtain ⟨⟨out, b⟩, h1, h2⟩ := Option.map_eq_some_iff.1 this
    exact ⟨out, by rw [h1, (List.isEmpty_iff.1 h2 : b = [])]⟩
  let d : DTree (PMCFGRule Nat Nat Nat) := .node ⟨0, [1], [[.var 0 0]], 1⟩ [.node ⟨1, [], [[.t 0]], 2⟩ []]
  let m : GornTree (PMCFGRule Nat Nat Unit) := [([], ⟨0, [1], [[.var 0 0]], ()⟩), ([0], ⟨1, [], [[.t 0]], ()⟩)]
  have hm : ∀ p, GornTree.get m p = (d.at? p).map PMCFGRule.key := by
    intro p
    rcases p with _ | ⟨_ | i, _ | ⟨j, p⟩⟩ <;> simp [m, d, GornTree.get, DTree.at?, PMCFGRule.key]
  have h2 : (out.filter fun i => i.conf.weight = 2 ∧ toAbstractSyntaxTree i.conf.storage.toTree.1 = some m).length = 2 := by
    have : (((TSA.ofPmcfg g).bind fun a => a.recognise (vecAgenda _) [] [0] 20).map fun x => (x.1.filter fun i => i.conf.weight = 2 ∧
        toAbstractSyntaxTree i.conf.storage.toTree.1 = some m).length) = some 2 := by decide +kernel
    rw [ha, Option.bind_some, hout, Option.map_some, Option.some_inj] at this
    exact this
  obtain ⟨l₁, i, l₂, rfl, _, h3⟩ := h g a ha ordered short (by decide) (by decide) (by decide) [0] 20 out [] hout rfl 0 (by decide) d
    (.node (args := [[[0]]]) (.head _) (.cons (.node (args := []) (.tail _ (.head _)) .nil rfl) .nil) rfl)
  have h4 : ∀ l : List (Item (TreeStack (TsaSymbol Nat Nat)) (TsInstr (TsaSymbol Nat Nat)) Nat Nat), (∀ j ∈ l, j ∈ l₁ ++ l₂) →
      (l.filter fun i => i.conf.weight = 2 ∧ toAbstractSyntaxTree i.conf.storage.toTree.1 = some m) = [] := by
    intro l hl
    rw [List.filter_eq_nil_iff]
    intro j hj hc
    simp only [decide_eq_true_eq] at hc
    exact h3 j (hl j hj) ⟨⟨m, hc.2, hm⟩, hc.1⟩
  rw [List.filter_append, h4 l₁ (fun j hj => by simp [hj]), List.nil_append, List.filter_cons] at h2
  have h5 := h4 l₂ (fun j hj => by simp [hj])
  split at h2 <;> rw [h5] at h2 <;> cases h2

open C68Example in
/-- The hypotheses of the partial theorems hold for the grammar without the last rule, and recognition of `0` ends with one parse. -/
example : (g'.rules.map PMCFGRule.key).Nodup ∧ Ordered g'.rules ∧ (∀ r ∈ g'.rules, ShortTrails r.composition) ∧ (∀ r ∈ g'.rules, r.composition ≠ []) ∧
    (∀ r ∈ g'.rules, r.head ∈ g'.initial → r.composition.length = 1) ∧
    ∃ a, TSA.ofPmcfg g' = some a ∧ ∃ out, a.recognise (vecAgenda _) [] [0] 20 = some (out, []) ∧ out.length = 1 := by
  have hsub : ∀ r ∈ g'.rules, r ∈ g.rules := by decide
  refine ⟨by decide, fun r hr i A hA r' hr' => ordered r (hsub r hr) i A hA r' (hsub r' hr'), fun r hr => short r (hsub r hr), by decide, by decide,
    ?_⟩
  obtain ⟨a, ha⟩ : ∃ a, TSA.ofPmcfg g' = some a := ⟨_, rfl⟩
  have : (((TSA.ofPmcfg g').bind fun a => a.recognise (vecAgenda _) [] [0] 20).map fun x => (x.2.isEmpty, x.1.length)) = some (true, 1) := by decide +kernel
  rw [ha, Option.bind_some] at this
  obtain ⟨⟨out, b⟩, h1, h2⟩ := Option.map_eq_some_iff.1 this
  simp only [Prod.mk.injEq, List.isEmpty_iff] at h2
  exact ⟨a, ha, out, by rw [h1, h2.1], h2.2⟩

end Rustomata.Props
