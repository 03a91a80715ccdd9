import Verif.Proofs.Negra

/-!
# C49: the NEGRA export
-/

namespace Rustomata.Props
open Rustomata Spec
variable {N T W : Type _}

/-- The words in the first column: the given ones or the terminals. -/
def exportWords (mode : DumpMode T) (v : List (List (T × List Nat))) : List T := mode.getD (v.flatten.map Prod.fst)

/-- The line of a terminal at address `p.1.2` that is shown as `p.2`. -/
def IsTermLine (m : GornTree (PMCFGRule N T W)) (nodes : List (List Nat)) (p : (T × List Nat) × T) (l : NegraLine N T) : Prop :=
  l.1 = .word p.2 ∧ (∃ r, m.get p.1.2 = some r ∧ r.head = l.2.1) ∧ l.2.2 = nodeNumber nodes p.1.2.dropLast

/-- The line of an inner node. -/
def IsNodeLine (m : GornTree (PMCFGRule N T W)) (nodes : List (List Nat)) (a : List Nat) (l : NegraLine N T) : Prop :=
  l.1 = .node (nodeNumber nodes a) ∧ (∃ r, m.get a = some r ∧ r.head = l.2.1) ∧ l.2.2 = nodeNumber nodes a.dropLast

theorem toTerm_sorted (m : GornTree (PMCFGRule N T W)) : (toTerm m).1.Sorted := by
  have aux : ∀ (l : List (List Nat × PMCFGRule N T W)) (r : GornTree (Composition T) × GornTree N), r.1.Sorted →
      (l.foldl (fun r p => (r.1.insert p.1 p.2.composition, r.2.insert p.1 p.2.head)) r).1.Sorted := by
    intro l
    induction l with
    | nil => exact fun r h => h
    | cons p l ih => exact fun r h => ih _ (GornTree.sorted_insert h _ _)
  exact aux m ([], []) List.Pairwise.nil

theorem yield_related {m : GornTree (PMCFGRule N T W)} (hm : m.Sorted) {v : List (List (T × List Nat))} (hv : Yield m.get v) :
    ∃ u, Eval (identifyTerminals (toTerm m).1).1.get [] u ∧ List.Forall₂ (List.Forall₂ fun (p : T × List Nat) (i : TermId) =>
      i.1 = p.2 ∧ (identifyTerminals (toTerm m).1).2.get i = some p.1) v u := by
  refine eval_related (fun a c hc => ?_) hv
  rw [Option.map_eq_some_iff] at hc
  obtain ⟨r, hr, rfl⟩ := hc
  have := (toTerm_get hm a).1
  rw [hr] at this
  exact identifyTerminals_related (toTerm_sorted m) a _ this

/-- Values of the identified tree come from values of the tree. -/
theorem yield_of_identified {m : GornTree (PMCFGRule N T W)} (hm : m.Sorted) {u : List (List TermId)}
    (hu : Eval (identifyTerminals (toTerm m).1).1.get [] u) : ∃ v, Yield m.get v ∧ List.Forall₂ (List.Forall₂ fun (i : TermId) (p : T × List Nat) =>
      i.1 = p.2) u v := by
  refine eval_related (fun a c hc => ?_) hu
  rw [identifyTerminals_get (toTerm_sorted m), Option.map_eq_some_iff] at hc
  obtain ⟨c', hc', rfl⟩ := hc
  have h1 := (toTerm_get hm a).1
  rw [hc'] at h1
  obtain ⟨r, hr, hr'⟩ := Option.map_eq_some_iff.1 h1.symm
  refine ⟨locate a r.composition, by rw [hr]; rfl, ?_⟩
  obtain ⟨c'', h2, h3⟩ := identifyTerminals_related (toTerm_sorted m) a _ hc'
  rw [identifyTerminals_get (toTerm_sorted m), hc', Option.map_some, Option.some_inj] at h2
  subst h2
  rw [hr']
  refine forall₂_flip (fun s s' h => forall₂_flip (fun x y h => ?_) h) h3
  cases h with
  | var i j => exact .var i j
  | t h => exact .t h.1

/-- **C49** The lines of the export: first the terminals in their order, each with the label of its node; then the inner nodes other than the
root that dominate a terminal, each exactly once, numbered by 500, 501, … in the order of their lines. The last column is the number of the
parent, where the root has the number 0. -/
theorem C49_lines (m : GornTree (PMCFGRule N T W)) (hm : m.Sorted) (mode : DumpMode T) {v : List (List (T × List Nat))} (hv : Yield m.get v)
    (hroot : ∀ t, (t, []) ∉ v.flatten) (hmode : ∀ ws, mode = some ws → v.flatten.length ≤ ws.length) :
    ∃ nodes ls ns, toNegraVector m mode = some (ls ++ ns) ∧ nodes.Nodup ∧
      (∀ a, a ∈ nodes ↔ a ≠ [] ∧ ∃ t b, (t, b) ∈ v.flatten ∧ Dominates a b) ∧
      List.Forall₂ (IsTermLine m nodes) (v.flatten.zip (exportWords mode v)) ls ∧ List.Forall₂ (IsNodeLine m nodes) nodes ns := by
  obtain ⟨u, hu, hvu⟩ := yield_related hm hv
  have hvu' := forall₂_flattenR hvu
  have hlen : v.flatten.length = u.flatten.length := hvu'.length_eq
  have hfst : u.flatten.map Prod.fst = v.flatten.map Prod.snd := by
    generalize v.flatten = x at hvu'
    generalize u.flatten = y at hvu'
    clear hlen
    induction hvu' with
    | nil => rfl
    | cons h _ ih => simp [h.1, ih]
  have hget : ∀ a x, (toTerm m).2.get a = some x ↔ ∃ r, m.get a = some r ∧ r.head = x := by
    intro a x
    rw [(toTerm_get hm a).2, Option.map_eq_some_iff]
  have hsrc : ∀ i ∈ u.flatten, i.1 ≠ [] ∧ ∃ t, (t, i.1) ∈ v.flatten := by
    intro i hi
    obtain ⟨p, hp, h1, _⟩ := forall₂_mem_right hvu' hi
    refine ⟨fun h => hroot p.1 ?_, p.1, by rw [h1]; exact hp⟩
    rw [← h, h1]; exact hp
  have hloc : ∀ t b, (t, b) ∈ v.flatten → ∀ p, p <+: b → ∃ x, (toTerm m).2.get p = some x := by
    intro t b hb p hp
    have hv' : Eval (fun a => ((fun a => (m.get a).map PMCFGRule.composition) a).map (locate a)) [] v := by
      have : (fun a => ((fun a => (m.get a).map PMCFGRule.composition) a).map (locate a)) = fun a => (m.get a).map fun r => locate a r.composition := by
        funext a; simp [Function.comp_def]
      rw [this]; exact hv
    obtain ⟨q, h1, ⟨c, h2, _⟩, h3⟩ := eval_located hv' hb
    simp only [List.nil_append] at h1 h3
    subst h1
    have hp' : ∃ c, (m.get p).map PMCFGRule.composition = some c := by
      obtain ⟨r, rfl⟩ := hp
      cases r with
      | nil => exact ⟨c, by simpa using h2⟩
      | cons i r =>
        obtain ⟨c', j, h4, _⟩ := h3 p i r rfl
        exact ⟨c', h4⟩
    obtain ⟨c', hc'⟩ := hp'
    rw [Option.map_eq_some_iff] at hc'
    obtain ⟨r, hr, _⟩ := hc'
    exact ⟨r.head, (hget _ _).2 ⟨r, hr, rfl⟩⟩
  have heval : evaluate (identifyTerminals (toTerm m).1).1 = some (embed u) := (evaluate_iff _ _).2 ⟨u, rfl, hu⟩
  have hids : (embed u).flatten.mapM termId = some u.flatten := by
    rw [show (embed u).flatten = u.flatten.map VarT.t by simp [embed, List.map_flatten], mapM_some_iff]
    generalize u.flatten = y
    induction y with
    | nil => exact .nil
    | cons x y ih => exact .cons rfl ih
  obtain ⟨ws, hws, hws'⟩ : ∃ ws : List T, ModeWords (identifyTerminals (toTerm m).1).2 u.flatten ws mode ∧ v.flatten.zip ws = v.flatten.zip (exportWords mode v) := by
    cases mode with
    | none =>
      refine ⟨v.flatten.map Prod.fst, ?_, rfl⟩
      simp only [ModeWords]
      generalize v.flatten = x at hvu'
      generalize u.flatten = y at hvu'
      clear * - hvu'
      induction hvu' with
      | nil => exact .nil
      | cons h _ ih => exact .cons h.2 ih
    | some l =>
      have := hmode l rfl
      refine ⟨l.take v.flatten.length, ⟨l.drop v.flatten.length, (List.take_append_drop _ _).symm, by rw [List.length_take]; omega⟩, ?_⟩
      show _ = v.flatten.zip l
      rw [List.zip_eq_zip_take_min (l₁ := v.flatten) (l₂ := l), Nat.min_eq_left this, List.take_length]
  have hrep : NegraRep [] 0 ⟨[], [], 500⟩ := ⟨List.nodup_nil, rfl, fun a => by simp [GornTree.get], rfl⟩
  obtain ⟨ls, s, h1, h2, h3⟩ := negraTerminals_spec (toTerm m).2 (identifyTerminals (toTerm m).1).2 u.flatten (fun i hi => (hsrc i hi).1)
    (fun i hi => by obtain ⟨t, ht⟩ := (hsrc i hi).2; exact hloc t _ ht _ List.prefix_rfl) mode ws hws [] _ hrep []
  have hI : ∀ a, a ∈ termAddrs [] u.flatten ↔ ∃ t b, (t, b) ∈ v.flatten ∧ a = b.dropLast := by
    intro a
    rw [mem_termAddrs]
    constructor
    · rintro (h | ⟨i, hi, rfl⟩)
      · cases h
      · obtain ⟨t, ht⟩ := (hsrc i hi).2
        exact ⟨t, _, ht, rfl⟩
    · rintro ⟨t, b, hb, rfl⟩
      obtain ⟨i, hi, h, _⟩ := forall₂_mem_left hvu' hb
      exact Or.inr ⟨i, hi, by rw [h]⟩
  obtain ⟨J, ns, h4, h5, h6, h7, h8, h9⟩ := negraNodes_spec (toTerm m).2 (m.map Prod.fst) (fun a x hx => by
      obtain ⟨r, hr, _⟩ := (hget a x).1 hx
      exact List.mem_map.2 ⟨_, GornTree.mem_of_get hr, rfl⟩) (m.length + 1) (termAddrs [] u.flatten) 0 (Nat.zero_le _) s h2
    (fun a ha p hp => by
      obtain ⟨t, b, hb, rfl⟩ := (hI a).1 ha
      exact hloc t b hb p (hp.trans (List.dropLast_prefix b))) (by simp) (by simp) ([] ++ ls)
  refine ⟨J.filter (· ≠ []), ls, ns, ?_, h5.filter _, ?_, ?_, ?_⟩
  · unfold toNegraVector
    simp only [heval, hids, h1]
    exact h8
  · intro a
    rw [List.mem_filter]
    simp only [ne_eq, decide_not, Bool.not_eq_eq_eq_not, Bool.not_true, decide_eq_false_iff_not]
    rw [and_comm]
    refine and_congr_right fun hne => ?_
    have hcl : ∀ r : List Nat, a ++ r ∈ J → a ∈ J := by
      intro r
      induction r using List.reverseRecOn with
      | nil => simp
      | append_singleton r i ih =>
        intro h
        have := h6 _ h (by simp)
        rw [← List.append_assoc, List.dropLast_concat] at this
        exact ih this
    constructor
    · intro ha
      obtain ⟨c, hc, hac⟩ := h7 a ha
      obtain ⟨t, b, hb, rfl⟩ := (hI c).1 hc
      refine ⟨t, b, hb, hac.trans (List.dropLast_prefix b), fun h => ?_⟩
      have hl := hac.length_le
      rw [h, List.length_dropLast] at hl
      have : b.length = 0 := by omega
      exact hne (h.trans (List.length_eq_zero_iff.1 this))
    · rintro ⟨t, b, hb, ⟨r, rfl⟩, hab⟩
      have hr : r ≠ [] := by rintro rfl; simp at hab
      have : (a ++ r).dropLast ∈ J := h4.subset ((hI _).2 ⟨t, _, hb, rfl⟩)
      rw [List.dropLast_append_of_ne_nil hr] at this
      exact hcl _ this
  · have := h3 J h4
    rw [hfst] at this
    rw [← hws']
    clear * - this hget
    generalize v.flatten = x at this
    induction x generalizing ws ls with
    | nil => simp only [List.map_nil, List.zip_nil_left] at this ⊢; cases this; exact .nil
    | cons p x ih =>
      cases ws with
      | nil => simp only [List.zip_nil_right] at this ⊢; cases this; exact .nil
      | cons w ws =>
        simp only [List.map_cons, List.zip_cons_cons] at this ⊢
        cases this with
        | cons h h' => exact .cons ⟨h.1, (hget _ _).1 h.2.1, h.2.2⟩ (ih _ _ h')
  · rw [List.drop_zero] at h9
    exact h9.imp fun a l h => ⟨h.1, (hget _ _).1 h.2.1, h.2.2⟩

/-- **C49** The export fails exactly if the tree has no value, or the root itself yields a terminal, or there are fewer words than terminals. -/
theorem C49_panics (m : GornTree (PMCFGRule N T W)) (hm : m.Sorted) (mode : DumpMode T) :
    toNegraVector m mode = none ↔
      ¬ ∃ v, Yield m.get v ∧ (∀ t, (t, []) ∉ v.flatten) ∧ ∀ ws, mode = some ws → v.flatten.length ≤ ws.length := by
  constructor
  · rintro h ⟨v, h1, h2, h3⟩
    obtain ⟨nodes, ls, ns, h4, _⟩ := C49_lines m hm mode h1 h2 h3
    rw [h] at h4; cases h4
  · intro h
    by_contra hne
    apply h
    unfold toNegraVector at hne
    split at hne
    · exact absurd rfl hne
    · rename_i c hc
      obtain ⟨u, rfl, hu⟩ := (evaluate_iff _ _).1 hc
      have hids : (embed u).flatten.mapM termId = some u.flatten := by
        rw [show (embed u).flatten = u.flatten.map VarT.t by simp [embed, List.map_flatten], mapM_some_iff]
        generalize u.flatten = y
        induction y with
        | nil => exact .nil
        | cons x y ih => exact .cons rfl ih
      rw [hids] at hne
      simp only at hne
      split at hne
      · exact absurd rfl hne
      · rename_i hs
        obtain ⟨h1, h2⟩ := negraTerminals_some hs
        obtain ⟨v, hv, hvu⟩ := yield_of_identified hm hu
        have hvu' := forall₂_flattenR hvu
        refine ⟨v, hv, fun t ht => ?_, fun ws hws => by rw [← hvu'.length_eq]; exact h2 ws hws⟩
        obtain ⟨i, hi, h⟩ := forall₂_mem_right hvu' ht
        exact h1 i hi h

/-- **C49** The criteria of the export: each rule consists of exactly one terminal or only of variables. -/
theorem C49_criteria (m : GornTree (PMCFGRule N T W)) : meetsNegraCriteria m = true ↔ ∀ p ∈ m, TerminalSeparated p.2.composition := by
  have aux2 : ∀ s : List (VarT T), criteriaGo true false s = true ↔ ∀ x ∈ s, ∃ i j, x = VarT.var i j := by
    intro s
    induction s with
    | nil => simp [criteriaGo]
    | cons x s ih => cases x <;> simp [criteriaGo, ih]
  have aux : ∀ s : List (VarT T), criteriaGo false false s = true ↔ (∃ a, s = [.t a]) ∨ ∀ x ∈ s, ∃ i j, x = VarT.var i j := by
    intro s
    cases s with
    | nil => simp [criteriaGo]
    | cons x s =>
      cases x with
      | var i j => simp [criteriaGo, aux2]
      | t a =>
        cases s with
        | nil => simp [criteriaGo]
        | cons y s => cases y <;> simp [criteriaGo]
  unfold meetsNegraCriteria TerminalSeparated
  simp only [List.all_eq_true, aux]

/-- **C49** The tree of a derivation has a value: the derived tuple. -/
theorem C49_yield {rules : List (PMCFGRule N T W)} {A : N} {d : DTree (PMCFGRule N T W)} {v : List (List T)} (hd : Derives rules A d v)
    (m : List Nat → Option (PMCFGRule N T W)) (hm : ∀ a, m a = d.at? a) : ∃ v', Yield m v' ∧ v'.map (·.map Prod.fst) = v := by
  have h1 : Eval (fun a => (m a).map PMCFGRule.composition) [] v := derives_eval hd [] fun p => by simp [hm]
  obtain ⟨v', h2, h3⟩ := eval_related (R := fun t (p : T × List Nat) => p.1 = t) (m' := fun a => (m a).map fun r => locate a r.composition) (fun a c hc => by
    obtain ⟨r, hr, rfl⟩ := Option.map_eq_some_iff.1 hc
    refine ⟨locate a r.composition, by simp [hr], ?_⟩
    unfold locate
    rw [List.forall₂_map_right_iff]
    refine List.forall₂_same.2 fun s _ => ?_
    rw [List.forall₂_map_right_iff]
    refine List.forall₂_same.2 fun x _ => ?_
    cases x with
    | var i j => exact .var i j
    | t t => exact .t rfl) h1
  refine ⟨v', h2, ?_⟩
  clear * - h3
  induction h3 with
  | nil => rfl
  | cons h _ ih =>
    rw [List.map_cons, ih]
    congr 1
    induction h with
    | nil => rfl
    | cons h _ ih => simp [h, ih]

/-- In a derivation of a grammar that does not delete, each node dominates a terminal. -/
theorem dominates_terminal {rules : List (PMCFGRule N T W)} (hnd : NonDeleting rules) (hne : ∀ r ∈ rules, r.composition.flatten ≠ [])
    {A : N} {d : DTree (PMCFGRule N T W)} {v : List (List T)} (hd : Derives rules A d v) (m : List Nat → Option (PMCFGRule N T W)) :
    ∀ (a : List Nat) (v' : List (List (T × List Nat))), (∀ p, m (a ++ p) = d.at? p) → Eval (fun a => (m a).map fun r => locate a r.composition) a v' →
      ∀ p r, d.at? p = some r → ∃ t q, (t, a ++ p ++ q) ∈ v'.flatten := by
  refine Derives.induct (P := fun _ d _ => ∀ (a : List Nat) (v' : List (List (T × List Nat))), (∀ p, m (a ++ p) = d.at? p) →
    Eval (fun a => (m a).map fun r => locate a r.composition) a v' → ∀ p r, d.at? p = some r → ∃ t q, (t, a ++ p ++ q) ∈ v'.flatten) ?_ hd
  intro r ds args v hr hch hl1 hl2 hv a v' hm hev
  cases hev with
  | @node _ c _ sub hc hsub hv' =>
    have hma : m a = some r := by simpa [DTree.at?] using hm []
    rw [hma, Option.map_some, Option.some_inj] at hc
    subst hc
    have child : ∀ (i : Nat) (hi : i < ds.length) p r', (ds[i]).at? p = some r' → ∃ t q, (t, a ++ (i :: p) ++ q) ∈ v'.flatten := by
      intro i hi p r' hp
      have h2 := (List.forall₂_iff_get.1 hch).2 i (by omega) (by simp; omega)
      simp only [List.get_eq_getElem, List.getElem_zip] at h2
      obtain ⟨hdi, ih⟩ := h2
      have hroot : ∃ r₀ ds₀, ds[i] = .node r₀ ds₀ ∧ r₀ ∈ rules ∧ r₀.head = r.tail[i] := by
        generalize ds[i] = di at hdi
        generalize args[i]'(by omega) = vi at hdi
        generalize r.tail[i]'(by omega) = Ai at hdi
        cases hdi with
        | node h _ _ => exact ⟨_, _, rfl, h, rfl⟩
      obtain ⟨r₀, ds₀, hd0, hr0, hh0⟩ := hroot
      have hall := hnd r hr i r.tail[i] (List.getElem?_eq_getElem (by omega)) r₀ hr0 hh0
      have hpos : 0 < r₀.composition.length := by
        rcases hc0 : r₀.composition with _ | ⟨x, l⟩
        · exact absurd (by rw [hc0]; rfl) (hne r₀ hr0)
        · simp
      have hev := hsub i 0 (by rw [varsOf_locate]; exact hall 0 hpos)
      have hmi : ∀ p, m ((a ++ [i]) ++ p) = ds[i].at? p := fun p => by
        rw [List.append_assoc, hm ([i] ++ p)]
        simp [DTree.at?, List.getElem?_eq_getElem hi]
      obtain ⟨t, q, htq⟩ := ih (a ++ [i]) (sub i) hmi hev p r' hp
      obtain ⟨w, hw, htw⟩ := List.mem_flatten.1 htq
      obtain ⟨j, hj⟩ := List.mem_iff_getElem?.1 hw
      have hlen : (sub i).length = r₀.composition.length := by
        have h0 := hmi []
        rw [List.append_nil, hd0] at h0
        simp only [DTree.at?] at h0
        generalize sub i = x at hev
        cases hev with
        | node h1 _ h3 =>
          rw [h0, Option.map_some, Option.some_inj] at h1
          rw [compose_length h3, ← h1]
          simp [locate]
      refine ⟨t, q, (compose_mem hv' _).2 (Or.inr ⟨i, j, sub i, w, ?_, rfl, hj, by simpa using htw⟩)⟩
      rw [varsOf_locate]
      exact hall j (by rw [← hlen]; exact (List.getElem?_eq_some_iff.1 hj).1)
    intro p r' hp
    cases p with
    | nil =>
      obtain ⟨x, hx⟩ := List.exists_mem_of_ne_nil _ (hne r hr)
      cases x with
      | t t => exact ⟨t, [], (compose_mem hv' _).2 (Or.inl (mem_locate.2 ⟨by simp, hx⟩))⟩
      | var i j =>
        have hij : (i, j) ∈ varsOf r.composition := List.mem_filterMap.2 ⟨_, hx, rfl⟩
        obtain ⟨y, hy, _⟩ := compose_some_of hv hij
        have hi : i < ds.length := by have := (List.getElem?_eq_some_iff.1 hy).1; omega
        obtain ⟨r₁, hr₁⟩ : ∃ r₁, (ds[i]).at? [] = some r₁ := by cases ds[i]; exact ⟨_, rfl⟩
        obtain ⟨t, q, h⟩ := child i hi [] r₁ hr₁
        exact ⟨t, [i] ++ q, by simpa using h⟩
    | cons i p =>
      simp only [DTree.at?, Option.bind_eq_some_iff] at hp
      obtain ⟨di, hdi, hp⟩ := hp
      obtain ⟨hi, rfl⟩ := List.getElem?_eq_some_iff.1 hdi
      exact child i hi p r' hp

/-- **C49** For derivations of a grammar that does not delete and has no empty right-hand sides, where the rules of the derivation meet the
criteria and the root is not a terminal node, the export succeeds, its words are those of the derived word, and its nodes are exactly the
inner nodes other than the root. -/
theorem C49_derivation {rules : List (PMCFGRule N T W)} (hnd : NonDeleting rules) (hne : ∀ r ∈ rules, r.composition.flatten ≠ [])
    {A : N} {d : DTree (PMCFGRule N T W)} {v : List (List T)} (hd : Derives rules A d v) (m : GornTree (PMCFGRule N T W)) (hs : m.Sorted)
    (hm : ∀ a, m.get a = d.at? a) (hcrit : meetsNegraCriteria m = true) (hroot : ∀ r, d.at? [] = some r → ∀ t, VarT.t t ∉ r.composition.flatten) :
    ∃ nodes ls ns v', toNegraVector m none = some (ls ++ ns) ∧ nodes.Nodup ∧
      (∀ a, a ∈ nodes ↔ a ≠ [] ∧ ∃ r, d.at? a = some r ∧ ∀ t, VarT.t t ∉ r.composition.flatten) ∧
      ls.map Prod.fst = v.flatten.map NegraWord.word ∧
      ns.map Prod.fst = (List.range nodes.length).map (fun n => NegraWord.node (500 + n)) ∧
      Yield m.get v' ∧ v'.map (·.map Prod.fst) = v ∧
      List.Forall₂ (fun p l => (∃ r, d.at? p.2 = some r ∧ r.head = l.2.1) ∧ l.2.2 = nodeNumber nodes p.2.dropLast) v'.flatten ls ∧
      List.Forall₂ (fun a l => (∃ r, d.at? a = some r ∧ r.head = l.2.1) ∧ l.2.2 = nodeNumber nodes a.dropLast) nodes ns := by
  obtain ⟨v', hv', hvv⟩ := C49_yield hd m.get hm
  have hev : Eval (fun a => ((fun a => (m.get a).map PMCFGRule.composition) a).map (locate a)) [] v' := by
    have : (fun a => ((fun a => (m.get a).map PMCFGRule.composition) a).map (locate a)) = fun a => (m.get a).map fun r => locate a r.composition := by
      funext a; simp [Function.comp_def]
    rw [this]; exact hv'
  obtain ⟨nodes, ls, ns, h1, h2, h3, h4, h5⟩ := C49_lines m hs none hv' (fun t ht => by
    obtain ⟨q, hq, ⟨c, hc, htc⟩, _⟩ := eval_located hev ht
    obtain ⟨r, hr, rfl⟩ := Option.map_eq_some_iff.1 hc
    rw [hm] at hr
    exact hroot r hr t htc) (fun ws h => by cases h)
  have hcrit' := (C49_criteria m).1 hcrit
  refine ⟨nodes, ls, ns, v', h1, h2, fun a => ?_, ?_, ?_, hv', hvv, ?_, ?_⟩
  · rw [h3]
    refine and_congr_right fun _ => ?_
    constructor
    · rintro ⟨t, b, hb, ⟨q, rfl⟩, hab⟩
      obtain ⟨q', hq, _, hpath⟩ := eval_located hev hb
      cases q with
      | nil => simp at hab
      | cons i q =>
        obtain ⟨c, j, hc, hij⟩ := hpath a i q (by simpa using hq.symm)
        rw [List.nil_append] at hc
        obtain ⟨r, hr, rfl⟩ := Option.map_eq_some_iff.1 hc
        refine ⟨r, by rw [← hm]; exact hr, fun t ht => ?_⟩
        rcases hcrit' _ (GornTree.mem_of_get hr) with ⟨t', h⟩ | h
        · unfold varsOf at hij
          rw [h] at hij
          simp at hij
        · obtain ⟨_, _, h⟩ := h _ ht
          cases h
    · rintro ⟨r, hr, hnt⟩
      obtain ⟨t, q, htq⟩ := dominates_terminal hnd hne hd m.get [] v' (fun p => by simpa using hm p) hv' a r hr
      simp only [List.nil_append] at htq
      refine ⟨t, _, htq, List.prefix_append _ _, fun h => ?_⟩
      obtain ⟨q', hq, ⟨c, hc, htc⟩, _⟩ := eval_located hev htq
      rw [← h, hm, hr] at hc
      simp only [Option.map_some, Option.some.injEq] at hc
      subst hc
      exact hnt t htc
  · rw [← hvv]
    have : (v'.map (·.map Prod.fst)).flatten = v'.flatten.map Prod.fst := by rw [List.map_flatten]
    rw [this]
    simp only [exportWords, Option.getD_none] at h4
    generalize v'.flatten = x at h4
    clear * - h4
    induction x generalizing ls with
    | nil => cases h4; rfl
    | cons p x ih =>
      simp only [List.map_cons, List.zip_cons_cons] at h4
      cases h4 with
      | cons h h' => simp only [List.map_cons, ih _ h']; rw [h.1]
  · have : ns.map Prod.fst = nodes.map fun a => NegraWord.node (nodeNumber nodes a) := by
      generalize nodes = nodes' at h5 ⊢
      generalize hn : (fun a => NegraWord.node (T := T) (nodeNumber nodes' a)) = f
      have h5' : List.Forall₂ (fun a (l : NegraLine N T) => l.1 = f a) nodes' ns := h5.imp fun a l h => by rw [h.1, ← hn]
      clear h5 hn h1
      induction h5' with
      | nil => rfl
      | cons h _ ih => simp [h, ih]
    rw [this]
    refine List.ext_getElem (by simp) fun n h₁ h₂ => ?_
    simp only [List.length_map] at h₁
    simp only [List.getElem_map, List.getElem_range, nodeNumber]
    rw [if_neg ((h3 _).1 (List.getElem_mem h₁)).1, h2.idxOf_getElem]
  · simp only [exportWords, Option.getD_none] at h4
    generalize v'.flatten = x at h4
    clear * - h4 hm
    induction x generalizing ls with
    | nil => cases h4; exact .nil
    | cons p x ih =>
      simp only [List.map_cons, List.zip_cons_cons] at h4
      cases h4 with
      | cons h h' => exact .cons ⟨by rw [← hm]; exact h.2.1, h.2.2⟩ (ih _ h')
  · exact h5.imp fun a l h => ⟨by rw [← hm]; exact h.2.1, h.2.2⟩

/-- **C49** The text of the export: a line that starts the sentence, the lines of the vector, and a line that ends it; trees that do not
meet the criteria are a panic. -/
theorem C49_text (showN : N → List Nat) (showT : T → List Nat) (m : GornTree (PMCFGRule N T W)) (id : Nat) (mode : DumpMode T) :
    toNegra showN showT m id mode = none ↔ (∃ p ∈ m, ¬ TerminalSeparated p.2.composition) ∨ toNegraVector m mode = none := by
  unfold toNegra
  by_cases h : meetsNegraCriteria m = true
  · have := (C49_criteria m).1 h
    rw [if_pos h, Option.map_eq_none_iff]
    constructor
    · exact Or.inr
    · rintro (⟨p, hp, hn⟩ | h)
      · exact absurd (this p hp) hn
      · exact h
  · rw [if_neg h]
    refine ⟨fun _ => Or.inl ?_, fun _ => rfl⟩
    rw [C49_criteria] at h
    push Not at h
    exact h

/-- The tree of the tests in the source (with `S` = 0, `A` = 1, `B` = 2, `a` = 3, …, `d` = 6). -/
def negraTree : GornTree (PMCFGRule Nat Nat Unit) :=
  [([], ⟨0, [1, 2], [[.var 0 0, .var 1 0, .var 0 1, .var 1 1]], ()⟩),
   ([0], ⟨1, [3, 5, 1], [[.var 0 0, .var 2 0], [.var 1 0, .var 2 1]], ()⟩),
   ([0, 0], ⟨3, [], [[.t 3]], ()⟩), ([0, 1], ⟨5, [], [[.t 5]], ()⟩),
   ([0, 2], ⟨1, [3, 5], [[.var 0 0], [.var 1 0]], ()⟩),
   ([0, 2, 0], ⟨3, [], [[.t 3]], ()⟩), ([0, 2, 1], ⟨5, [], [[.t 5]], ()⟩),
   ([1], ⟨2, [4, 6], [[.var 0 0], [.var 1 0]], ()⟩),
   ([1, 0], ⟨4, [], [[.t 4]], ()⟩), ([1, 1], ⟨6, [], [[.t 6]], ()⟩)]

example : toNegraVector negraTree none = some [(.word 3, 3, 500), (.word 3, 3, 501), (.word 4, 4, 502), (.word 5, 5, 500), (.word 5, 5, 501),
    (.word 6, 6, 502), (.node 500, 1, 0), (.node 501, 1, 500), (.node 502, 2, 0)] := by decide +kernel
example : meetsNegraCriteria negraTree = true := by decide +kernel
example : negraTree.Sorted := by unfold GornTree.Sorted negraTree; decide +kernel
example : toNegraVector negraTree (some [10, 11, 12, 13, 14, 15, 16]) = some [(.word 10, 3, 500), (.word 11, 3, 501), (.word 12, 4, 502), (.word 13, 5, 500),
    (.word 14, 5, 501), (.word 15, 6, 502), (.node 500, 1, 0), (.node 501, 1, 500), (.node 502, 2, 0)] := by decide +kernel
/-- The words are removed from a list that is too short. -/
example : toNegraVector negraTree (some [10, 11]) = none := by decide +kernel

/-- The hypotheses of `C49_derivation` are satisfiable. -/
example : ∃ (nodes : List (List Nat)) (ls ns : List (NegraLine Nat Nat)),
    toNegraVector [([], (⟨0, [1], [[.var 0 0]], ()⟩ : PMCFGRule Nat Nat Unit)), ([0], ⟨1, [], [[.t 7]], ()⟩)] none = some (ls ++ ns) ∧ nodes.Nodup ∧
    ls.map Prod.fst = [NegraWord.word 7] := by
  obtain ⟨nodes, ls, ns, _, h1, h2, _, h3, _⟩ :=
  C49_derivation (rules := [⟨0, [1], [[.var 0 0]], ()⟩, ⟨1, [], [[.t 7]], ()⟩]) (A := 0) (d := .node ⟨0, [1], [[.var 0 0]], ()⟩ [.node ⟨1, [], [[.t 7]], ()⟩ []])
    (v := [[7]])
    (by
      intro r hr i A hA r' hr' hh j hj
      simp only [List.mem_cons, List.not_mem_nil, or_false] at hr hr'
      rcases hr with rfl | rfl
      · rcases i with _ | i
        · rcases hr' with rfl | rfl
          · simp at hA hh; omega
          · simp at hj; subst hj; decide
        · simp at hA
      · simp at hA)
    (by
      intro r hr
      simp only [List.mem_cons, List.not_mem_nil, or_false] at hr
      rcases hr with rfl | rfl <;> simp)
    (.node (r := ⟨0, [1], [[.var 0 0]], ()⟩) (args := [[[7]]]) (v := [[7]]) (by decide)
      (.cons (.node (r := ⟨1, [], [[.t 7]], ()⟩) (args := []) (v := [[7]]) (by decide) .nil (by decide)) .nil) (by decide))
    [([], (⟨0, [1], [[.var 0 0]], ()⟩ : PMCFGRule Nat Nat Unit)), ([0], ⟨1, [], [[.t 7]], ()⟩)]
    (by unfold GornTree.Sorted; decide)
    (fun a => by rcases a with _ | ⟨_ | n, _ | ⟨b, a⟩⟩ <;> simp [GornTree.get, DTree.at?])
    (by decide) (by simp [DTree.at?])
  exact ⟨nodes, ls, ns, h1, h2, h3⟩

/-- The full claim: the export of a derivation that meets the criteria succeeds and lists each inner node other than the root. -/
def C49_claim : Prop := ∀ (rules : List (PMCFGRule Nat Nat Unit)) (A : Nat) (d : DTree (PMCFGRule Nat Nat Unit)) (v : List (List Nat))
  (m : GornTree (PMCFGRule Nat Nat Unit)), Derives rules A d v → m.Sorted → (∀ a, m.get a = d.at? a) → meetsNegraCriteria m = true →
  ∃ lines, toNegraVector m none = some lines ∧ ∀ a r, a ≠ [] → d.at? a = some r → (∀ t, VarT.t t ∉ r.composition.flatten) →
    ∃ n p, (NegraWord.node n, r.head, p) ∈ lines

/-- **C49** The export panics for a word of length 1 that is derived by a single rule, though this rule meets the criteria. -/
theorem C49_root_violated : ¬ C49_claim := by
  intro h
  obtain ⟨lines, hl, _⟩ := h [⟨0, [], [[.t 7]], ()⟩] 0 (.node ⟨0, [], [[.t 7]], ()⟩ []) [[7]] [([], ⟨0, [], [[.t 7]], ()⟩)]
    (.node (r := ⟨0, [], [[.t 7]], ()⟩) (args := []) (v := [[7]]) (List.mem_singleton.2 rfl) .nil (by decide)) (by unfold GornTree.Sorted; decide) (fun a => by cases a <;> simp [GornTree.get, DTree.at?]) (by decide)
  have : toNegraVector [([], (⟨0, [], [[.t 7]], ()⟩ : PMCFGRule Nat Nat Unit))] none = none := by decide +kernel
  rw [this] at hl
  cases hl

/-- **C49** A node that does not dominate any terminal has no line. -/
theorem C49_nodes_violated : ∃ (rules : List (PMCFGRule Nat Nat Unit)) (d : DTree (PMCFGRule Nat Nat Unit)) (m : GornTree (PMCFGRule Nat Nat Unit)),
    Derives rules 0 d [[7]] ∧ m.Sorted ∧ (∀ a, m.get a = d.at? a) ∧ meetsNegraCriteria m = true ∧ m.get [1] = some ⟨2, [], [[]], ()⟩ ∧
    toNegraVector m none = some [(.word 7, 1, 0)] := by
  refine ⟨[⟨0, [1, 2], [[.var 0 0, .var 1 0]], ()⟩, ⟨1, [], [[.t 7]], ()⟩, ⟨2, [], [[]], ()⟩],
    .node ⟨0, [1, 2], [[.var 0 0, .var 1 0]], ()⟩ [.node ⟨1, [], [[.t 7]], ()⟩ [], .node ⟨2, [], [[]], ()⟩ []],
    [([], ⟨0, [1, 2], [[.var 0 0, .var 1 0]], ()⟩), ([0], ⟨1, [], [[.t 7]], ()⟩), ([1], ⟨2, [], [[]], ()⟩)], ?_, ?_, ?_, ?_, ?_, ?_⟩
  · refine .node (r := ⟨0, [1, 2], [[.var 0 0, .var 1 0]], ()⟩) (args := [[[7]], [[]]]) (v := [[7]]) (by decide) (.cons ?_ (.cons ?_ .nil)) (by decide)
    · exact .node (r := ⟨1, [], [[.t 7]], ()⟩) (args := []) (v := [[7]]) (by decide) .nil (by decide)
    · exact .node (r := ⟨2, [], [[]], ()⟩) (args := []) (v := [[]]) (by decide) .nil (by decide)
  · unfold GornTree.Sorted; decide
  · intro a
    rcases a with _ | ⟨_ | _ | n, _ | ⟨b, a⟩⟩ <;> simp [GornTree.get, DTree.at?]
  · decide
  · decide
  · decide +kernel

/-- **C49** `noparse` shows only as many words as there are tags. -/
theorem C49_noparse (showT : T → List Nat) (s : List T) (id : Nat) (ps : List T) :
    noparse showT s id (some ps) = noparse showT (s.take ps.length) id (some ps) := by
  have : (s.take ps.length).zip ps = s.zip ps := by
    induction s generalizing ps with
    | nil => simp
    | cons x s ih => cases ps with
      | nil => simp
      | cons p ps => simp [ih]
  simp only [noparse, this]

/-- **C49** `noparse` with words as mode shows for each element of the sentence a line with the word and the element as its tag. -/
theorem C49_noparse_words (showT : T → List Nat) (s : List (T × T)) (id : Nat) :
    noparse showT (s.map Prod.snd) id (some (s.map Prod.fst)) =
      ascii ['#', 'B', 'O', 'S', ' '] ++ natText id ++ ascii ['\n'] ++
      (s.map fun x => showT x.1 ++ ascii ['\t'] ++ showT x.2 ++ ascii ['\t', '-', '-', '\t', '-', '-', '\t', '5', '0', '0', '\n']).flatten ++
      ascii ['#', '5', '0', '0', '\t', 'N', 'O', 'P', 'A', 'R', 'S', 'E', '\t', '-', '-', '\t', '-', '-', '\t', '0', '\n'] ++
      ascii ['#', 'E', 'O', 'S', ' '] ++ natText id := by
  have : (s.map Prod.snd).zip (s.map Prod.fst) = s.map fun x => (x.2, x.1) := by
    induction s with
    | nil => rfl
    | cons x s ih => simp [ih]
  simp only [noparse, this, List.flatMap_def, List.map_map]
  simp [ascii, Function.comp_def]

/-- **C49** `noparse` without words shows a line for each element of the sentence. -/
theorem C49_noparse_default (showT : T → List Nat) (s : List T) (id : Nat) :
    noparse showT s id none =
      ascii ['#', 'B', 'O', 'S', ' '] ++ natText id ++ ascii ['\n'] ++
      (s.map fun x => showT x ++ ascii ['\t', '-', '-', '\t', '-', '-', '\t', '-', '-', '\t', '5', '0', '0', '\n']).flatten ++
      ascii ['#', '5', '0', '0', '\t', 'N', 'O', 'P', 'A', 'R', 'S', 'E', '\t', '-', '-', '\t', '-', '-', '\t', '0', '\n'] ++
      ascii ['#', 'E', 'O', 'S', ' '] ++ natText id := by
  simp [noparse, ascii, List.flatMap_def]

/-- The word 1 with the tag 2 (texts `1` and `2`). -/
example : noparse natText [2] 0 (some [1]) = ascii "#BOS 0\n1\t2\t--\t--\t500\n#500\tNOPARSE\t--\t--\t0\n#EOS 0".toList := by decide +kernel

end Rustomata.Props
