import Verif.Proofs.CsGroup

/-!
# Derivations have bracket words
-/

namespace Rustomata
open Spec

section
variable {N T W : Type _} [CommMonoid W] {factorize : W → Nat → List W} {rules : List (PMCFGRule N T W)}

theorem encodes_build {tail : List N} {es : List (DTree Nat)} {args : Nat → Option (List (List T))} {comp : List (VarT T)} :
    ∀ {u : List T}, substAll args comp = some u →
      (∀ i j u', VarT.var i j ∈ comp → (args i).bind (fun v => v[j]?) = some u' → ∃ rid es' r c f Q w, es[i]? = some (.node rid es') ∧ rules[rid]? = some r ∧
        tail[i]? = some r.head ∧ r.composition[j]? = some c ∧ (factorize r.weight r.composition.length)[j]? = some f ∧ Encodes rules es' c Q ∧
        Fits factorize (indexed rules) r.tail c Q u' w) →
      ∃ P w, Encodes rules es comp P ∧ Fits factorize (indexed rules) tail comp P u w := by
  induction comp with
  | nil =>
    intro u hu _
    simp only [substAll, List.mapM_nil] at hu
    cases hu
    exact ⟨.nil, 1, .nil, .nil⟩
  | cons x comp ih =>
    intro u hu h
    unfold substAll at hu
    rw [Option.map_eq_some_iff] at hu
    obtain ⟨l, h1, rfl⟩ := hu
    rw [mapM_some_iff] at h1
    cases h1 with
    | @cons _ y _ l hx hl =>
      obtain ⟨P, w, h2, h3⟩ := ih (u := l.flatten) (by unfold substAll; rw [mapM_some_iff.2 hl]; rfl) fun i j u' hm => h i j u' (List.mem_cons_of_mem _ hm)
      cases x with
      | t a =>
        cases hx
        exact ⟨.term P, w, .term h2, .term h3⟩
      | var i j =>
        obtain ⟨rid, es', r, c, f, Q, w', g1, g2, g3, g4, g5, g6, g7⟩ := h i j y (List.mem_cons_self ..) hx
        exact ⟨.part i j rid Q P, _, .part g1 g2 g4 g6 h2, .part (mem_indexed.2 g2) g3 g4 g5 g7 h3⟩

/-- The components of a derivation have parts. -/
theorem encodes_exists (hfac : Factorizes factorize) {A : N} {d : DTree (PMCFGRule N T W)} {v : List (List T)} (hd : Derives rules A d v) :
    ∀ rid es r ds, d = .node r ds → Numbers rules (.node rid es) d → ∀ (j : Nat) comp, r.composition[j]? = some comp →
      ∃ Q u w, v[j]? = some u ∧ Encodes rules es comp Q ∧ Fits factorize (indexed rules) r.tail comp Q u w := by
  refine derives_induct (P := fun _ d v => ∀ rid es r ds, d = .node r ds → Numbers rules (.node rid es) d → ∀ (j : Nat) comp, r.composition[j]? = some comp →
      ∃ Q u w, v[j]? = some u ∧ Encodes rules es comp Q ∧ Fits factorize (indexed rules) r.tail comp Q u w) ?_ hd
  intro r ds args v hr hl1 hl2 ih hc rid es r' ds' he hn j comp hj
  cases he
  obtain ⟨hn1, hn2, hn3⟩ := numbers_node.1 hn
  have hv := mapM_getElem? hc j
  rw [hj, Option.bind_some] at hv
  have hlt : j < v.length := by
    rw [compose_length hc]
    exact (List.getElem?_eq_some_iff.1 hj).1
  rw [List.getElem?_eq_getElem hlt] at hv
  obtain ⟨Q, w, h1, h2⟩ := encodes_build (factorize := factorize) (rules := rules) (tail := r.tail) (es := es) hv.symm (fun i j' u' hm hu => by
    rw [Option.bind_eq_some_iff] at hu
    obtain ⟨x, hx, hxu⟩ := hu
    have hi : i < r.tail.length := by
      have := (List.getElem?_eq_some_iff.1 hx).1
      omega
    have e1 := List.getElem?_eq_getElem hi
    have e2 := List.getElem?_eq_getElem (show i < ds.length by omega)
    have e3 := List.getElem?_eq_getElem (show i < es.length by omega)
    obtain ⟨hd', ih'⟩ := ih i _ _ x e1 e2 hx
    cases he : es[i] with
    | node rid' es' =>
      rw [he] at e3
      have hn' := hn3 i _ _ e3 e2
      obtain ⟨r₁, g1, g2, ds₁, args₁, g3, _, g4⟩ := derives_inv hd'
      have hlt : j' < r₁.composition.length := by
        rw [← compose_length g4]
        exact (List.getElem?_eq_some_iff.1 hxu).1
      obtain ⟨Q, u, w, k1, k2, k3⟩ := ih' rid' es' r₁ ds₁ g3 hn' j' _ (List.getElem?_eq_getElem hlt)
      rw [hxu, Option.some.injEq] at k1
      subst k1
      have hf := (hfac r₁.weight r₁.composition.length).1
      rw [g3] at hn'
      exact ⟨rid', es', r₁, _, _, Q, w, e3, (numbers_node.1 hn').1, by rw [e1, g2], List.getElem?_eq_getElem hlt, List.getElem?_eq_getElem (by omega), k2, k3⟩)
  exact ⟨Q, _, w, List.getElem?_eq_getElem hlt, h1, h2⟩

omit [CommMonoid W] in
/-- The parts of all components of a derivation visit all positions but the root. -/
theorem encodes_covers {init : N} (hl : IsLcfrs rules init) (hne : ∀ r ∈ rules, r.composition ≠ []) {A : N} {d : DTree (PMCFGRule N T W)} {v : List (List T)} (hd : Derives rules A d v) :
    ∀ rid es r ds (Q : Nat → Parts), d = .node r ds → Numbers rules (.node rid es) d → (∀ (j : Nat) comp, r.composition[j]? = some comp → Encodes rules es comp (Q j)) →
      ∀ p x, (DTree.node rid es).at? p = some x → p = [] ∨ ∃ j < r.composition.length, (p, x) ∈ (Q j).visits [] := by
  refine derives_induct (P := fun _ d v => ∀ rid es r ds (Q : Nat → Parts), d = .node r ds → Numbers rules (.node rid es) d →
      (∀ (j : Nat) comp, r.composition[j]? = some comp → Encodes rules es comp (Q j)) →
      ∀ p x, (DTree.node rid es).at? p = some x → p = [] ∨ ∃ j < r.composition.length, (p, x) ∈ (Q j).visits []) ?_ hd
  intro r ds args v hr hl1 hl2 ih hc rid es r' ds' Q he hn hQ p x hp
  cases he
  cases p with
  | nil => exact .inl rfl
  | cons i p =>
    refine .inr ?_
    obtain ⟨hn1, hn2, hn3⟩ := numbers_node.1 hn
    simp only [DTree.at?, Option.bind_eq_some_iff] at hp
    obtain ⟨e, he, hp⟩ := hp
    have hi : i < r.tail.length := by
      have := (List.getElem?_eq_some_iff.1 he).1
      omega
    have e1 := List.getElem?_eq_getElem hi
    have e2 := List.getElem?_eq_getElem (show i < ds.length by omega)
    obtain ⟨hd', ih'⟩ := ih i _ _ _ e1 e2 (List.getElem?_eq_getElem (show i < args.length by omega))
    obtain ⟨r₁, g1, g2, ds₁, args₁, g3, _, g4⟩ := derives_inv hd'
    have hn' := hn3 i _ _ he e2
    cases e with
    | node rid' es' =>
      have hvar : ∀ j, j < r₁.composition.length → (i, j) ∈ varsOf r.composition := fun j hj =>
        (lcfrs_var hl hr).2 ⟨_, e1, r₁, g1, g2, hj⟩
      have hr₁ : rules[rid']? = some r₁ := by
        rw [g3] at hn'
        exact (numbers_node.1 hn').1
      have hex : ∀ j, ∃ Q', j < r₁.composition.length → (∀ comp, r₁.composition[j]? = some comp → Encodes rules es' comp Q') ∧
          ∃ k < r.composition.length, ((i, j), rid', Q') ∈ Parts.tops (Q k) := by
        intro j
        by_cases hj : j < r₁.composition.length
        · obtain ⟨c, h1, h2⟩ := mem_varsOf.1 (hvar j hj)
          obtain ⟨k, hk, rfl⟩ := List.getElem_of_mem h1
          obtain ⟨a, b, c', comp', Q', k1, k2, k3, k4, k5⟩ := encodes_tops (hQ k _ (List.getElem?_eq_getElem hk)) h2
          rw [he, Option.some.injEq] at k1
          cases k1
          rw [hr₁, Option.some.injEq] at k2
          subst k2
          refine ⟨Q', fun _ => ⟨fun comp hc' => ?_, k, hk, k5⟩⟩
          rw [hc', Option.some.injEq] at k3
          subst k3
          exact k4
        · exact ⟨.nil, fun h => absurd h hj⟩
      choose Q' hQ' using hex
      have := ih' rid' es' r₁ ds₁ Q' g3 hn' (fun j comp hj => (hQ' j (List.getElem?_eq_some_iff.1 hj).1).1 comp hj) p x hp
      rcases this with rfl | ⟨j, hj, h⟩
      · obtain ⟨_, k, hk, hk'⟩ := hQ' 0 (List.length_pos_iff.2 (hne r₁ g1))
        simp only [DTree.at?, Option.some.injEq] at hp
        subst hp
        exact ⟨k, hk, mem_visits.2 ⟨_, _, _, _, hk', [], rfl, by simp⟩⟩
      · obtain ⟨_, k, hk, hk'⟩ := hQ' j hj
        exact ⟨k, hk, mem_visits.2 ⟨_, _, _, _, hk', p, rfl, by simp [h]⟩⟩

/-- What `toderiv` returns for the bracket word of a derivation. -/
theorem toderiv_encodes {init : N} (hl : IsLcfrs rules init) (hne : ∀ r ∈ rules, r.composition ≠ []) {d : DTree (PMCFGRule N T W)} {u : List T} (hd : Derives rules init d [u]) {rid : Nat}
    {es : List (DTree Nat)} (hn : Numbers rules (.node rid es) d) {r : PMCFGRule N T W} {comp : List (VarT T)} {P : Parts} (hr : rules[rid]? = some r)
    (hc : r.composition[0]? = some comp) (hP : Encodes rules es comp P) :
    ∃ m : GornTree (PMCFGRule N T W), toderiv rules (compWord rid 0 P) = some (some m) ∧ m.Sorted ∧ ∀ p, m.get p = d.at? p := by
  obtain ⟨r', h1, h2, ds, args, rfl, _, h3⟩ := derives_inv hd
  obtain rfl : r = r' := by
    have := (numbers_node.1 hn).1
    rw [hr, Option.some.injEq] at this
    exact this
  have hl1 : r.composition.length = 1 := by rw [← compose_length h3]; rfl
  obtain ⟨m, k1, k2, k3⟩ := toderiv_some (rules := rules) (c := 0) (encodes_consistent (rid := rid) hP) (fun x hx => by
    rcases List.mem_cons.1 hx with rfl | hx
    · exact (List.getElem?_eq_some_iff.1 hr).1
    · exact (encodes_visits hP 0 x.1 x.2 hx).2)
  refine ⟨m, k1, k2, fun p => ?_⟩
  have key : ∀ x, (p, x) ∈ ([], rid) :: P.visits [] ↔ (DTree.node rid es).at? p = some x := by
    intro x
    constructor
    · intro h
      rcases List.mem_cons.1 h with h | h
      · cases h
        rfl
      · exact (encodes_visits hP rid p x h).1
    · intro h
      rcases encodes_covers hl hne hd rid es r ds (fun _ => P) rfl hn (fun j comp' hj => by
        have : j = 0 := by
          have := (List.getElem?_eq_some_iff.1 hj).1
          omega
        subst this
        rw [hc, Option.some.injEq] at hj
        exact hj ▸ hP) p x h with rfl | ⟨_, _, h⟩
      · simp only [DTree.at?, Option.some.injEq] at h
        simp [h]
      · simp [h]
  have hnp := hn p
  refine Option.ext fun r' => ?_
  rw [k3]
  constructor
  · rintro ⟨rid', h, h'⟩
    rw [key] at h
    rw [h] at hnp
    simp only [Option.map_some] at hnp
    rw [h'] at hnp
    obtain ⟨y, hy, e⟩ := Option.map_eq_some_iff.1 hnp.symm
    cases e
    exact hy
  · intro h
    rw [h] at hnp
    simp only [Option.map_some] at hnp
    obtain ⟨y, hy, e⟩ := Option.map_eq_some_iff.1 hnp
    exact ⟨y, (key y).2 hy, e⟩

end

end Rustomata
