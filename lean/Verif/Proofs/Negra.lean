import Verif.Model.Negra
import Verif.Spec.Negra
import Verif.Proofs.CfgPmcfg
import Verif.Proofs.TreeStack

/-!
# Facts about the NEGRA export
-/

namespace Rustomata
open Spec

section Related
variable {T T' : Type _}

/-- Related symbols. -/
inductive SymRel (R : T → T' → Prop) : VarT T → VarT T' → Prop
  | var (i j : Nat) : SymRel R (.var i j) (.var i j)
  | t {a : T} {b : T'} : R a b → SymRel R (.t a) (.t b)

theorem symRel_vars {R : T → T' → Prop} {c : Composition T} {c' : Composition T'} (h : List.Forall₂ (List.Forall₂ (SymRel R)) c c') : varsOf c = varsOf c' := by
  have aux : ∀ {s : List (VarT T)} {s' : List (VarT T')}, List.Forall₂ (SymRel R) s s' → varsOf [s] = varsOf [s'] := by
    intro s s' h
    induction h with
    | nil => rfl
    | cons hx _ ih =>
      cases hx <;> (unfold varsOf at ih ⊢; simp_all)
  induction h with
  | nil => rfl
  | cons hx _ ih =>
    have := aux hx
    unfold varsOf at this ih ⊢
    simp_all [List.filterMap_append]

theorem forall₂_append' {A B : Type _} {R : A → B → Prop} {l₁ l₂ : List A} {r₁ r₂ : List B} (h₁ : List.Forall₂ R l₁ r₁) (h₂ : List.Forall₂ R l₂ r₂) :
    List.Forall₂ R (l₁ ++ l₂) (r₁ ++ r₂) := by
  induction h₁ with
  | nil => exact h₂
  | cons h _ ih => exact .cons h ih

theorem forall₂_flattenR {A B : Type _} {R : A → B → Prop} {l : List (List A)} {r : List (List B)} (h : List.Forall₂ (List.Forall₂ R) l r) :
    List.Forall₂ R l.flatten r.flatten := by
  induction h with
  | nil => exact .nil
  | cons h _ ih => exact forall₂_append' h ih

theorem forall₂_get {A B : Type _} {R : A → B → Prop} {l : List A} {r : List B} (h : List.Forall₂ R l r) {n : Nat} {x : A} (hx : l[n]? = some x) :
    ∃ y, r[n]? = some y ∧ R x y := by
  induction h generalizing n with
  | nil => simp at hx
  | cons h _ ih =>
    cases n with
    | zero => simp at hx; subst hx; exact ⟨_, by simp, h⟩
    | succ n => simpa using ih (by simpa using hx)

theorem substAll_related {R : T → T' → Prop} {s : List (VarT T)} {s' : List (VarT T')} (h : List.Forall₂ (SymRel R) s s')
    {args : Nat → Option (List (List T))} {args' : Nat → Option (List (List T'))}
    (ha : ∀ i j x, VarT.var i j ∈ s → args i = some x → ∃ y, args' i = some y ∧ List.Forall₂ (List.Forall₂ R) x y) {v : List T} (hv : substAll args s = some v) :
    ∃ u, substAll args' s' = some u ∧ List.Forall₂ R v u := by
  unfold substAll at hv ⊢
  simp only [Option.map_eq_some_iff, mapM_some_iff] at hv ⊢
  obtain ⟨vs, hvs, rfl⟩ := hv
  suffices ∃ us, List.Forall₂ (fun x u => subst args' x = some u) s' us ∧ List.Forall₂ (List.Forall₂ R) vs us by
    obtain ⟨us, h1, h2⟩ := this
    exact ⟨_, ⟨us, h1, rfl⟩, forall₂_flattenR h2⟩
  induction h generalizing vs with
  | nil => cases hvs; exact ⟨[], .nil, .nil⟩
  | @cons x x' s s' hx _ ih =>
    cases hvs with
    | @cons _ w _ ws hw hws =>
      obtain ⟨us, h1, h2⟩ := ih (fun i j y hm => ha i j y (List.mem_cons_of_mem _ hm)) _ hws
      cases hx with
      | var i j =>
        simp only [subst, Option.bind_eq_some_iff] at hw
        obtain ⟨y, hy, hw⟩ := hw
        obtain ⟨y', hy', hr⟩ := ha i j y (by simp) hy
        obtain ⟨w', hw', hr⟩ := forall₂_get hr hw
        exact ⟨w' :: us, .cons (by simp [subst, hy', hw']) h1, .cons hr h2⟩
      | @t a b hab =>
        simp only [subst, Option.some.injEq] at hw
        subst hw
        exact ⟨[b] :: us, .cons (by simp [subst]) h1, .cons (.cons hab .nil) h2⟩

theorem compose_related {R : T → T' → Prop} {c : Composition T} {c' : Composition T'} (h : List.Forall₂ (List.Forall₂ (SymRel R)) c c')
    {args : Nat → Option (List (List T))} {args' : Nat → Option (List (List T'))}
    (ha : ∀ i j x, (i, j) ∈ varsOf c → args i = some x → ∃ y, args' i = some y ∧ List.Forall₂ (List.Forall₂ R) x y) {v : List (List T)}
    (hv : compose args c = some v) : ∃ u, compose args' c' = some u ∧ List.Forall₂ (List.Forall₂ R) v u := by
  unfold compose at hv ⊢
  simp only [mapM_some_iff] at hv ⊢
  induction h generalizing v with
  | nil => cases hv; exact ⟨[], .nil, .nil⟩
  | @cons x x' s s' hx _ ih =>
    cases hv with
    | @cons _ w _ ws hw hws =>
      obtain ⟨us, h1, h2⟩ := ih (fun i j y hm => ha i j y (by unfold varsOf at hm ⊢; simp only [List.flatten_cons, List.filterMap_append, List.mem_append]; exact Or.inr hm)) hws
      obtain ⟨u, h3, h4⟩ := substAll_related hx (fun i j y hm => ha i j y (by
        unfold varsOf; simp only [List.flatten_cons, List.filterMap_append, List.mem_append, List.mem_filterMap]
        exact Or.inl ⟨_, hm, rfl⟩)) hw
      exact ⟨u :: us, .cons h3 h1, .cons h4 h2⟩

theorem forall₂_flip {A B : Type _} {R : A → B → Prop} {S : B → A → Prop} (hRS : ∀ a b, R a b → S b a) {l : List A} {r : List B} (h : List.Forall₂ R l r) :
    List.Forall₂ S r l := by
  induction h with
  | nil => exact .nil
  | cons h _ ih => exact .cons (hRS _ _ h) ih

theorem symRel_flip {R : T → T' → Prop} {x : VarT T} {y : VarT T'} (h : SymRel R x y) : SymRel (fun b a => R a b) y x := by
  cases h with
  | var i j => exact .var i j
  | t h => exact .t h

/-- Trees whose terms are related evaluate to related tuples. -/
theorem eval_related {R : T → T' → Prop} {m : List Nat → Option (Composition T)} {m' : List Nat → Option (Composition T')}
    (h : ∀ a c, m a = some c → ∃ c', m' a = some c' ∧ List.Forall₂ (List.Forall₂ (SymRel R)) c c') {a : List Nat} {v : List (List T)} (hv : Eval m a v) :
    ∃ u, Eval m' a u ∧ List.Forall₂ (List.Forall₂ R) v u := by
  induction hv with
  | @node a c v sub hc hsub hv ih =>
    obtain ⟨c', hc', hr⟩ := h a c hc
    have : ∀ i, ∃ u, ∀ j, (i, j) ∈ varsOf c → Eval m' (a ++ [i]) u ∧ List.Forall₂ (List.Forall₂ R) (sub i) u := by
      intro i
      by_cases hi : ∃ j, (i, j) ∈ varsOf c
      · obtain ⟨j, hj⟩ := hi
        obtain ⟨u, hu⟩ := ih i j hj
        exact ⟨u, fun _ _ => hu⟩
      · exact ⟨[], fun j hj => absurd ⟨j, hj⟩ hi⟩
    choose sub' hsub' using this
    obtain ⟨u, hu, hvu⟩ := compose_related hr (args := fun i => some (sub i)) (args' := fun i => some (sub' i))
      (fun i j x hij hx => ⟨sub' i, rfl, by cases hx; exact (hsub' i j hij).2⟩) hv
    exact ⟨u, .node hc' (fun i j hij => (hsub' i j (by rw [symRel_vars hr]; exact hij)).1) hu, hvu⟩

theorem substAll_mem {args : Nat → Option (List (List T))} {s : List (VarT T)} {v : List T} (hv : substAll args s = some v) (x : T) :
    x ∈ v ↔ VarT.t x ∈ s ∨ ∃ i j y w, VarT.var i j ∈ s ∧ args i = some y ∧ y[j]? = some w ∧ x ∈ w := by
  unfold substAll at hv
  simp only [Option.map_eq_some_iff, mapM_some_iff] at hv
  obtain ⟨vs, hvs, rfl⟩ := hv
  rw [List.mem_flatten]
  constructor
  · rintro ⟨w, hw, hx⟩
    obtain ⟨y, hy, hyw⟩ := forall₂_mem_right hvs hw
    cases y with
    | var i j =>
      simp only [subst, Option.bind_eq_some_iff] at hyw
      obtain ⟨y, h1, h2⟩ := hyw
      exact Or.inr ⟨i, j, y, w, hy, h1, h2, hx⟩
    | t a =>
      simp only [subst, Option.some.injEq] at hyw
      subst hyw
      simp only [List.mem_singleton] at hx
      subst hx; exact Or.inl hy
  · rintro (h | ⟨i, j, y, w, h, h1, h2, hx⟩)
    · obtain ⟨w, hw, h'⟩ := forall₂_mem_left hvs h
      simp only [subst, Option.some.injEq] at h'
      exact ⟨w, hw, by simp [← h']⟩
    · obtain ⟨w', hw', h'⟩ := forall₂_mem_left hvs h
      simp only [subst, h1, Option.bind_some, h2, Option.some.injEq] at h'
      exact ⟨w', hw', by rw [← h']; exact hx⟩

theorem compose_mem {args : Nat → Option (List (List T))} {c : Composition T} {v : List (List T)} (hv : compose args c = some v) (x : T) :
    x ∈ v.flatten ↔ VarT.t x ∈ c.flatten ∨ ∃ i j y w, (i, j) ∈ varsOf c ∧ args i = some y ∧ y[j]? = some w ∧ x ∈ w := by
  unfold compose at hv
  simp only [mapM_some_iff] at hv
  induction hv with
  | nil => simp [varsOf]
  | cons hx _ ih =>
    simp only [List.flatten_cons, List.mem_append, ih, substAll_mem hx]
    unfold varsOf
    simp only [List.flatten_cons, List.filterMap_append, List.mem_append]
    constructor
    · rintro ((h | ⟨i, j, y, w, h, h'⟩) | (h | ⟨i, j, y, w, h, h'⟩))
      · exact Or.inl (Or.inl h)
      · exact Or.inr ⟨i, j, y, w, Or.inl (List.mem_filterMap.2 ⟨_, h, rfl⟩), h'⟩
      · exact Or.inl (Or.inr h)
      · exact Or.inr ⟨i, j, y, w, Or.inr h, h'⟩
    · rintro ((h | h) | ⟨i, j, y, w, h | h, h'⟩)
      · exact Or.inl (Or.inl h)
      · exact Or.inr (Or.inl h)
      · refine Or.inl (Or.inr ⟨i, j, y, w, ?_, h'⟩)
        obtain ⟨z, hz, hz'⟩ := List.mem_filterMap.1 h
        cases z <;> simp_all
      · exact Or.inr (Or.inr ⟨i, j, y, w, h, h'⟩)

end Related

section Identify
variable {N T W : Type _}

theorem identifyComponent_related (a : List Nat) (tm : AMap TermId T) (s : List (VarT T)) (pos : Nat)
    (h : ∀ e ∈ (identifyComponent a pos s).2, tm.get e.1 = some e.2) :
    List.Forall₂ (SymRel fun (p : T × List Nat) (i : TermId) => i.1 = p.2 ∧ tm.get i = some p.1)
      (s.map fun | .var i j => .var i j | .t t => .t (t, a)) (identifyComponent a pos s).1 := by
  induction s generalizing pos with
  | nil => exact .nil
  | cons x s ih =>
    cases x with
    | var i j =>
      simp only [identifyComponent] at h
      exact .cons (.var i j) (ih _ h)
    | t t =>
      simp only [identifyComponent, List.mem_cons] at h
      exact .cons (.t ⟨rfl, h _ (Or.inl rfl)⟩) (ih _ fun e he => h e (Or.inr he))

theorem identifyComponents_related (a : List Nat) (tm : AMap TermId T) (c : Composition T) (pos : Nat)
    (h : ∀ e ∈ (identifyComponents a pos c).2, tm.get e.1 = some e.2) :
    List.Forall₂ (List.Forall₂ (SymRel fun (p : T × List Nat) (i : TermId) => i.1 = p.2 ∧ tm.get i = some p.1))
      (locate a c) (identifyComponents a pos c).1 := by
  induction c generalizing pos with
  | nil => exact .nil
  | cons s c ih =>
    simp only [identifyComponents, List.mem_append] at h
    exact .cons (identifyComponent_related a tm s pos fun e he => h e (Or.inl he)) (ih _ fun e he => h e (Or.inr he))

theorem identifyComponent_keys (a : List Nat) (s : List (VarT T)) (pos : Nat) :
    (∀ e ∈ (identifyComponent a pos s).2, e.1.1 = a ∧ pos ≤ e.1.2 ∧ e.1.2 < pos + s.length) ∧ ((identifyComponent a pos s).2.map Prod.fst).Nodup := by
  induction s generalizing pos with
  | nil => simp [identifyComponent]
  | cons x s ih =>
    obtain ⟨h1, h2⟩ := ih (pos + 1)
    cases x with
    | var i j =>
      simp only [identifyComponent]
      exact ⟨fun e he => ⟨(h1 e he).1, by have := (h1 e he).2; simp; omega⟩, h2⟩
    | t t =>
      simp only [identifyComponent, List.map_cons, List.nodup_cons]
      refine ⟨fun e he => ?_, ?_, h2⟩
      · rcases List.mem_cons.1 he with rfl | he
        · simp
        · exact ⟨(h1 e he).1, by have := (h1 e he).2; simp; omega⟩
      · intro hm
        obtain ⟨e, he, hk⟩ := List.mem_map.1 hm
        have := (h1 e he).2
        rw [hk] at this
        simp at this

theorem identifyComponents_keys (a : List Nat) (c : Composition T) (pos : Nat) :
    (∀ e ∈ (identifyComponents a pos c).2, e.1.1 = a ∧ pos ≤ e.1.2) ∧ ((identifyComponents a pos c).2.map Prod.fst).Nodup := by
  induction c generalizing pos with
  | nil => simp [identifyComponents]
  | cons s c ih =>
    obtain ⟨h1, h2⟩ := ih (pos + s.length)
    obtain ⟨h3, h4⟩ := identifyComponent_keys a s pos
    simp only [identifyComponents, List.mem_append, List.map_append]
    refine ⟨fun e he => ?_, List.nodup_append'.2 ⟨h4, h2, ?_⟩⟩
    · rcases he with he | he
      · exact ⟨(h3 e he).1, (h3 e he).2.1⟩
      · exact ⟨(h1 e he).1, by have := (h1 e he).2; omega⟩
    · intro k hk hk'
      obtain ⟨e, he, rfl⟩ := List.mem_map.1 hk
      obtain ⟨e', he', hk⟩ := List.mem_map.1 hk'
      have := (h3 e he).2
      have := (h1 e' he').2
      rw [hk] at this
      omega

theorem get_foldl_set {K V : Type _} [DecidableEq K] (l : List (K × V)) (m : AMap K V) (hl : (l.map Prod.fst).Nodup) :
    (∀ e ∈ l, (l.foldl (fun tm x => tm.set x.1 x.2) m).get e.1 = some e.2) ∧
    ∀ k, k ∉ l.map Prod.fst → (l.foldl (fun tm x => tm.set x.1 x.2) m).get k = m.get k := by
  induction l generalizing m with
  | nil => simp
  | cons x l ih =>
    simp only [List.map_cons, List.nodup_cons] at hl
    obtain ⟨h1, h2⟩ := ih (m.set x.1 x.2) hl.2
    simp only [List.foldl_cons, List.map_cons, List.mem_cons, not_or]
    refine ⟨?_, ?_⟩
    · rintro e (rfl | he)
      · rw [h2 _ hl.1, AMap.get_set_self]
      · exact h1 e he
    · rintro k ⟨hk, hk'⟩
      rw [h2 k hk', AMap.get_set, if_neg (Ne.symm hk)]

/-- The two results of `identify_terminals`. -/
theorem identifyTerminals_eq (m : GornTree (Composition T)) :
    identifyTerminals m = (m.foldl (fun r p => GornTree.insert r p.1 (identifyComponents p.1 0 p.2).1) [],
      (m.flatMap fun p => (identifyComponents p.1 0 p.2).2).foldl (fun (tm : AMap TermId T) x => tm.set x.1 x.2) []) := by
  have aux : ∀ (m : GornTree (Composition T)) (r : GornTree (Composition TermId) × AMap TermId T),
      m.foldl (fun r p => (r.1.insert p.1 (identifyComponents p.1 0 p.2).1, (identifyComponents p.1 0 p.2).2.foldl (fun tm x => tm.set x.1 x.2) r.2)) r =
      (m.foldl (fun r p => GornTree.insert r p.1 (identifyComponents p.1 0 p.2).1) r.1,
        (m.flatMap fun p => (identifyComponents p.1 0 p.2).2).foldl (fun tm x => tm.set x.1 x.2) r.2) := by
    intro m
    induction m with
    | nil => intro r; rfl
    | cons p m ih => intro r; simp only [List.foldl_cons, List.flatMap_cons, List.foldl_append, ih]
  exact aux m ([], [])

theorem foldl_insert_map {A B : Type _} (f : List Nat → A → B) (m : GornTree A) (hm : m.Sorted) (a : List Nat) :
    (m.foldl (fun r p => GornTree.insert r p.1 (f p.1 p.2)) []).get a = (m.get a).map (f a) := by
  have aux : ∀ (m : GornTree A) (r : GornTree B), m.Sorted → (m.foldl (fun r p => GornTree.insert r p.1 (f p.1 p.2)) r).get a =
      (match m.get a with | some x => some (f a x) | none => r.get a) := by
    intro m
    induction m with
    | nil => intro r _; simp [GornTree.get]
    | cons p m ih =>
      intro r hs
      obtain ⟨k, x⟩ := p
      have hs' : GornTree.Sorted m := (List.pairwise_cons.1 hs).2
      have hk : ∀ y ∈ m.map Prod.fst, k < y := (List.pairwise_cons.1 hs).1
      have := ih (r.insert k (f k x)) hs'
      simp only [List.foldl_cons, GornTree.get]
      simp only [GornTree.get_insert] at this
      by_cases h : a = k
      · subst h
        have hn : GornTree.get m a = none := by
          cases hg : GornTree.get m a with
          | none => rfl
          | some v => exact absurd (hk a (List.mem_map.2 ⟨_, GornTree.mem_of_get hg, rfl⟩)) (lt_irrefl _)
        simpa [hn] using this
      · simpa [h, Ne.symm h] using this
  have := aux m [] hm
  rw [this]
  cases m.get a <;> simp [GornTree.get]

theorem identifyTerminals_get {m : GornTree (Composition T)} (hm : m.Sorted) (a : List Nat) :
    (identifyTerminals m).1.get a = (m.get a).map fun c => (identifyComponents a 0 c).1 := by
  rw [identifyTerminals_eq]
  exact foldl_insert_map (fun a c => (identifyComponents a 0 c).1) m hm a

theorem identifyTerminals_related {m : GornTree (Composition T)} (hm : m.Sorted) (a : List Nat) (c : Composition T) (hc : m.get a = some c) :
    ∃ c', (identifyTerminals m).1.get a = some c' ∧
      List.Forall₂ (List.Forall₂ (SymRel fun (p : T × List Nat) (i : TermId) => i.1 = p.2 ∧ (identifyTerminals m).2.get i = some p.1)) (locate a c) c' := by
  rw [identifyTerminals_eq]
  refine ⟨(identifyComponents a 0 c).1, ?_, identifyComponents_related a _ c 0 fun e he => ?_⟩
  · have := foldl_insert_map (fun a c => (identifyComponents a 0 c).1) m hm a
    rw [hc] at this
    exact this
  · refine (get_foldl_set _ _ ?_).1 e (List.mem_flatMap.2 ⟨(a, c), GornTree.mem_of_get hc, he⟩)
    rw [List.map_flatMap, List.nodup_flatMap]
    refine ⟨fun p _ => (identifyComponents_keys p.1 p.2 0).2, ?_⟩
    have hm' : m.Pairwise (fun p q => p.1 < q.1) := List.pairwise_map.1 hm
    refine hm'.imp fun {p q} hpq k hk hk' => ?_
    obtain ⟨e, he, rfl⟩ := List.mem_map.1 hk
    obtain ⟨e', he', hk⟩ := List.mem_map.1 hk'
    have h1 := ((identifyComponents_keys p.1 p.2 0).1 e he).1
    have h2 := ((identifyComponents_keys q.1 q.2 0).1 e' he').1
    rw [hk, h1] at h2
    exact lt_irrefl _ (h2 ▸ hpq)

end Identify

section State

/-- Adds an address to the end unless it is already there. -/
def insAddr (I : List (List Nat)) (a : List Nat) : List (List Nat) := if a ∈ I then I else I ++ [a]

/-- The number of an address, where `I` are the addresses in the order in which they got their numbers. -/
def addrNum (I : List (List Nat)) (a : List Nat) : Nat := nodeNumber (I.filter (· ≠ [])) a

/-- The state after the addresses `I` got their numbers and the first `k` were taken out of the queue. -/
structure NegraRep (I : List (List Nat)) (k : Nat) (s : NegraState) : Prop where
  nodup : I.Nodup
  queue : s.queue = (I.drop k).map fun a => (a, addrNum I a)
  numbers : ∀ a, s.numbers.get a = if a ∈ I then some (addrNum I a) else none
  counter : s.counter = 500 + (I.filter (· ≠ [])).length

theorem addrNum_prefix {I J : List (List Nat)} (h : I <+: J) {a : List Nat} (ha : a ∈ I) : addrNum J a = addrNum I a := by
  obtain ⟨J, rfl⟩ := h
  unfold addrNum nodeNumber
  split
  · rfl
  · rw [List.filter_append, List.idxOf_append_of_mem (List.mem_filter.2 ⟨ha, by simpa using ‹¬ a = []›⟩)]

theorem insAddr_prefix (I : List (List Nat)) (a : List Nat) : I <+: insAddr I a := by
  unfold insAddr; split
  · exact List.prefix_rfl
  · exact List.prefix_append _ _

theorem mem_insAddr {I : List (List Nat)} {a b : List Nat} : b ∈ insAddr I a ↔ b ∈ I ∨ b = a := by
  unfold insAddr; split
  · constructor
    · exact Or.inl
    · rintro (h | rfl) <;> assumption
  · simp

theorem getRuleNumber_rep {I : List (List Nat)} {k : Nat} {s : NegraState} (h : NegraRep I k s) (hk : k ≤ I.length) (a : List Nat) :
    (getRuleNumber a s).1 = addrNum (insAddr I a) a ∧ NegraRep (insAddr I a) k (getRuleNumber a s).2 := by
  unfold getRuleNumber insAddr
  rw [h.numbers a]
  by_cases ha : a ∈ I
  · simp [ha, h]
  · simp only [if_neg ha]
    have hpre : I <+: I ++ [a] := List.prefix_append _ _
    have hnum : addrNum (I ++ [a]) a = if a = [] then 0 else s.counter := by
      unfold addrNum nodeNumber
      split
      · rfl
      · rename_i hne
        rw [List.filter_append, List.idxOf_append_of_notMem (fun hm => ha (List.mem_filter.1 hm).1), h.counter]
        simp [hne]
    refine ⟨by rw [hnum]; split <;> rfl, ?_, ?_, ?_, ?_⟩
    · exact List.nodup_append'.2 ⟨h.nodup, by simp, by simpa using ha⟩
    · rw [List.drop_append_of_le_length hk, List.map_append, List.map_singleton, hnum, h.queue]
      have : (I.drop k).map (fun a => (a, addrNum I a)) = (I.drop k).map fun b => (b, addrNum (I ++ [a]) b) :=
        List.map_congr_left fun b hb => by rw [addrNum_prefix hpre (List.mem_of_mem_drop hb)]
      rw [this]
      split <;> rfl
    · intro b
      simp only [GornTree.get_insert, h.numbers b, List.mem_append, List.mem_singleton]
      by_cases hb : b = a
      · subst hb
        rw [if_pos rfl, if_pos (Or.inr rfl), hnum]
        split <;> rfl
      · rw [if_neg hb]
        by_cases hI : b ∈ I
        · rw [if_pos hI, if_pos (Or.inl hI), addrNum_prefix hpre hI]
        · rw [if_neg hI, if_neg (by rintro (h | h) <;> contradiction)]
    · rw [List.filter_append, List.length_append]
      by_cases hne : a = []
      · simp [hne, h.counter]
      · simp [hne, h.counter, Nat.add_assoc]

variable {N T : Type _}

/-- The line of a terminal: its word, the label of its address, the number of its parent. -/
def TermLine (labels : List Nat → Option N) (J : List (List Nat)) (p : List Nat × T) (l : NegraLine N T) : Prop :=
  l.1 = .word p.2 ∧ labels p.1 = some l.2.1 ∧ l.2.2 = addrNum J p.1.dropLast

/-- The line of a node. -/
def NodeLine (labels : List Nat → Option N) (J : List (List Nat)) (a : List Nat) (l : NegraLine N T) : Prop :=
  l.1 = .node (addrNum J a) ∧ labels a = some l.2.1 ∧ l.2.2 = addrNum J a.dropLast

/-- The addresses that have a number after the first loop. -/
def termAddrs (I : List (List Nat)) (ids : List TermId) : List (List Nat) := ids.foldl (fun I i => insAddr I i.1.dropLast) I

theorem termAddrs_prefix (I : List (List Nat)) (ids : List TermId) : I <+: termAddrs I ids := by
  induction ids generalizing I with
  | nil => exact List.prefix_rfl
  | cons i ids ih => exact (insAddr_prefix I _).trans (ih _)

theorem mem_termAddrs {I : List (List Nat)} {ids : List TermId} {a : List Nat} : a ∈ termAddrs I ids ↔ a ∈ I ∨ ∃ i ∈ ids, a = i.1.dropLast := by
  induction ids generalizing I with
  | nil => simp [termAddrs]
  | cons i ids ih =>
    show a ∈ termAddrs (insAddr I i.1.dropLast) ids ↔ _
    rw [ih, mem_insAddr]
    simp only [List.mem_cons, exists_eq_or_imp, or_assoc]

/-- The words that are shown for the terminals. -/
def ModeWords (tm : AMap TermId T) (ids : List TermId) (ws : List T) : DumpMode T → Prop
  | none => List.Forall₂ (fun i w => tm.get i = some w) ids ws
  | some l => ∃ l', l = ws ++ l' ∧ ws.length = ids.length

/-- The first loop. -/
theorem negraTerminals_spec (labels : GornTree N) (tm : AMap TermId T) (ids : List TermId) (hne : ∀ i ∈ ids, i.1 ≠ []) (hlab : ∀ i ∈ ids, ∃ x, labels.get i.1 = some x)
    (mode : DumpMode T) (ws : List T) (hws : ModeWords tm ids ws mode)
    (I : List (List Nat)) (s : NegraState) (hs : NegraRep I 0 s) (acc : List (NegraLine N T)) :
    ∃ lines s', negraTerminals labels tm ids mode s acc = some (acc ++ lines, s') ∧ NegraRep (termAddrs I ids) 0 s' ∧
      ∀ J, termAddrs I ids <+: J → List.Forall₂ (TermLine labels.get J) ((ids.map Prod.fst).zip ws) lines := by
  induction ids generalizing mode ws I s acc with
  | nil => exact ⟨[], s, by simp [negraTerminals], hs, fun J _ => by simp⟩
  | cons i ids ih =>
    obtain ⟨x, hx⟩ := hlab i (by simp)
    have hi := hne i (by simp)
    obtain ⟨h1, h2⟩ := getRuleNumber_rep hs (Nat.zero_le _) i.1.dropLast
    have : ∃ w ws' mode', ws = w :: ws' ∧ nextWord tm i mode = some (w, mode') ∧ ModeWords tm ids ws' mode' := by
      cases mode with
      | none =>
        cases hws with
        | @cons _ w _ ws' h h' => exact ⟨w, ws', none, rfl, by simp [nextWord, h], h'⟩
      | some l =>
        obtain ⟨l', rfl, hl⟩ := hws
        cases ws with
        | nil => simp at hl
        | cons w ws' => exact ⟨w, ws', some (ws' ++ l'), rfl, rfl, l', rfl, by simpa using hl⟩
    obtain ⟨w, ws', mode', rfl, hw, hws'⟩ := this
    obtain ⟨lines, s', h3, h4, h5⟩ := ih (fun j hj => hne j (List.mem_cons_of_mem _ hj)) (fun j hj => hlab j (List.mem_cons_of_mem _ hj)) mode' ws' hws'
      (insAddr I i.1.dropLast) (getRuleNumber i.1.dropLast s).2 h2 (acc ++ [(.word w, x, (getRuleNumber i.1.dropLast s).1)])
    refine ⟨(.word w, x, (getRuleNumber i.1.dropLast s).1) :: lines, s', ?_, h4, fun J hJ => ?_⟩
    · simp only [negraTerminals, hw, hx, if_neg hi, h3, List.append_assoc, List.singleton_append]
    · refine .cons ⟨rfl, hx, ?_⟩ (h5 J hJ)
      show (getRuleNumber i.1.dropLast s).1 = _
      rw [h1, addrNum_prefix ((termAddrs_prefix (insAddr I i.1.dropLast) ids).trans hJ) (mem_insAddr.2 (Or.inr rfl))]

theorem negraTerminals_some {labels : GornTree N} {tm : AMap TermId T} {ids : List TermId} {mode : DumpMode T} {s : NegraState} {acc : List (NegraLine N T)}
    {r : List (NegraLine N T) × NegraState} (h : negraTerminals labels tm ids mode s acc = some r) :
    (∀ i ∈ ids, i.1 ≠ []) ∧ ∀ ws, mode = some ws → ids.length ≤ ws.length := by
  induction ids generalizing mode s acc with
  | nil => simp
  | cons i ids ih =>
    simp only [negraTerminals] at h
    split at h
    · rename_i w mode' label hw hlab
      split at h
      · cases h
      · rename_i hne
        obtain ⟨h1, h2⟩ := ih h
        refine ⟨fun j hj => ?_, ?_⟩
        · rcases List.mem_cons.1 hj with rfl | hj
          · exact hne
          · exact h1 j hj
        · rintro ws rfl
          cases ws with
          | nil => simp [nextWord] at hw
          | cons w' ws =>
            simp only [nextWord, Option.some.injEq, Prod.mk.injEq] at hw
            have := h2 ws hw.2.symm
            simpa using this
    · cases h

/-- The second loop. -/
theorem negraNodes_spec (labels : GornTree N) (K : List (List Nat)) (hK : ∀ a x, labels.get a = some x → a ∈ K) (n : Nat) (I : List (List Nat)) (k : Nat) (hk : k ≤ I.length) (s : NegraState) (hs : NegraRep I k s)
    (hlab : ∀ a ∈ I, ∀ p, p <+: a → ∃ x, labels.get p = some x) (hn : K.length < n + k)
    (hcl : ∀ a ∈ I.take k, a ≠ [] → a.dropLast ∈ I) (acc : List (NegraLine N T)) :
    ∃ J lines, I <+: J ∧ J.Nodup ∧ (∀ a ∈ J, a ≠ [] → a.dropLast ∈ J) ∧ (∀ a ∈ J, ∃ b ∈ I, a <+: b) ∧
      negraNodes labels n s acc = some (acc ++ lines) ∧ List.Forall₂ (NodeLine labels.get J) ((J.drop k).filter (· ≠ [])) lines := by
  induction n generalizing I k s acc with
  | zero =>
    exfalso
    have h1 : I.length ≤ K.length := by
      refine (List.subperm_of_subset hs.nodup fun a ha => ?_).length_le
      obtain ⟨x, hx⟩ := hlab a ha a List.prefix_rfl
      exact hK a x hx
    omega
  | succ n ih =>
    rcases Nat.lt_or_ge k I.length with hlt | hge
    · have hd : I.drop k = I[k] :: I.drop (k + 1) := List.drop_eq_getElem_cons hlt
      have hq : s.queue = (I[k], addrNum I I[k]) :: (I.drop (k + 1)).map fun a => (a, addrNum I a) := by rw [hs.queue, hd]; rfl
      have hmem : I[k] ∈ I := List.getElem_mem hlt
      generalize hak : I[k] = a at hq hd hmem
      have hs1 : NegraRep I (k + 1) { s with queue := (I.drop (k + 1)).map fun a => (a, addrNum I a) } := ⟨hs.nodup, rfl, hs.numbers, hs.counter⟩
      have htake : I.take (k + 1) = I.take k ++ [a] := by rw [List.take_succ, List.getElem?_eq_getElem hlt, hak]; rfl
      by_cases ha : a = []
      · obtain ⟨J, lines, h1, h2, h3, h4, h5, h6⟩ := ih I (k + 1) hlt _ hs1 hlab (by omega) (by
          intro b hb hne
          rw [htake] at hb
          rcases List.mem_append.1 hb with hb | hb
          · exact hcl b hb hne
          · simp at hb; exact absurd (hb.trans ha) hne) acc
        refine ⟨J, lines, h1, h2, h3, h4, ?_, ?_⟩
        · simp only [negraNodes, hq, if_pos ha]
          exact h5
        · have : J.drop k = a :: J.drop (k + 1) := by
            obtain ⟨J', rfl⟩ := h1
            rw [List.drop_append_of_le_length (by omega), hd, List.drop_append_of_le_length (by omega)]; rfl
          rw [this, List.filter_cons]
          simpa [ha] using h6
      · obtain ⟨h7, h8⟩ := getRuleNumber_rep hs1 hlt a.dropLast
        obtain ⟨x, hx⟩ := hlab a hmem a List.prefix_rfl
        have hpre := insAddr_prefix I a.dropLast
        obtain ⟨J, lines, h1, h2, h3, h4, h5, h6⟩ := ih (insAddr I a.dropLast) (k + 1) (le_trans hlt hpre.length_le) _ h8 (by
            intro b hb p hp
            rcases mem_insAddr.1 hb with hb | rfl
            · exact hlab b hb p hp
            · exact hlab a hmem p (hp.trans (List.dropLast_prefix a))) (by omega) (by
            intro b hb hne
            have : (insAddr I a.dropLast).take (k + 1) = I.take (k + 1) := by
              obtain ⟨J', hJ'⟩ := hpre
              rw [← hJ', List.take_append_of_le_length hlt]
            rw [this, htake] at hb
            rcases List.mem_append.1 hb with hb | hb
            · exact mem_insAddr.2 (Or.inl (hcl b hb hne))
            · simp at hb; subst hb; exact mem_insAddr.2 (Or.inr rfl))
          (acc ++ [(.node (addrNum I a), x, (getRuleNumber a.dropLast { s with queue := (I.drop (k + 1)).map fun a => (a, addrNum I a) }).1)])
        refine ⟨J, (.node (addrNum I a), x, (getRuleNumber a.dropLast { s with queue := (I.drop (k + 1)).map fun a => (a, addrNum I a) }).1) :: lines,
          hpre.trans h1, h2, h3, ?_, ?_, ?_⟩
        · intro b hb
          obtain ⟨c, hc, hbc⟩ := h4 b hb
          rcases mem_insAddr.1 hc with hc | rfl
          · exact ⟨c, hc, hbc⟩
          · exact ⟨a, hmem, hbc.trans (List.dropLast_prefix a)⟩
        · simp only [negraNodes, hq, if_neg ha, hx, h5, List.append_assoc, List.singleton_append]
        · have : J.drop k = a :: J.drop (k + 1) := by
            obtain ⟨J', rfl⟩ := hpre.trans h1
            rw [List.drop_append_of_le_length (by omega), hd, List.drop_append_of_le_length (by omega)]; rfl
          rw [this, List.filter_cons, if_pos (by simpa using ha)]
          refine .cons ⟨?_, hx, ?_⟩ h6
          · rw [addrNum_prefix (hpre.trans h1) hmem]
          · show (getRuleNumber a.dropLast _).1 = _
            rw [h7, addrNum_prefix h1 (mem_insAddr.2 (Or.inr rfl))]
    · have hk' : k = I.length := le_antisymm hk hge
      refine ⟨I, [], List.prefix_rfl, hs.nodup, ?_, fun a ha => ⟨a, ha, List.prefix_rfl⟩, ?_, ?_⟩
      · rw [hk', List.take_length] at hcl
        exact hcl
      · have : s.queue = [] := by rw [hs.queue, hk', List.drop_length]; rfl
        simp [negraNodes, this]
      · rw [hk', List.drop_length]; exact .nil

end State

section Dominate
variable {T : Type _}

theorem mem_locate {a : List Nat} {c : Composition T} {t : T} {b : List Nat} : VarT.t (t, b) ∈ (locate a c).flatten ↔ b = a ∧ VarT.t t ∈ c.flatten := by
  unfold locate
  simp only [List.mem_flatten, List.mem_map]
  constructor
  · rintro ⟨_, ⟨s, hs, rfl⟩, hm⟩
    obtain ⟨x, hx, hx'⟩ := List.mem_map.1 hm
    cases x with
    | var i j => simp at hx'
    | t u =>
      simp only [VarT.t.injEq, Prod.mk.injEq] at hx'
      exact ⟨hx'.2.symm, s, hs, hx'.1 ▸ hx⟩
  · rintro ⟨rfl, s, hs, hm⟩
    exact ⟨_, ⟨s, hs, rfl⟩, List.mem_map.2 ⟨_, hm, rfl⟩⟩

theorem varsOf_locate (a : List Nat) (c : Composition T) : varsOf (locate a c) = varsOf c := by
  unfold varsOf locate
  rw [← List.map_flatten, List.filterMap_map]
  congr 1
  funext x
  cases x <;> rfl

/-- Where the terminals come from. -/
theorem eval_located {m : List Nat → Option (Composition T)} {a : List Nat} {v : List (List (T × List Nat))}
    (hv : Eval (fun a => (m a).map (locate a)) a v) {t : T} {b : List Nat} (hb : (t, b) ∈ v.flatten) :
    ∃ q, b = a ++ q ∧ (∃ c, m b = some c ∧ VarT.t t ∈ c.flatten) ∧ ∀ p i r, q = p ++ i :: r → ∃ c j, m (a ++ p) = some c ∧ (i, j) ∈ varsOf c := by
  induction hv with
  | @node a c v sub hc hsub hv ih =>
    rw [Option.map_eq_some_iff] at hc
    obtain ⟨c, hc, rfl⟩ := hc
    rcases (compose_mem hv (t, b)).1 hb with h | ⟨i, j, y, w, hij, hy, hw, hx⟩
    · obtain ⟨rfl, h'⟩ := mem_locate.1 h
      exact ⟨[], by simp, ⟨c, hc, h'⟩, fun p i r h => by simp at h⟩
    · cases hy
      obtain ⟨q, hq, h1, h2⟩ := ih i j hij (List.mem_flatten.2 ⟨w, List.mem_of_getElem? hw, hx⟩)
      refine ⟨i :: q, by rw [hq]; simp, h1, fun p i' r h => ?_⟩
      cases p with
      | nil =>
        simp only [List.nil_append, List.cons.injEq] at h
        rw [← h.1]
        exact ⟨c, j, by simpa using hc, by rwa [varsOf_locate] at hij⟩
      | cons p₀ p =>
        simp only [List.cons_append, List.cons.injEq] at h
        obtain ⟨c', j', h3, h4⟩ := h2 p i' r h.2
        exact ⟨c', j', by rw [← h.1]; simpa using h3, h4⟩

end Dominate

end Rustomata
