import Verif.Proofs.CsCow
import Verif.Proofs.CsKBestRead
import Verif.Spec.CsFallback

/-!
# The fallback derivation
-/

namespace Rustomata
open Spec

section
variable {N T W : Type _}

/-- A component in a group that is merged, with its rule and its parts. -/
structure CowItem (N T W : Type _) where
  comp : Nat
  rid : Nat
  parts : Parts
  word : List T
  rule : PMCFGRule N T W
  syms : List (VarT T)
  its : List (PartItem T W)

/-- The item is a component of `A` with its parts. -/
structure CowItem.Ok [CommMonoid W] (factorize : W → Nat → List W) (rules : List (PMCFGRule N T W)) (A : N) (m : CowItem N T W) : Prop where
  rule : rules[m.rid]? = some m.rule
  head : m.rule.head = A
  comp : m.rule.composition[m.comp]? = some m.syms
  tops : m.its.map (fun x => (x.key, x.rid, x.inside)) = Parts.tops m.parts
  keys : m.its.map PartItem.key = varsOf [m.syms]
  its : ∀ x ∈ m.its, x.Ok factorize rules m.rule.tail
  spell : ∀ (re : AMap (Nat × Nat) Nat) (args : Nat → Option (List (List T))) (c' : List (VarT T)), m.syms.mapM (mergeSymbol re m.rid) = some c' →
    (∀ x ∈ m.its, ∃ n, re.get (m.rid, x.key.1) = some n ∧ ((args n).bind fun v => v[x.key.2]?) = some x.word) → substAll args c' = some m.word

theorem substAll_cons {args : Nat → Option (List (List T))} {x : VarT T} {c : List (VarT T)} {u v : List T} (h1 : subst args x = some u)
    (h2 : substAll args c = some v) : substAll args (x :: c) = some (u ++ v) := by
  unfold substAll at h2 ⊢
  rw [Option.map_eq_some_iff] at h2
  obtain ⟨l, hl, rfl⟩ := h2
  simp [h1, hl]

theorem fits_full [CommMonoid W] {factorize : W → Nat → List W} {rules : List (PMCFGRule N T W)} {tail : List N} {comp : List (VarT T)} {P : Parts}
    {u : List T} {w : W} (h : Fits factorize (indexed rules) tail comp P u w) :
    ∃ its : List (PartItem T W), its.map (fun x => (x.key, x.rid, x.inside)) = Parts.tops P ∧ its.map PartItem.key = varsOf [comp] ∧
      (∀ x ∈ its, x.Ok factorize rules tail) ∧
      ∀ (rid : Nat) (re : AMap (Nat × Nat) Nat) (args : Nat → Option (List (List T))) (c' : List (VarT T)), comp.mapM (mergeSymbol re rid) = some c' →
        (∀ x ∈ its, ∃ n, re.get (rid, x.key.1) = some n ∧ ((args n).bind fun v => v[x.key.2]?) = some x.word) → substAll args c' = some u := by
  induction h with
  | nil =>
    refine ⟨[], rfl, rfl, by simp, fun rid re args c' hc _ => ?_⟩
    cases hc
    rfl
  | @term tail c a P u w _ ih =>
    obtain ⟨its, h1, h2, h3, h4⟩ := ih
    refine ⟨its, h1, by rw [h2, varsOf_cons]; rfl, h3, fun rid re args c' hc h => ?_⟩
    rw [List.mapM_cons] at hc
    simp only [mergeSymbol, Option.pure_def, Option.bind_eq_bind, Option.bind_some, Option.bind_eq_some_iff, Option.some.injEq] at hc
    obtain ⟨c'', hc, rfl⟩ := hc
    exact substAll_cons (u := [a]) rfl (h4 rid re args c'' hc h)
  | @part tail c comp i j rid r f P₁ P₂ u₁ u₂ w₁ w₂ g1 g2 g3 g4 g5 g6 _ ih =>
    obtain ⟨its, h1, h2, h3, h4⟩ := ih
    rw [mem_indexed] at g1
    refine ⟨⟨(i, j), rid, P₁, u₁, f * w₁⟩ :: its, by rw [List.map_cons, h1]; rfl, by rw [List.map_cons, h2, varsOf_cons]; rfl, ?_, fun rid' re args c' hc h => ?_⟩
    · intro x hx
      rcases List.mem_cons.1 hx with rfl | hx
      · exact ⟨r, comp, f, w₁, g1, g2, g3, g4, g5, rfl⟩
      · exact h3 x hx
    · rw [List.mapM_cons] at hc
      simp only [Option.pure_def, Option.bind_eq_bind, Option.bind_eq_some_iff, Option.some.injEq] at hc
      obtain ⟨y, hy, c'', hc, rfl⟩ := hc
      obtain ⟨n, e1, e2⟩ := h _ (List.mem_cons_self ..)
      simp only at e1 e2
      rw [mergeSymbol, e1, Option.map_some, Option.some.injEq] at hy
      subst hy
      exact substAll_cons (by simpa only [subst] using e2) (h4 rid' re args c'' hc fun x hx => h x (List.mem_cons_of_mem _ hx))

/-- The items of a list of components. -/
theorem exists_cowItem [CommMonoid W] {factorize : W → Nat → List W} {rules : List (PMCFGRule N T W)} {A : N} {c rid : Nat} {P : Parts} {u : List T} {w : W}
    (h : CompDerives factorize (indexed rules) A c rid P u w) : ∃ m : CowItem N T W, m.Ok factorize rules A ∧ m.comp = c ∧ m.rid = rid ∧ m.parts = P ∧ m.word = u := by
  obtain ⟨r, comp, f, w', h1, h2, h3, h4, h5, _⟩ := h
  obtain ⟨its, g1, g2, g3, g4⟩ := fits_full h5
  exact ⟨⟨c, rid, P, u, r, comp, its⟩, ⟨mem_indexed.1 h1, h2, h3, g1, g2, g3, g4 rid⟩, rfl, rfl, rfl, rfl⟩

/-- The keys of the variables of an item. -/
def CowItem.keys (m : CowItem N T W) : List ((Nat × Nat) × N) :=
  (varsOf [m.syms]).filterMap fun v => (m.rule.tail[v.1]?).map fun n => ((m.rid, v.1), n)

theorem mergeComp_eq (rid : Nat) (tail : List N) : ∀ (c : List (VarT T)) (s : AMap (Nat × Nat) Nat × List N),
    (∀ v ∈ varsOf [c], ∃ n, tail[v.1]? = some n) →
    mergeComp rid tail c s = some (((varsOf [c]).filterMap fun v => (tail[v.1]?).map fun n => ((rid, v.1), n)).foldl mergeStep s)
  | [], s, _ => rfl
  | .t a :: c, s, h => by
    rw [varsOf_cons] at h ⊢
    rw [mergeComp, mergeComp_eq rid tail c s fun v hv => h v (by simpa using hv)]
    rfl
  | .var i j :: c, s, h => by
    rw [varsOf_cons] at h ⊢
    obtain ⟨n, hn⟩ := h (i, j) (by simp)
    have hv : mergeVar rid tail s i = some (mergeStep s ((rid, i), n)) := by
      unfold mergeVar mergeStep
      simp only at hn
      cases hg : s.1.get (rid, i) with
      | none => simp [hg, hn]
      | some k => simp [hg]
    rw [mergeComp, hv]
    simp only
    rw [mergeComp_eq rid tail c _ fun v hv => h v (by simp [hv])]
    simp only at hn
    simp [hn]

variable [CommMonoid W] {factorize : W → Nat → List W} {rules : List (PMCFGRule N T W)} {A : N}

theorem CowItem.Ok.tail {m : CowItem N T W} (h : m.Ok factorize rules A) {v : Nat × Nat} (hv : v ∈ varsOf [m.syms]) : ∃ n, m.rule.tail[v.1]? = some n := by
  rw [← h.keys, List.mem_map] at hv
  obtain ⟨x, hx, rfl⟩ := hv
  obtain ⟨r, _, _, _, _, h2, _⟩ := h.its x hx
  exact ⟨_, h2⟩

theorem mergeFirst_eq : ∀ (gs : List (CowItem N T W)) (s : AMap (Nat × Nat) Nat × List N), (∀ m ∈ gs, m.Ok factorize rules A) →
    mergeFirst (gs.map fun m => (m.comp, m.rid, m.rule)) s = some ((gs.flatMap CowItem.keys).foldl mergeStep s)
  | [], s, _ => rfl
  | m :: gs, s, h => by
    have hm := h m (List.mem_cons_self ..)
    rw [List.map_cons, mergeFirst, hm.comp]
    simp only
    rw [mergeComp_eq _ _ _ _ fun v hv => hm.tail hv]
    simp only
    rw [mergeFirst_eq gs _ fun m hm => h m (List.mem_cons_of_mem _ hm), List.flatMap_cons, List.foldl_append]
    rfl

theorem mergeSymbols_some {re : AMap (Nat × Nat) Nat} {rid : Nat} : ∀ (c : List (VarT T)), (∀ v ∈ varsOf [c], ∃ n, re.get (rid, v.1) = some n) →
    ∃ c', c.mapM (mergeSymbol re rid) = some c'
  | [], _ => ⟨[], rfl⟩
  | x :: c, h => by
    rw [varsOf_cons] at h
    obtain ⟨c', hc⟩ := mergeSymbols_some c fun v hv => h v (List.mem_append_right _ hv)
    cases x with
    | t a => exact ⟨.t a :: c', by simp [mergeSymbol, hc]⟩
    | var i j =>
      obtain ⟨n, hn⟩ := h (i, j) (by simp)
      simp only at hn
      exact ⟨.var n j :: c', by simp [mergeSymbol, hn, hc]⟩

theorem mergeSecond_eq {re : AMap (Nat × Nat) Nat} : ∀ (gs : List (CowItem N T W)) (news : List (List (VarT T))) (C : Composition T),
    (∀ m ∈ gs, m.Ok factorize rules A) → (∀ m ∈ gs, m.comp < C.length) → List.Forall₂ (fun m c' => m.syms.mapM (mergeSymbol re m.rid) = some c') gs news →
    mergeSecond re (gs.map fun m => (m.comp, m.rid, m.rule)) C =
      some (((gs.map CowItem.comp).zip news).foldl (fun C x => C.modify x.1 (· ++ x.2)) C)
  | [], _, C, _, _, .nil => rfl
  | m :: gs, c' :: news, C, h, hlt, .cons h1 h2 => by
    rw [List.map_cons, mergeSecond, (h m (List.mem_cons_self ..)).comp]
    simp only
    rw [h1]
    simp only
    rw [if_pos (hlt m (List.mem_cons_self ..))]
    rw [mergeSecond_eq gs news _ (fun m hm => h m (List.mem_cons_of_mem _ hm))
      (fun m hm => by rw [List.length_modify]; exact hlt m (List.mem_cons_of_mem _ hm)) h2]
    rfl

/-- The children of the items of a group. -/
def cowChildren (gs : List (CowItem N T W)) : List (Nat × PartItem T W) := gs.flatMap fun m => m.its.map fun x => (m.rid, x)

theorem collectChildren_eq {re : AMap (Nat × Nat) Nat} (gs : List (CowItem N T W)) (h : ∀ m ∈ gs, m.Ok factorize rules A)
    (hre : ∀ y ∈ cowChildren gs, ∃ n, re.get (y.1, y.2.key.1) = some n) :
    collectChildren re (gs.map fun m => cowOf m.rid m.parts) =
      some (((cowChildren gs).map fun y => ((re.get (y.1, y.2.key.1)).getD 0, (y.2.key.2, cowOf y.2.rid y.2.inside))).foldl
        (fun m x => VecMultiMap.pushTo m x.1 x.2) []) := by
  have e : ((gs.map fun m => cowOf m.rid m.parts).flatMap fun t => t.successors.map fun s => (t.content, s)) =
      (cowChildren gs).map fun y => (y.1, (y.2.key, cowOf y.2.rid y.2.inside)) := by
    rw [List.flatMap_map, cowChildren, List.map_flatMap]
    refine List.flatMap_congr fun m hm => ?_
    simp only [cowOf, CowNode.successors, CowNode.content, List.map_map]
    rw [cowSuccs_tops, ← (h m hm).tops, List.map_map, List.map_map]
    rfl
  unfold collectChildren
  rw [e]
  generalize cowChildren gs = l at hre
  generalize ([] : List (List (Nat × CowNode))) = m
  induction l generalizing m with
  | nil => rfl
  | cons y l ih =>
    obtain ⟨n, hn⟩ := hre y (List.mem_cons_self ..)
    rw [List.map_cons, List.foldlM_cons, List.map_cons, List.foldl_cons]
    simp only [collectChild, hn, Option.map_some, Option.getD_some, Option.bind_eq_bind, Option.bind_some]
    exact ih (fun y hy => hre y (List.mem_cons_of_mem _ hy)) _

/-- `tree'` is `tree` with `d` at the position `pos`. -/
def Overlay {V : Type _} (d : DTree V) (pos : List Nat) (tree tree' : GornTree V) : Prop :=
  (tree.Sorted → tree'.Sorted) ∧ (∀ q, tree'.get (pos ++ q) = (d.at? q).or (tree.get (pos ++ q))) ∧ ∀ p, ¬ pos <+: p → tree'.get p = tree.get p

omit [CommMonoid W] in
theorem fallbackLoop_spec {rec : List (Nat × CowNode) → GornTree (PMCFGRule N T W) → List Nat → Option (GornTree (PMCFGRule N T W))} {pos : List Nat} :
    ∀ (groups : List (List (Nat × CowNode))) (ds : List (DTree (PMCFGRule N T W))) (idx : Nat) (tree : GornTree (PMCFGRule N T W)),
    List.Forall₂ (fun g d => g ≠ [] ∧ ∀ tree pos, ∃ tree', rec g tree pos = some tree' ∧ Overlay d pos tree tree') groups ds →
    ∃ tree', fallbackLoop rec pos idx groups tree = some tree' ∧ (tree.Sorted → tree'.Sorted) ∧
      (∀ k q, k < ds.length → tree'.get (pos ++ (idx + k) :: q) = ((ds[k]?).bind fun d => d.at? q).or (tree.get (pos ++ (idx + k) :: q))) ∧
      ∀ p, (∀ k q, k < ds.length → p ≠ pos ++ (idx + k) :: q) → tree'.get p = tree.get p
  | [], _, idx, tree, .nil => ⟨tree, rfl, id, fun k q h => absurd h (by simp), fun p _ => rfl⟩
  | g :: groups, d :: ds, idx, tree, .cons h1 h2 => by
    obtain ⟨hne, hrec⟩ := h1
    obtain ⟨t₁, e1, s1, o1, n1⟩ := hrec tree (pos ++ [idx])
    obtain ⟨t₂, e2, s2, o2, n2⟩ := fallbackLoop_spec (pos := pos) groups ds (idx + 1) t₁ h2
    have hg : g.isEmpty = false := by
      cases g with
      | nil => exact absurd rfl hne
      | cons _ _ => rfl
    refine ⟨t₂, by rw [fallbackLoop, hg, if_neg (by simp), e1]; exact e2, fun h => s2 (s1 h), fun k q hk => ?_, fun p hp => ?_⟩
    · cases k with
      | zero =>
        rw [n2]
        · have := o1 q
          rw [List.append_assoc, List.singleton_append] at this
          simpa using this
        · intro k' q' hk' e
          have := List.append_cancel_left e
          rw [List.cons.injEq] at this
          omega
      | succ k =>
        rw [show idx + (k + 1) = idx + 1 + k by omega, o2 k q (by simpa using hk), n1, List.getElem?_cons_succ]
        rintro ⟨x, hx⟩
        rw [List.append_assoc] at hx
        have := List.append_cancel_left hx
        rw [List.singleton_append, List.cons.injEq] at this
        omega
    · rw [n2, n1]
      · rintro ⟨x, hx⟩
        refine hp 0 x (by simp) ?_
        rw [← hx, List.append_assoc]
        rfl
      · intro k q hk e
        exact hp (k + 1) q (by simpa using hk) (by rw [e, show idx + (k + 1) = idx + 1 + k by omega])

omit [CommMonoid W] in
theorem le_maxSucc {l : List Nat} {x : Nat} (h : x ∈ l) : ∀ a, x ≤ l.foldl max a := by
  induction l with
  | nil => cases h
  | cons y l ih =>
    intro a
    rw [List.foldl_cons]
    rcases List.mem_cons.1 h with rfl | h
    · have hm : ∀ (l : List Nat) a, a ≤ l.foldl max a := by
        intro l
        induction l with
        | nil => intro a; exact le_refl _
        | cons z l ih => intro a; exact le_trans (le_max_left _ _) (ih _)
      exact le_trans (le_max_right _ _) (hm _ _)
    · exact ih h _

/-- The tuple of a group: the words of the items, and empty words for the other components. -/
def groupTuple (gs : List (CowItem N T W)) (len : Nat) : List (List T) :=
  (List.range len).map fun n => ((gs.find? fun m => m.comp = n).map CowItem.word).getD []

omit [CommMonoid W] in
theorem find_comp {gs : List (CowItem N T W)} (h : (gs.map CowItem.comp).Nodup) {m : CowItem N T W} (hm : m ∈ gs) :
    gs.find? (fun m' => m'.comp = m.comp) = some m := by
  cases hf : gs.find? (fun m' => m'.comp = m.comp) with
  | none =>
    rw [List.find?_eq_none] at hf
    have := hf m hm
    simp at this
  | some m' =>
    have h1 := List.find?_some hf
    have h2 := List.mem_of_find?_eq_some hf
    simp only [decide_eq_true_eq] at h1
    rw [List.inj_on_of_nodup_map h h2 hm h1]

omit [CommMonoid W] in
theorem varsOf_comp_nodup {C : List (List (VarT T))} (h : (varsOf C).Nodup) {n : Nat} {c : List (VarT T)} (hc : C[n]? = some c) : (varsOf [c]).Nodup := by
  rw [varsOf_flatMap] at h
  exact (List.nodup_flatMap.1 h).1 c (List.mem_of_getElem? hc)

omit [CommMonoid W] in
theorem varsOf_comp_disjoint {C : List (List (VarT T))} (h : (varsOf C).Nodup) {n n' : Nat} {c c' : List (VarT T)} (hc : C[n]? = some c)
    (hc' : C[n']? = some c') (hne : n ≠ n') : ∀ v, v ∈ varsOf [c] → v ∉ varsOf [c'] := by
  intro v hv hv'
  rw [varsOf_flatMap] at h
  have h2 := List.pairwise_iff_getElem.1 (List.nodup_flatMap.1 h).2
  obtain ⟨l1, e1⟩ := List.getElem?_eq_some_iff.1 hc
  obtain ⟨l2, e2⟩ := List.getElem?_eq_some_iff.1 hc'
  rcases Nat.lt_or_gt_of_ne hne with hlt | hlt
  · have := h2 n n' l1 l2 hlt
    simp only [Function.onFun, e1, e2] at this
    exact List.disjoint_left.1 this hv hv'
  · have := h2 n' n l2 l1 hlt
    simp only [Function.onFun, e1, e2] at this
    exact List.disjoint_left.1 this hv' hv

theorem map_eq_of_forall₂ {X Y Z : Type _} {R : X → Y → Prop} {f : X → Z} {g : Y → Z} {l : List X} {m : List Y} (h : List.Forall₂ R l m)
    (hfg : ∀ x y, R x y → g y = f x) : m.map g = l.map f := by
  induction h with
  | nil => rfl
  | cons h _ ih => rw [List.map_cons, List.map_cons, hfg _ _ h, ih]

theorem fallbackVec_spec (hlin : ∀ r ∈ rules, (varsOf r.composition).Nodup) [Zero W] : ∀ (fuel : Nat) (A : N) (gs : List (CowItem N T W)), gs ≠ [] →
    (gs.map CowItem.comp).Nodup → (∀ m ∈ gs, m.Ok factorize rules A) → (∀ m ∈ gs, Parts.depth m.parts < fuel) →
    ∃ d, (∀ tree pos, ∃ tree', fallbackVec rules fuel (gs.map fun m => (m.comp, cowOf m.rid m.parts)) tree pos = some tree' ∧ Overlay d pos tree tree') ∧
      Derivation d A (groupTuple gs ((gs.map fun m => m.comp + 1).foldl max 0)) ∧ ∀ p r, d.at? p = some r → Merged rules r := by
  intro fuel
  induction fuel with
  | zero =>
    intro A gs hne _ _ hd
    obtain ⟨m, hm⟩ := List.exists_mem_of_ne_nil gs hne
    exact absurd (hd m hm) (by omega)
  | succ fuel ih =>
    intro A gs hne hnd hok hdep
    -- the rules
    have hroots : (gs.map fun m => (m.comp, cowOf m.rid m.parts)).mapM (fun x => (rules[x.2.content]?).map fun r => (x.1, x.2.content, r)) =
        some (gs.map fun m => (m.comp, m.rid, m.rule)) := by
      rw [mapM_some_iff, List.forall₂_map_left_iff, List.forall₂_map_right_iff, List.forall₂_same]
      intro m hm
      simp only [cowOf, CowNode.content, (hok m hm).rule, Option.map_some]
    -- the renumbering
    have hren := renumbered_foldl (gs.flatMap CowItem.keys) _ _ (renumbered_nil (N := N))
    rw [List.nil_append] at hren
    have hfirst := mergeFirst_eq gs ([], []) hok
    generalize (gs.flatMap CowItem.keys).foldl mergeStep ([], []) = s at hren hfirst
    obtain ⟨re, tl⟩ := s
    have hchild : ∀ y ∈ cowChildren gs, ∃ m ∈ gs, y.1 = m.rid ∧ y.2 ∈ m.its := by
      intro y hy
      simp only [cowChildren, List.mem_flatMap, List.mem_map] at hy
      obtain ⟨m, hm, x, hx, rfl⟩ := hy
      exact ⟨m, hm, rfl, hx⟩
    have hkey : ∀ m ∈ gs, ∀ v ∈ varsOf [m.syms], ∀ n, m.rule.tail[v.1]? = some n → ((m.rid, v.1), n) ∈ gs.flatMap CowItem.keys := by
      intro m hm v hv n hn
      rw [List.mem_flatMap]
      refine ⟨m, hm, ?_⟩
      unfold CowItem.keys
      rw [List.mem_filterMap]
      exact ⟨v, hv, by rw [hn]; rfl⟩
    have hre : ∀ y ∈ cowChildren gs, ∃ n, re.get (y.1, y.2.key.1) = some n := by
      intro y hy
      obtain ⟨m, hm, e, hx⟩ := hchild y hy
      have hv : y.2.key ∈ varsOf [m.syms] := by
        rw [← (hok m hm).keys]
        exact List.mem_map_of_mem hx
      obtain ⟨n, hn⟩ := (hok m hm).tail hv
      obtain ⟨k, hk⟩ := hren.total _ (hkey m hm _ hv n hn)
      exact ⟨k, by rw [e]; exact hk⟩
    have hkeys : ∀ k n, (k, n) ∈ gs.flatMap CowItem.keys → ∃ m ∈ gs, ∃ x ∈ m.its, k = (m.rid, x.key.1) ∧ m.rule.tail[x.key.1]? = some n := by
      intro k n hk
      rw [List.mem_flatMap] at hk
      obtain ⟨m, hm, hk⟩ := hk
      unfold CowItem.keys at hk
      rw [← (hok m hm).keys, List.mem_filterMap] at hk
      obtain ⟨v, hv, hk⟩ := hk
      rw [List.mem_map] at hv
      obtain ⟨x, hx, rfl⟩ := hv
      rw [Option.map_eq_some_iff] at hk
      obtain ⟨n', hn', e⟩ := hk
      cases e
      exact ⟨m, hm, x, hx, rfl, hn'⟩
    -- the composition
    obtain ⟨news, hnews⟩ := exists_forall₂ (R := fun (m : CowItem N T W) c' => m.syms.mapM (mergeSymbol re m.rid) = some c') gs fun m hm =>
      mergeSymbols_some m.syms fun v hv => by
        obtain ⟨n, hn⟩ := (hok m hm).tail hv
        exact hren.total _ (hkey m hm v hv n hn)
    generalize hlen : (gs.map fun m => m.comp + 1).foldl max 0 = len
    have hlt : ∀ m ∈ gs, m.comp < len := fun m hm => by
      have := le_maxSucc (List.mem_map.2 ⟨m, hm, rfl⟩ : m.comp + 1 ∈ gs.map fun m => m.comp + 1) 0
      omega
    have hsecond := mergeSecond_eq gs news (List.replicate len []) hok (fun m hm => by rw [List.length_replicate]; exact hlt m hm) hnews
    have hzip : ((gs.map CowItem.comp).zip news).map Prod.fst = gs.map CowItem.comp :=
      List.map_fst_zip (by rw [List.length_map, hnews.length_eq])
    have hC := modifyAll ((gs.map CowItem.comp).zip news) (List.replicate len []) (by rw [hzip]; exact hnd)
    generalize hCdef : ((gs.map CowItem.comp).zip news).foldl (fun C x => C.modify x.1 (· ++ x.2)) (List.replicate len []) = C at hsecond hC
    have hClen : C.length = len := by
      rw [← hCdef]
      generalize (gs.map CowItem.comp).zip news = L
      have : ∀ C₀ : List (List (VarT T)), (L.foldl (fun C x => C.modify x.1 (· ++ x.2)) C₀).length = C₀.length := by
        induction L with
        | nil => intro C₀; rfl
        | cons x L ih => intro C₀; rw [List.foldl_cons, ih, List.length_modify]
      rw [this, List.length_replicate]
    have hCget : ∀ n < len, C[n]? = some [] ∧ (gs.find? fun m => m.comp = n) = none ∨
        ∃ m ∈ gs, ∃ c', (gs.find? fun m => m.comp = n) = some m ∧ m.comp = n ∧ m.syms.mapM (mergeSymbol re m.rid) = some c' ∧ C[n]? = some c' := by
      intro n hn
      have h := hC n
      rw [List.getElem?_replicate, if_pos hn] at h
      cases hf : ((gs.map CowItem.comp).zip news).find? (fun x => decide (x.1 = n)) with
      | none =>
        rw [hf] at h
        refine .inl ⟨h, ?_⟩
        rw [List.find?_eq_none] at hf ⊢
        intro m hm
        simp only [decide_eq_true_eq]
        intro e
        have : n ∈ ((gs.map CowItem.comp).zip news).map Prod.fst := by
          rw [hzip]
          exact List.mem_map.2 ⟨m, hm, e⟩
        rw [List.mem_map] at this
        obtain ⟨x, hx, e'⟩ := this
        have := hf x hx
        simp [e'] at this
      | some x =>
        rw [hf] at h
        have h1 := List.find?_some hf
        simp only [decide_eq_true_eq] at h1
        obtain ⟨k, hk⟩ := List.getElem?_of_mem (List.mem_of_find?_eq_some hf)
        rw [List.getElem?_zip_eq_some, List.getElem?_map, Option.map_eq_some_iff] at hk
        obtain ⟨⟨m, hm, e⟩, hk⟩ := hk
        have hmem := List.mem_of_getElem? hm
        refine .inr ⟨m, hmem, x.2, ?_, by omega, ?_, ?_⟩
        · have := find_comp hnd hmem
          rw [e, h1] at this
          exact this
        · obtain ⟨l1, e1⟩ := List.getElem?_eq_some_iff.1 hm
          obtain ⟨l2, e2⟩ := List.getElem?_eq_some_iff.1 hk
          have := (List.forall₂_iff_get.1 hnews).2 k l1 l2
          simp only [List.get_eq_getElem, e1, e2] at this
          exact this
        · rw [h]
          rfl
    -- the children
    have hcoll := collectChildren_eq gs hok hre
    generalize hL : ((cowChildren gs).map fun y => ((re.get (y.1, y.2.key.1)).getD 0, (y.2.key.2, cowOf y.2.rid y.2.inside))) = L at hcoll
    have htl : ∀ y ∈ cowChildren gs, ∀ n, re.get (y.1, y.2.key.1) = some n → ∃ r, tl[n]? = some r ∧ ∃ comp f w, ∃ r' : PMCFGRule N T W,
        rules[y.2.rid]? = some r' ∧ r'.head = r ∧ r'.composition[y.2.key.2]? = some comp ∧ (factorize r'.weight r'.composition.length)[y.2.key.2]? = some f ∧
        Fits factorize (indexed rules) r'.tail comp y.2.inside y.2.word w := by
      intro y hy n hn
      obtain ⟨m, hm, e, hx⟩ := hchild y hy
      obtain ⟨r', comp, f, w, o1, o2, o3, o4, o5, _⟩ := (hok m hm).its _ hx
      obtain ⟨A', g1, g2⟩ := hren.get _ _ hn
      obtain ⟨m', hm', x', hx', e1, e2⟩ := hkeys _ _ g1
      rw [Prod.mk.injEq, e] at e1
      have hr := (hok m hm).rule
      rw [e1.1, (hok m' hm').rule, Option.some.injEq] at hr
      rw [← e1.2, hr, o2, Option.some.injEq] at e2
      exact ⟨A', g2, comp, f, w, r', o1, e2, o3, o4, o5⟩
    have hglen : (L.foldl (fun m x => VecMultiMap.pushTo m x.1 x.2) []).length = tl.length := by
      refine pushAll_length L [] tl.length (by simp) (fun x hx => ?_) fun h => ?_
      · rw [← hL, List.mem_map] at hx
        obtain ⟨y, hy, rfl⟩ := hx
        obtain ⟨n, hn⟩ := hre y hy
        obtain ⟨r, hr, _⟩ := htl y hy n hn
        simp only [hn, Option.getD_some]
        exact (List.getElem?_eq_some_iff.1 hr).1
      · simp only [List.length_nil] at h
        obtain ⟨k, hk⟩ := hren.surj (tl.length - 1) (by simp only; omega)
        obtain ⟨n, hn, _⟩ := hren.get _ _ hk
        obtain ⟨m, hm, x, hx, rfl, _⟩ := hkeys _ _ hn
        refine ⟨((re.get (m.rid, x.key.1)).getD 0, (x.key.2, cowOf x.rid x.inside)), ?_, ?_⟩
        · rw [← hL, List.mem_map]
          exact ⟨(m.rid, x), List.mem_flatMap.2 ⟨m, hm, List.mem_map_of_mem hx⟩, rfl⟩
        · simp only at hk
          simp only [hk, Option.getD_some]
          omega
    have hgget := pushAll_getD L []
    generalize hG : L.foldl (fun m x => VecMultiMap.pushTo m x.1 x.2) [] = G at hcoll hglen hgget
    -- the groups of children as items
    let Y := fun n : Nat => (cowChildren gs).filter fun y => (re.get (y.1, y.2.key.1)).getD 0 = n
    have hG' : ∀ n < tl.length, G[n]? = some ((Y n).map fun y => (y.2.key.2, cowOf y.2.rid y.2.inside)) := by
      intro n hn
      have := hgget n
      rw [List.getElem?_eq_getElem (show n < G.length by omega)] at this ⊢
      simp only [Option.getD_some, List.getElem?_nil, Option.getD_none, List.nil_append] at this
      rw [this, ← hL, List.filter_map, List.map_map]
      rfl
    have hYmem : ∀ n, ∀ y ∈ Y n, y ∈ cowChildren gs ∧ re.get (y.1, y.2.key.1) = some n := by
      intro n y hy
      simp only [Y, List.mem_filter, decide_eq_true_eq] at hy
      obtain ⟨k, hk⟩ := hre y hy.1
      rw [hk, Option.getD_some] at hy
      exact ⟨hy.1, by rw [hk, hy.2]⟩
    have hYne : ∀ n < tl.length, Y n ≠ [] := by
      intro n hn
      obtain ⟨k, hk⟩ := hren.surj n hn
      obtain ⟨n', hn', _⟩ := hren.get _ _ hk
      obtain ⟨m, hm, x, hx, rfl, _⟩ := hkeys _ _ hn'
      refine List.ne_nil_of_mem (a := (m.rid, x)) ?_
      simp only [Y, List.mem_filter, decide_eq_true_eq]
      refine ⟨List.mem_flatMap.2 ⟨m, hm, List.mem_map_of_mem hx⟩, ?_⟩
      simp only at hk
      rw [hk]
      rfl
    have hallnd : ((cowChildren gs).map fun y => (y.1, y.2.key)).Nodup := by
      have e : ((cowChildren gs).map fun y => (y.1, y.2.key)) = gs.flatMap fun m => (varsOf [m.syms]).map fun v => (m.rid, v) := by
        rw [cowChildren, List.map_flatMap]
        refine List.flatMap_congr fun m hm => ?_
        rw [← (hok m hm).keys, List.map_map, List.map_map]
        rfl
      rw [e, List.nodup_flatMap]
      constructor
      · intro m hm
        have hr := hlin _ (List.mem_of_getElem? (hok m hm).rule)
        refine List.Nodup.map (fun a b h => by cases h; rfl) (varsOf_comp_nodup hr (hok m hm).comp)
      · have := hnd
        rw [List.Nodup, List.pairwise_map] at this
        refine List.Pairwise.imp_of_mem (fun {m m'} hm hm' hne => ?_) this
        simp only [Function.onFun]
        rw [List.disjoint_left]
        intro z hz hz'
        rw [List.mem_map] at hz hz'
        obtain ⟨v, hv, rfl⟩ := hz
        obtain ⟨v', hv', e⟩ := hz'
        rw [Prod.mk.injEq] at e
        obtain ⟨e1, rfl⟩ := e
        have hr := (hok m hm).rule
        rw [← e1, (hok m' hm').rule, Option.some.injEq] at hr
        have hc' := (hok m' hm').comp
        rw [hr] at hc'
        exact varsOf_comp_disjoint (hlin _ (List.mem_of_getElem? (hok m hm).rule)) (hok m hm).comp hc' hne _ hv hv'
    have hYnd : ∀ n, ((Y n).map fun y => y.2.key.2).Nodup := by
      intro n
      have h1 : ((Y n).map fun y => (y.1, y.2.key)).Nodup := hallnd.sublist (List.Sublist.map _ List.filter_sublist)
      rw [List.Nodup, List.pairwise_map] at h1 ⊢
      refine List.Pairwise.imp_of_mem (fun {y y'} hy hy' hne e => hne ?_) h1
      have := hren.inj _ _ _ (hYmem n y hy).2 (hYmem n y' hy').2
      rw [Prod.mk.injEq] at this
      rw [Prod.mk.injEq]
      exact ⟨this.1, Prod.ext this.2 e⟩
    have hkids : ∀ n, ∃ d v, n < tl.length → (∀ y ∈ Y n, v[y.2.key.2]? = some y.2.word) ∧
        (∀ tree pos, ∃ tree', fallbackVec rules fuel ((Y n).map fun y => (y.2.key.2, cowOf y.2.rid y.2.inside)) tree pos = some tree' ∧ Overlay d pos tree tree') ∧
        (∀ B, tl[n]? = some B → Derivation d B v) ∧ ∀ p r, d.at? p = some r → Merged rules r := by
      intro n
      by_cases hn : n < tl.length
      case neg => exact ⟨.node ⟨A, [], [], 0⟩ [], [], fun h => absurd h hn⟩
      obtain ⟨B, hB⟩ : ∃ B, tl[n]? = some B := ⟨_, List.getElem?_eq_getElem hn⟩
      obtain ⟨gs', hgs'⟩ := exists_forall₂ (R := fun (y : Nat × PartItem T W) (m : CowItem N T W) => m.Ok factorize rules B ∧ m.comp = y.2.key.2 ∧
        m.rid = y.2.rid ∧ m.parts = y.2.inside ∧ m.word = y.2.word ∧ Parts.depth m.parts < fuel) (Y n) fun y hy => by
          obtain ⟨hy1, hy2⟩ := hYmem n y hy
          obtain ⟨r, k1, comp, f, w, r', k2, k3, k4, k5, k6⟩ := htl y hy1 n hy2
          rw [hB, Option.some.injEq] at k1
          subst k1
          obtain ⟨m, m1, m2, m3, m4, m5⟩ := exists_cowItem (c := y.2.key.2) (rid := y.2.rid) ⟨r', comp, f, w, mem_indexed.2 k2, k3, k4, k5, k6, rfl⟩
          refine ⟨m, m1, m2, m3, m4, m5, ?_⟩
          obtain ⟨m', hm', e, hx⟩ := hchild y hy1
          have h1 := tops_depth (P := m'.parts) (y.2.key, y.2.rid, y.2.inside) (by
            rw [← (hok m' hm').tops]
            exact List.mem_map_of_mem (f := fun x : PartItem T W => (x.key, x.rid, x.inside)) hx)
          have h2 := hdep m' hm'
          simp only at h1
          rw [m4]
          omega
      have hmap : gs'.map (fun m => (m.comp, cowOf m.rid m.parts)) = (Y n).map fun y => (y.2.key.2, cowOf y.2.rid y.2.inside) := by
        refine map_eq_of_forall₂ hgs' fun y m h => ?_
        rw [h.2.1, h.2.2.1, h.2.2.2.1]
      have hcomps : gs'.map CowItem.comp = (Y n).map fun y => y.2.key.2 := map_eq_of_forall₂ hgs' fun y m h => h.2.1
      have hmem' : ∀ m ∈ gs', ∃ y ∈ Y n, m.Ok factorize rules B ∧ m.comp = y.2.key.2 ∧ m.word = y.2.word ∧ Parts.depth m.parts < fuel := by
        intro m hm
        obtain ⟨y, hy, h⟩ := forall₂_mem_right hgs' hm
        exact ⟨y, hy, h.1, h.2.1, h.2.2.2.2.1, h.2.2.2.2.2⟩
      obtain ⟨d, d1, d2, d3⟩ := ih B gs' (fun e => by subst e; exact hYne n hn (List.forall₂_nil_right_iff.1 hgs'))
        (by rw [hcomps]; exact hYnd n) (fun m hm => by obtain ⟨_, _, h, _⟩ := hmem' m hm; exact h)
        (fun m hm => by obtain ⟨_, _, _, _, _, h⟩ := hmem' m hm; exact h)
      refine ⟨d, _, fun _ => ⟨fun y hy => ?_, fun tree pos => by rw [← hmap]; exact d1 tree pos, fun B' hB' => by rw [hB, Option.some.injEq] at hB'; subst hB'; exact d2, d3⟩⟩
      obtain ⟨m, hm, h⟩ := forall₂_mem_left hgs' hy
      have hlt' : m.comp < (gs'.map fun m => m.comp + 1).foldl max 0 := by
        have := le_maxSucc (List.mem_map.2 ⟨m, hm, rfl⟩ : m.comp + 1 ∈ gs'.map fun m => m.comp + 1) 0
        omega
      unfold groupTuple
      rw [← h.2.1, List.getElem?_map, List.getElem?_range hlt', Option.map_some, find_comp (by rw [hcomps]; exact hYnd n) hm]
      simp [h.2.2.2.2.1]
    choose dd vv hkids using hkids
    have hvv := fun n hn => (hkids n hn).1
    have hrun := fun n hn => (hkids n hn).2.1
    have hder := fun n hn => (hkids n hn).2.2.1
    have hmer := fun n hn => (hkids n hn).2.2.2
    let root : PMCFGRule N T W := ⟨A, tl, C, 0⟩
    let ds := (List.range tl.length).map dd
    let vs := (List.range tl.length).map vv
    have hds : ∀ n < tl.length, ds[n]? = some (dd n) := fun n hn => by simp only [ds]; rw [List.getElem?_map, List.getElem?_range hn]; rfl
    have hvs : ∀ n < tl.length, vs[n]? = some (vv n) := fun n hn => by simp only [vs]; rw [List.getElem?_map, List.getElem?_range hn]; rfl
    have hdsl : ds.length = tl.length := by simp [ds]
    have hvsl : vs.length = tl.length := by simp [vs]
    have hcompose : compose (fun i => vs[i]?) C = some (groupTuple gs len) := by
      unfold compose
      rw [mapM_some_iff, List.forall₂_iff_get]
      have hl' : (groupTuple gs len).length = len := by simp [groupTuple]
      refine ⟨by omega, fun n h1 h2 => ?_⟩
      have hn : n < len := by omega
      have e2 : (groupTuple gs len)[n]? = some (((gs.find? fun m => m.comp = n).map CowItem.word).getD []) := by
        unfold groupTuple
        rw [List.getElem?_map, List.getElem?_range hn]
        rfl
      rw [List.getElem?_eq_getElem h2, Option.some.injEq] at e2
      simp only [List.get_eq_getElem, e2]
      rcases hCget n hn with ⟨g1, g2⟩ | ⟨m, hm, c', g1, g2, g3, g4⟩
      · rw [List.getElem?_eq_getElem h1, Option.some.injEq] at g1
        rw [g1, g2]
        rfl
      · rw [List.getElem?_eq_getElem h1, Option.some.injEq] at g4
        rw [g4, g1]
        simp only [Option.map_some, Option.getD_some]
        refine (hok m hm).spell re _ c' g3 fun x hx => ?_
        have hy : (m.rid, x) ∈ cowChildren gs := List.mem_flatMap.2 ⟨m, hm, List.mem_map_of_mem hx⟩
        obtain ⟨k, hk⟩ := hre _ hy
        obtain ⟨B, hB, _⟩ := htl _ hy k hk
        have hkl := (List.getElem?_eq_some_iff.1 hB).1
        refine ⟨k, hk, ?_⟩
        rw [hvs k hkl, Option.bind_some]
        refine hvv k hkl (m.rid, x) ?_
        simp only [Y, List.mem_filter, decide_eq_true_eq]
        exact ⟨hy, by simp only at hk; rw [hk]; rfl⟩
    refine ⟨.node root ds, fun tree pos => ?_, fun rs hrs => ?_, fun p r hp => ?_⟩
    · -- the run
      obtain ⟨t₁, e1, s1, o1, n1⟩ := fallbackLoop_spec (rec := fallbackVec rules fuel) (pos := pos) G ds 0 tree (by
        rw [List.forall₂_iff_get]
        refine ⟨by omega, fun n h1 h2 => ?_⟩
        have hn : n < tl.length := by omega
        have k1 := hG' n hn
        rw [List.getElem?_eq_getElem h1, Option.some.injEq] at k1
        have k2 := hds n hn
        rw [List.getElem?_eq_getElem h2, Option.some.injEq] at k2
        simp only [List.get_eq_getElem, k1, k2]
        exact ⟨by simpa using hYne n hn, hrun n hn⟩)
      refine ⟨t₁.insert pos root, ?_, fun h => GornTree.sorted_insert (s1 h) _ _, fun q => ?_, fun p hp => ?_⟩
      · obtain ⟨m₀, gs₀, rfl⟩ := List.exists_cons_of_ne_nil hne
        rw [fallbackVec, hroots]
        simp only [List.map_cons]
        have hmr : mergeRules m₀.rule.head ((m₀.comp, m₀.rid, m₀.rule) :: gs₀.map fun m => (m.comp, m.rid, m.rule)) = some (re, root) := by
          unfold mergeRules
          rw [List.map_cons] at hfirst hsecond
          rw [hfirst]
          simp only
          have hl2 : ((((m₀.comp, m₀.rid, m₀.rule) :: gs₀.map fun m => (m.comp, m.rid, m.rule))).map fun x => x.1 + 1).foldl max 0 = len := by
            rw [← hlen, List.map_cons, List.map_cons, List.map_map]
            rfl
          rw [hl2, hsecond, (hok m₀ (List.mem_cons_self ..)).head]
        rw [hmr]
        simp only
        have hmm : (cowOf m₀.rid m₀.parts :: (gs₀.map fun m => (m.comp, cowOf m.rid m.parts)).map Prod.snd) = (m₀ :: gs₀).map fun m => cowOf m.rid m.parts := by
          rw [List.map_map, List.map_cons]
          rfl
        rw [hmm, hcoll]
        simp only
        rw [e1]
      · rw [GornTree.get_insert]
        cases q with
        | nil => simp [DTree.at?]
        | cons i q =>
          rw [if_neg (by
            intro e
            have := congrArg List.length e
            simp at this)]
          by_cases hi : i < ds.length
          · have := o1 i q hi
            rw [Nat.zero_add] at this
            rw [this]
            rfl
          · rw [n1 _ fun k q' hk e => by
              have := List.append_cancel_left e
              rw [List.cons.injEq] at this
              omega]
            simp only [DTree.at?]
            rw [List.getElem?_eq_none (by omega)]
            rfl
      · rw [GornTree.get_insert, if_neg (by rintro rfl; exact hp (List.prefix_refl _)), n1]
        intro k q hk e
        exact hp ⟨_, e.symm⟩
    · -- the derivation
      have h := Derives.node (rules := rs) (r := root) (ds := ds) (args := vs) (v := groupTuple gs len) (hrs [] root rfl) ?_ hcompose
      · exact h
      · rw [derivesAll_iff]
        refine ⟨hdsl, hvsl, fun i B d v h1 h2 h3 => ?_⟩
        have hi : i < tl.length := (List.getElem?_eq_some_iff.1 h1).1
        rw [hds i hi, Option.some.injEq] at h2
        rw [hvs i hi, Option.some.injEq] at h3
        subst h2 h3
        refine hder i hi B h1 rs fun p r hp => hrs (i :: p) r ?_
        simp only [DTree.at?]
        rw [hds i hi]
        exact hp
    · -- the rules
      cases p with
      | nil =>
        simp only [DTree.at?, Option.some.injEq] at hp
        subst hp
        refine ⟨rfl, fun n c hc => ?_⟩
        have hn : n < len := by
          have := (List.getElem?_eq_some_iff.1 hc).1
          simp only [root] at this
          omega
        simp only [root] at hc
        rcases hCget n hn with ⟨g1, g2⟩ | ⟨m, hm, c', g1, g2, g3, g4⟩
        · rw [g1, Option.some.injEq] at hc
          exact .inl hc.symm
        · rw [g4, Option.some.injEq] at hc
          subst hc
          refine .inr ⟨m.rule, List.mem_of_getElem? (hok m hm).rule, (hok m hm).head, m.syms, fun i => (re.get (m.rid, i)).getD 0, g2 ▸ (hok m hm).comp, ?_, ?_⟩
          · rw [mapM_some_iff] at g3
            clear g4
            have hsub : ∀ v ∈ varsOf [m.syms], ∃ n, re.get (m.rid, v.1) = some n := fun v hv => by
              obtain ⟨n, hn⟩ := (hok m hm).tail hv
              exact hren.total _ (hkey m hm v hv n hn)
            generalize m.syms = syms at g3 hsub
            induction g3 with
            | nil => rfl
            | @cons x y l l' h1 _ ih =>
              rw [varsOf_cons] at hsub
              rw [List.map_cons, ← ih fun v hv => hsub v (List.mem_append_right _ hv)]
              congr 1
              cases x with
              | t a => rw [mergeSymbol, Option.some.injEq] at h1; exact h1.symm
              | var i j =>
                rw [mergeSymbol, Option.map_eq_some_iff] at h1
                obtain ⟨k, hk, rfl⟩ := h1
                simp [renameVar, hk]
          · intro i j hv
            obtain ⟨B, hB⟩ := (hok m hm).tail hv
            simp only at hB
            obtain ⟨k, hk⟩ := hren.total _ (hkey m hm _ hv B hB)
            simp only at hk
            simp only [hk, Option.getD_some, root]
            obtain ⟨B', g5, g6⟩ := hren.get _ _ hk
            obtain ⟨m', hm', x', hx', e1, e2⟩ := hkeys _ _ g5
            rw [Prod.mk.injEq] at e1
            have hr := (hok m hm).rule
            rw [e1.1, (hok m' hm').rule, Option.some.injEq] at hr
            rw [hr, ← e1.2] at e2
            rw [e2]
            exact g6
      | cons i p =>
        simp only [DTree.at?] at hp
        rw [Option.bind_eq_some_iff] at hp
        obtain ⟨d, hd, hp⟩ := hp
        have hi : i < tl.length := by
          rw [← hdsl]
          exact (List.getElem?_eq_some_iff.1 hd).1
        rw [hds i hi, Option.some.injEq] at hd
        subst hd
        exact hmer i hi p r hp

end

end Rustomata
