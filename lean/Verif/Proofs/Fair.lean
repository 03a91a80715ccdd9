import Verif.Proofs.Terminate
import Verif.Proofs.Outer
import Verif.Spec.Fair

/-!
# Best first search finds each item after finitely many steps if only finitely many items are not worse
-/

set_option linter.unusedSectionVars false

namespace Rustomata
open Spec
variable {A X K S I T W S' I' T' : Type _}

/-- Weights fade if long products fall below `v`, in case of an associative multiplication. -/
theorem fades_prod [Monoid W] [LE W] {ws : List W} {v : W} : Fades ws v ↔ ∃ L : Nat, ∀ us : List W, (∀ u ∈ us, u ∈ ws) → v ≤ us.prod → us.length ≤ L := by
  simp only [Fades, List.prod_eq_foldl]

open Classical in
/-- If the items with a priority of at least `v` become smaller in some measure, then after finitely many steps there are none of them on the agenda. -/
theorem Search.fair [Preorder W] {G : Agenda A X} {content : A → Multiset X} {prio : X → W} (hG : HeapLaws G content prio) (succ : X → List X)
    (hs : ∀ x, ∀ y ∈ succ x, prio y ≤ prio x) (v : W) (P : X → Prop) (m : X → Nat)
    (hP : ∀ x, P x → v ≤ prio x → ∀ y ∈ succ x, v ≤ prio y → P y ∧ m y < m x) (a : A) (ha : ∀ x ∈ content a, v ≤ prio x → P x) :
    ∃ N, ∀ n ≥ N, ∀ x ∈ content (Search.run G succ n a).2, ¬ v ≤ prio x := by
  let succ' : X → List X := fun x => (succ x).filter fun y => v ≤ prio y
  let size : X → Nat := fun x => if v ≤ prio x then treeSize succ' (m x) x else 0
  have hP' : ∀ x, (P x ∧ v ≤ prio x) → ∀ y ∈ succ' x, (P y ∧ v ≤ prio y) ∧ m y < m x := by
    intro x hx y hy
    obtain ⟨h1, h2⟩ := List.mem_filter.1 hy
    have h2 : v ≤ prio y := by simpa using h2
    obtain ⟨h3, h4⟩ := hP x hx.1 hx.2 y h1 h2
    exact ⟨⟨h3, h2⟩, h4⟩
  have hsum : ∀ (k : Nat) (l : List X), (∀ y ∈ l, v ≤ prio y → treeSize succ' k y = treeSize succ' (m y) y) →
      ((l.filter fun y => v ≤ prio y).map (treeSize succ' k)).sum = (l.map size).sum := by
    intro k l hl
    induction l with
    | nil => rfl
    | cons y l ih =>
      have h1 := ih fun y hy => hl y (by simp [hy])
      by_cases hy : v ≤ prio y
      · rw [List.filter_cons_of_pos (by simpa using hy), List.map_cons, List.sum_cons, List.map_cons, List.sum_cons, h1, hl y (by simp) hy]
        simp only [size, if_pos hy]
      · rw [List.filter_cons_of_neg (by simpa using hy), List.map_cons, List.sum_cons, h1]
        simp only [size, if_neg hy, Nat.zero_add]
  have hsize : ∀ x, P x → v ≤ prio x → size x = 1 + ((succ x).map size).sum := by
    intro x hx hv
    have h1 := treeSize_stable hP' (m x + 1) x ⟨hx, hv⟩ (by omega)
    simp only [size, if_pos hv]
    rw [← h1]
    simp only [treeSize]
    congr 1
    exact hsum (m x) (succ x) fun y hy hyv =>
      treeSize_stable hP' (m x) y ⟨(hP x hx hv y hy hyv).1, hyv⟩ (by have := (hP x hx hv y hy hyv).2; omega)
  have hzero : ∀ x, ¬ v ≤ prio x → size x = 0 := fun x hx => if_neg hx
  have main : ∀ (n : Nat) (a : A), (∀ x ∈ content a, v ≤ prio x → P x) → ((content a).map size).sum ≤ n →
      ∀ x ∈ content (Search.run G succ n a).2, ¬ v ≤ prio x := by
    intro n
    induction n with
    | zero =>
      intro a hx hn x hxa hv
      obtain ⟨s, hs⟩ := Multiset.exists_cons_of_mem hxa
      simp only [Search.run] at hs
      rw [hs, Multiset.map_cons, Multiset.sum_cons, hsize x (hx x hxa hv) hv] at hn
      omega
    | succ n ih =>
      intro a hx hn
      unfold Search.run Search.next
      cases hp : G.pop a with
      | none => simp [hG.lossless.pop_none _ hp]
      | some p =>
        obtain ⟨x, a'⟩ := p
        simp only
        have hc := hG.lossless.pop_some _ _ _ hp
        rw [hc] at hn hx
        rw [Multiset.map_cons, Multiset.sum_cons] at hn
        by_cases hv : v ≤ prio x
        · have hxP := hx x (by simp) hv
          rw [hsize x hxP hv] at hn
          refine ih _ ?_ ?_
          · intro y hy hyv
            rw [hG.lossless.extend, Multiset.mem_add, Multiset.mem_coe] at hy
            rcases hy with hy | hy
            · exact hx y (by simp [hy]) hyv
            · exact (hP x hxP hv y hy hyv).1
          · rw [hG.lossless.extend, Multiset.map_add, Multiset.sum_add, Multiset.map_coe, Multiset.sum_coe]
            omega
        · have hbad : ∀ y ∈ content (G.extend a' (succ x)), ¬ v ≤ prio y := by
            intro y hy hyv
            exact hv (hyv.trans (Search.extend_bounded hG.lossless.sound succ prio hs hG.max hp y hy))
          refine ih _ (fun y hy hyv => absurd hyv (hbad y hy)) ?_
          have : ((content (G.extend a' (succ x))).map size).sum = 0 := by
            rw [Multiset.sum_eq_zero]
            intro z hz
            obtain ⟨y, hy, rfl⟩ := Multiset.mem_map.1 hz
            exact hzero y (hbad y hy)
          omega
  exact ⟨((content a).map size).sum, fun n hn => main n a ha hn⟩

namespace Automaton
variable [DecidableEq K] [DecidableEq T]

/-- If no weight on the agenda is good, all runs of good weights were found, where good weights are products of good weights. -/
theorem run_found [Mul W] [One W] {G : Agenda A (Item S I T W)} {content : A → Multiset (Item S I T W)} (hG : G.Lossless content) {empty : A}
    (hempty : content empty = 0) (M : Automaton K S I T W) (hM : M.Coherent) (w : List T) {n : Nat} {Y : List (Item S I T W)} {b : A}
    (hr : Search.runP G M.successors n (G.extend empty (M.initItem (some w))) = some (Y, b)) (good : W → Prop)
    (hgood : ∀ t ∈ M.transitions, ∀ u : W, good (u * t.weight) → good u) (hbad : ∀ x ∈ content b, ¬ good x.conf.weight)
    (p : Pushdown (Transition I T W)) (c : Configuration S T W) (hc : IsRun M.apply M.transitions M.initial w p.toVec c) (hv : good c.weight) :
    (⟨c, p⟩ : Item S I T W) ∈ Y := by
  have hinit : content (G.extend empty (M.initItem (some w))) = (M.initItem (some w) : Multiset (Item S I T W)) := by
    rw [hG.extend, hempty, zero_add]
  have hs : ∀ x, ∀ y ∈ noPanic M.successors x, good y.conf.weight → good x.conf.weight := by
    intro x y hy
    obtain ⟨t, ht, hst, _⟩ := mem_successors hy
    rw [hst.weight]; exact hgood t ht _
  obtain ⟨hr1, hr2⟩ := Search.runP_run hr
  have hbal := Search.run_balance hG (noPanic M.successors) n (G.extend empty (M.initItem (some w)))
  rw [hr1] at hbal
  rw [hinit] at hbal
  simp only at hbal
  have hfound : ∀ i : Item S I T W, Reach (noPanic M.successors) (· ∈ (M.initItem (some w) : Multiset (Item S I T W))) i → good i.conf.weight → i ∈ Y := by
    intro i hi hv
    rcases reach_yielded_or_pending hbal hi with h | h
    · exact h
    · exfalso
      have : ∀ i, Reach (noPanic M.successors) (· ∈ content b) i → ¬ good i.conf.weight := by
        intro i hi
        induction hi with
        | base h => exact hbad _ h
        | step _ hy ih => exact fun hv => ih (hs _ _ hy hv)
      exact this i h hv
  induction p generalizing c with
  | empty =>
    obtain ⟨he, _⟩ := hc
    simp only [Pushdown.toVec_empty] at he
    cases he
    exact hfound _ (.base (by simp [initItem, Pushdown.new])) hv
  | cons t p ih =>
    obtain ⟨he, hm⟩ := hc
    simp only [Pushdown.toVec_cons] at he hm
    obtain ⟨c1, h1, h2⟩ := exec_append.1 he
    cases h2 with
    | cons hst hn =>
      cases hn
      have htm := hm t (by simp)
      have hv1 : good c1.weight := by
        rw [hst.weight] at hv; exact hgood t htm _ hv
      have hmem := ih c1 ⟨h1, fun u hu => hm u (by simp [hu])⟩ hv1
      have hkey : ∃ k, M.key c1 = some k := by
        obtain ⟨ys, hys⟩ := hr2 ⟨c1, p⟩ hmem
        unfold successors at hys
        cases hk : M.key c1 with
        | none => simp [hk] at hys
        | some k => exact ⟨k, rfl⟩
      have hreach : Reach (noPanic M.successors) (· ∈ (M.initItem (some w) : Multiset (Item S I T W))) ⟨c1, p⟩ := by
        have := (Search.run_reach hG.sound (noPanic M.successors) (· ∈ (M.initItem (some w) : Multiset (Item S I T W))) n
          (G.extend empty (M.initItem (some w))) (fun x hx => .base (by rw [hinit] at hx; exact hx))).1 ⟨c1, p⟩
        rw [hr1] at this
        exact this hmem
      exact hfound _ (.step hreach ((mem_successors_iff hM hkey).2 ⟨t, htm, hst, rfl⟩)) hv

/-- If the runs of weight at least `v` are not longer than `L`, all accepting ones are found after finitely many steps. -/
theorem recognise_fair [Mul W] [One W] [Preorder W] {G : Agenda A (Item S I T W)} {content : A → Multiset (Item S I T W)}
    (hG : HeapLaws G content fun i => i.conf.weight) {empty : A} (hempty : content empty = 0) (M : Automaton K S I T W) (hM : M.Coherent)
    (hw : ∀ t ∈ M.transitions, ∀ u : W, u * t.weight ≤ u) (w : List T) (v : W) {L : Nat}
    (hL : ∀ ts c, IsRun M.apply M.transitions M.initial w ts c → v ≤ c.weight → ts.length ≤ L) :
    ∃ N, ∀ n ≥ N, ∀ out a, M.recognise G empty (some w) n = some (out, a) → ∀ z : Item S I T W,
      IsRun M.apply M.transitions M.initial w z.run.toVec z.conf → M.isTerminal z.conf = true → v ≤ z.conf.weight → z ∈ out := by
  have hs : ∀ x, ∀ y ∈ noPanic M.successors x, y.conf.weight ≤ x.conf.weight := by
    intro x y hy
    obtain ⟨t, ht, hst, _⟩ := mem_successors hy
    rw [hst.weight]; exact hw t ht _
  have hinit : content (G.extend empty (M.initItem (some w))) = (M.initItem (some w) : Multiset (Item S I T W)) := by
    rw [hG.lossless.extend, hempty, zero_add]
  obtain ⟨N, hN⟩ := Search.fair hG (noPanic M.successors) hs v (fun i => IsRun M.apply M.transitions M.initial w i.run.toVec i.conf)
    (fun i => L - i.run.toVec.length) (by
      intro x hx _ y hy hyv
      obtain ⟨t, ht, hst, hr⟩ := mem_successors hy
      have h1 : IsRun M.apply M.transitions M.initial w y.run.toVec y.conf := by
        rw [hr]
        simp only [Pushdown.push, Pushdown.toVec_cons]
        refine ⟨hx.1.snoc hst, fun u hu => ?_⟩
        rcases List.mem_append.1 hu with hu | hu
        · exact hx.2 u hu
        · rw [List.mem_singleton] at hu; subst hu; exact ht
      refine ⟨h1, ?_⟩
      have h2 := hL _ _ h1 hyv
      rw [hr] at h2 ⊢
      simp only [Pushdown.push, Pushdown.toVec_cons, List.length_append, List.length_cons, List.length_nil] at h2 ⊢
      omega) (G.extend empty (M.initItem (some w))) (by
      intro x hx _
      rw [hinit] at hx
      simp only [initItem, Multiset.coe_singleton, Multiset.mem_singleton] at hx
      subst hx
      exact ⟨.nil _, by simp [Pushdown.new]⟩)
  refine ⟨N, fun n hn out a hrun z hz hzt hzv => ?_⟩
  unfold recognise at hrun
  obtain ⟨⟨Y, b⟩, hr, he⟩ := Option.map_eq_some_iff.1 hrun
  simp only [Prod.mk.injEq] at he
  obtain ⟨rfl, rfl⟩ := he
  have hbad := hN n hn
  rw [(Search.runP_run hr).1] at hbad
  exact List.mem_filter.2 ⟨run_found hG.lossless hempty M hM w hr (fun u => v ≤ u) (fun t ht u hv => hv.trans (hw t ht u)) hbad z.run z.conf hz hzv, hzt⟩

/-- Conversely, if a run was found within `n` steps, the better runs are shorter than `n`: a run is never found if there are better runs of each length. -/
theorem recognise_found [Mul W] [One W] [Preorder W] {G : Agenda A (Item S I T W)} {content : A → Multiset (Item S I T W)}
    (hG : HeapLaws G content fun i => i.conf.weight) {empty : A} (hempty : content empty = 0) (M : Automaton K S I T W) (hM : M.Coherent)
    (hw : ∀ t ∈ M.transitions, ∀ u : W, u * t.weight ≤ u) (w : List T) {n : Nat} {out : List (Item S I T W)} {a : A}
    (hrun : M.recognise G empty (some w) n = some (out, a)) {z : Item S I T W} (hz : z ∈ out) {ts : List (Transition I T W)} {c : Configuration S T W}
    (hc : IsRun M.apply M.transitions M.initial w ts c) (hlt : ¬ c.weight ≤ z.conf.weight) : ts.length < n := by
  have hs : ∀ x, ∀ y ∈ noPanic M.successors x, y.conf.weight ≤ x.conf.weight := by
    intro x y hy
    obtain ⟨t, ht, hst, _⟩ := mem_successors hy
    rw [hst.weight]; exact hw t ht _
  unfold recognise at hrun
  obtain ⟨⟨Y, b⟩, hr, he⟩ := Option.map_eq_some_iff.1 hrun
  simp only [Prod.mk.injEq] at he
  obtain ⟨rfl, rfl⟩ := he
  have hzY := (List.mem_filter.1 hz).1
  have hsort := (Search.run_sorted hG.lossless.sound (noPanic M.successors) (fun i => i.conf.weight) hs hG.max n (G.extend empty (M.initItem (some w)))).2
  have hlen := Search.run_length (G := G) (succ := noPanic M.successors) n (G.extend empty (M.initItem (some w)))
  rw [(Search.runP_run hr).1] at hsort hlen
  have hall := run_found hG.lossless hempty M hM w hr (fun u => ¬ u ≤ z.conf.weight) (fun t ht u hv hu => hv ((hw t ht u).trans hu))
    (fun x hx h => h (hsort z hzY x hx))
  have hlens : List.range (ts.length + 1) ⊆ Y.map fun i => i.run.toVec.length := by
    intro k hk
    rw [List.mem_range] at hk
    have hsplit : ts = ts.take k ++ ts.drop k := (List.take_append_drop k ts).symm
    obtain ⟨he, hm⟩ := hc
    rw [hsplit] at he
    obtain ⟨c1, h1, h2⟩ := exec_append.1 he
    have hv : (Pushdown.ofSlice (ts.take k)).toVec = ts.take k := by unfold Pushdown.ofSlice; rw [Pushdown.toVec_foldl]; simp
    have hle : ∀ (us : List (Transition I T W)) (c1 c : Configuration S T W), Exec M.apply c1 us c → (∀ t ∈ us, t ∈ M.transitions) → c.weight ≤ c1.weight := by
      intro us c1 c h
      induction h with
      | nil => exact fun _ => le_refl _
      | cons hst _ ih => exact fun hm => (ih fun t ht => hm t (by simp [ht])).trans (by rw [hst.weight]; exact hw _ (hm _ (by simp)) _)
    refine List.mem_map.2 ⟨⟨c1, Pushdown.ofSlice (ts.take k)⟩, hall _ _ ⟨by rw [hv]; exact h1, fun t ht => hm t ?_⟩ ?_, ?_⟩
    · rw [hv] at ht
      exact List.mem_of_mem_take ht
    · exact fun h => hlt ((hle _ _ _ h2 fun t ht => hm t (List.mem_of_mem_drop ht)).trans h)
    · simp only [hv, List.length_take]
      omega
  have := (List.nodup_range.subperm hlens).length_le
  rw [List.length_range, List.length_map] at this
  simp only at hlen
  omega

/-- Recognition ends if the lengths of the runs are bounded. -/
theorem recognise_ends [Mul W] [One W] {G : Agenda A (Item S I T W)} {content : A → Multiset (Item S I T W)} (hG : G.Sound content)
    {empty : A} (hempty : content empty = 0) (M : Automaton K S I T W) (w : Option (List T)) {L : Nat}
    (hL : ∀ w', w = some w' → ∀ ts c, IsRun M.apply M.transitions M.initial w' ts c → ts.length ≤ L) :
    ∃ N, ∀ n ≥ N, ∀ out a, M.recognise G empty w n = some (out, a) → G.pop a = none := by
  have hinit : content (G.extend empty (M.initItem w)) ≤ (M.initItem w : Multiset (Item S I T W)) := by
    rw [← zero_add (M.initItem w : Multiset (Item S I T W)), ← hempty]
    exact hG.extend empty (M.initItem w)
  obtain ⟨N, hN⟩ := Search.terminates hG (noPanic M.successors) (fun i => ∃ w', w = some w' ∧ IsRun M.apply M.transitions M.initial w' i.run.toVec i.conf)
    (fun i => L - i.run.toVec.length) (by
      rintro x ⟨w', rfl, hx⟩ y hy
      obtain ⟨t, ht, hst, hr⟩ := mem_successors hy
      have h1 : IsRun M.apply M.transitions M.initial w' y.run.toVec y.conf := by
        rw [hr]
        simp only [Pushdown.push, Pushdown.toVec_cons]
        refine ⟨hx.1.snoc hst, fun u hu => ?_⟩
        rcases List.mem_append.1 hu with hu | hu
        · exact hx.2 u hu
        · rw [List.mem_singleton] at hu; subst hu; exact ht
      refine ⟨⟨w', rfl, h1⟩, ?_⟩
      have h2 := hL w' rfl _ _ h1
      rw [hr] at h2 ⊢
      simp only [Pushdown.push, Pushdown.toVec_cons, List.length_append, List.length_cons, List.length_nil] at h2 ⊢
      omega) (G.extend empty (M.initItem w)) (by
      intro x hx
      replace hx := Multiset.mem_of_le hinit hx
      cases w with
      | none => simp [initItem] at hx
      | some w' =>
        simp only [initItem, Multiset.coe_singleton, Multiset.mem_singleton] at hx
        subst hx
        exact ⟨w', rfl, .nil _, by simp [Pushdown.new]⟩)
  refine ⟨N, fun n hn out a hrun => ?_⟩
  unfold recognise at hrun
  obtain ⟨⟨Y, b⟩, hr, he⟩ := Option.map_eq_some_iff.1 hrun
  simp only [Prod.mk.injEq] at he
  obtain ⟨_, rfl⟩ := he
  have := hN n hn
  rw [(Search.runP_run hr).1] at this
  exact this

/-- Recognition ends if and only if the lengths of the runs are bounded. -/
theorem recognise_ends_iff [Mul W] [One W] {G : Agenda A (Item S I T W)} {content : A → Multiset (Item S I T W)} (hG : G.Lossless content)
    {empty : A} (hempty : content empty = 0) (M : Automaton K S I T W) (hM : M.Coherent) (w : List T) (hp : ∀ n, ∃ r, M.recognise G empty (some w) n = some r) :
    (∃ n out a, M.recognise G empty (some w) n = some (out, a) ∧ G.pop a = none) ↔
      ∃ L, ∀ ts c, IsRun M.apply M.transitions M.initial w ts c → ts.length ≤ L := by
  have hinit : content (G.extend empty (M.initItem (some w))) = (M.initItem (some w) : Multiset (Item S I T W)) := by
    rw [hG.extend, hempty, zero_add]
  constructor
  · rintro ⟨n, out, a, hrun, hend⟩
    unfold recognise at hrun
    obtain ⟨⟨Y, b⟩, hr, he⟩ := Option.map_eq_some_iff.1 hrun
    simp only [Prod.mk.injEq] at he
    obtain ⟨rfl, rfl⟩ := he
    obtain ⟨hr1, hr2⟩ := Search.runP_run hr
    have hbal := Search.run_balance hG (noPanic M.successors) n (G.extend empty (M.initItem (some w)))
    rw [hr1, hinit, hG.pop_none _ hend, add_zero] at hbal
    have hall := closed_of_balance hbal
    have hreach : ∀ (p : Pushdown (Transition I T W)) (c : Configuration S T W), IsRun M.apply M.transitions M.initial w p.toVec c → (⟨c, p⟩ : Item S I T W) ∈ Y := by
      intro p c hc
      refine hall _ (isRun_reach hM ?_ p c hc)
      intro i hi
      obtain ⟨ys, hys⟩ := hr2 i (hall i hi)
      unfold successors at hys
      cases hk : M.key i.conf with
      | none => simp [hk] at hys
      | some k => exact ⟨k, rfl⟩
    refine ⟨Y.length, fun ts c hc => ?_⟩
    -- the beginnings of the run have different lengths
    have hlens : List.range (ts.length + 1) ⊆ Y.map fun i => i.run.toVec.length := by
      intro k hk
      rw [List.mem_range] at hk
      have hsplit : ts = ts.take k ++ ts.drop k := (List.take_append_drop k ts).symm
      obtain ⟨he, hm⟩ := hc
      rw [hsplit] at he
      obtain ⟨c1, h1, _⟩ := exec_append.1 he
      have hv : (Pushdown.ofSlice (ts.take k)).toVec = ts.take k := by unfold Pushdown.ofSlice; rw [Pushdown.toVec_foldl]; simp
      refine List.mem_map.2 ⟨⟨c1, Pushdown.ofSlice (ts.take k)⟩, hreach _ _ ⟨by rw [hv]; exact h1, fun t ht => hm t ?_⟩, ?_⟩
      · rw [hv] at ht
        exact List.mem_of_mem_take ht
      · simp only [hv, List.length_take]
        omega
    have := (List.nodup_range.subperm hlens).length_le
    rw [List.length_range, List.length_map] at this
    omega
  · rintro ⟨L, hL⟩
    obtain ⟨N, hN⟩ := recognise_ends hG.sound hempty M (some w) (L := L) (by rintro _ ⟨⟩; exact hL)
    obtain ⟨⟨out, a⟩, hrun⟩ := hp N
    exact ⟨N, out, a, hrun, hN N (le_refl _) out a hrun⟩

end Automaton

namespace Represents
variable [DecidableEq K] [DecidableEq T] {M : Automaton K S I T W} {D : Device S' I' T' W} {toInt : T' → Option T}
  {itemMap : Item S I T W → Option (Item S' I' T' W)} {RT : T → T' → Prop} {RS : S → S' → Prop} {RI : I → I' → Prop}

/-- The same for the outer representation. -/
theorem fair [Mul W] [One W] [Preorder W] (h : Represents M D toInt itemMap RT RS RI) (hM : M.Coherent)
    {G : Agenda A (Item S I T W)} {content : A → Multiset (Item S I T W)}
    (hG : HeapLaws G content (fun i => i.conf.weight)) {empty : A} (hempty : content empty = 0)
    (hw : ∀ t ∈ D.transitions, ∀ u : W, u * t.weight ≤ u) (w : List T') (v : W) {L : Nat}
    (hL : ∀ ts c, IsRun D.apply D.transitions D.initial w ts c → v ≤ c.weight → ts.length ≤ L) :
    ∃ N, ∀ n ≥ N, ∀ out a, M.recogniseOuter toInt itemMap G empty w n = some (out, a) → ∀ z : Item S' I' T' W, z.conf.word = [] →
      D.Accepting w z.run.toVec z.conf.storage z.conf.weight → v ≤ z.conf.weight → z ∈ out := by
  have hw0 : ∀ t ∈ M.transitions, ∀ u : W, u * t.weight ≤ u := by
    intro t ht u
    obtain ⟨t', ht', hr⟩ := forall₂_exists_right h.transitions ht
    rw [hr.weight]; exact hw t' ht' u
  cases hwm : w.mapM toInt with
  | none =>
    refine ⟨0, fun n _ out a _ z hzw hz _ => ?_⟩
    obtain ⟨w0, j, hw1, _⟩ := h.accepting_inner hzw hz
    rw [hwm] at hw1
    cases hw1
  | some w0 =>
    obtain ⟨N, hN⟩ := Automaton.recognise_fair hG hempty M hM hw0 w0 v (L := L) (by
      intro ts c hc hv
      obtain ⟨ts', c', h2, h3, h4⟩ := h.isRun_outer (h.mapM_toInt.1 hwm) hc
      rw [h2.length_eq]
      exact hL ts' c' h4 (by rw [← h3.weight]; exact hv))
    refine ⟨N, fun n hn out a hrun z hzw hz hv => ?_⟩
    obtain ⟨w1, j, hw1, hj, hr, ht⟩ := h.accepting_inner hzw hz
    rw [hwm, Option.some_inj] at hw1
    subst hw1
    obtain ⟨out0, h0, h1⟩ := h.recogniseOuter_some hrun
    rw [hwm] at h0
    have := hN n hn out0 a h0 j hr ht (by rw [hj.conf.weight]; exact hv)
    obtain ⟨i2, h6, h7⟩ := forall₂_exists_right h1 this
    rw [← (ItemRel.biUnique h.uT h.uS h.uI).2 h7 hj]; exact h6

/-- The same for the outer representation. -/
theorem found [Mul W] [One W] [Preorder W] (h : Represents M D toInt itemMap RT RS RI) (hM : M.Coherent)
    {G : Agenda A (Item S I T W)} {content : A → Multiset (Item S I T W)}
    (hG : HeapLaws G content (fun i => i.conf.weight)) {empty : A} (hempty : content empty = 0)
    (hw : ∀ t ∈ D.transitions, ∀ u : W, u * t.weight ≤ u) (w : List T') {n : Nat} {out : List (Item S' I' T' W)} {a : A}
    (hrun : M.recogniseOuter toInt itemMap G empty w n = some (out, a)) {z : Item S' I' T' W} (hz : z ∈ out) {ts : List (Transition I' T' W)}
    {c : Configuration S' T' W} (hc : IsRun D.apply D.transitions D.initial w ts c) (hlt : ¬ c.weight ≤ z.conf.weight) : ts.length < n := by
  have hw0 : ∀ t ∈ M.transitions, ∀ u : W, u * t.weight ≤ u := by
    intro t ht u
    obtain ⟨t', ht', hr⟩ := forall₂_exists_right h.transitions ht
    rw [hr.weight]; exact hw t' ht' u
  obtain ⟨out0, h0, h1⟩ := h.recogniseOuter_some hrun
  obtain ⟨z0, h6, h7⟩ := forall₂_exists_left h1 hz
  obtain ⟨_, w0, hwm, _, _⟩ := Props.C16_recognise_sound hG.lossless.sound empty hempty M _ n out0 a h0 z0 h6
  rw [hwm] at h0
  obtain ⟨ts0, c0, h2, h3, h4⟩ := h.isRun_inner (h.mapM_toInt.1 hwm) hc
  rw [← h2.length_eq]
  exact Automaton.recognise_found hG hempty M hM hw0 w0 h0 h6 h4 (by rw [h3.weight, h7.conf.weight]; exact hlt)

/-- The same for the outer representation. -/
theorem ends [Mul W] [One W] (h : Represents M D toInt itemMap RT RS RI)
    {G : Agenda A (Item S I T W)} {content : A → Multiset (Item S I T W)} (hG : G.Sound content) {empty : A} (hempty : content empty = 0) (w : List T') {L : Nat}
    (hL : ∀ ts c, IsRun D.apply D.transitions D.initial w ts c → ts.length ≤ L) :
    ∃ N, ∀ n ≥ N, ∀ out a, M.recogniseOuter toInt itemMap G empty w n = some (out, a) → G.pop a = none := by
  obtain ⟨N, hN⟩ := Automaton.recognise_ends hG hempty M (w.mapM toInt) (L := L) (by
    intro w0 hw0 ts c hc
    obtain ⟨ts', c', h2, h3, h4⟩ := h.isRun_outer (h.mapM_toInt.1 hw0) hc
    rw [h2.length_eq]
    exact hL ts' c' h4)
  refine ⟨N, fun n hn out a hrun => ?_⟩
  obtain ⟨out0, h0, _⟩ := h.recogniseOuter_some hrun
  exact hN n hn out0 a h0

/-- The same for the outer representation, if the symbols of the word occur in transitions. -/
theorem ends_iff [Mul W] [One W] (h : Represents M D toInt itemMap RT RS RI) (hM : M.Coherent)
    {G : Agenda A (Item S I T W)} {content : A → Multiset (Item S I T W)} (hG : G.Lossless content) {empty : A} (hempty : content empty = 0) (w : List T')
    (hp : ∀ n, ∃ r, M.recogniseOuter toInt itemMap G empty w n = some r) (hw : ∀ x ∈ w, ∃ t ∈ D.transitions, x ∈ t.word) :
    (∃ n out a, M.recogniseOuter toInt itemMap G empty w n = some (out, a) ∧ G.pop a = none) ↔
      ∃ L, ∀ ts c, IsRun D.apply D.transitions D.initial w ts c → ts.length ≤ L := by
  obtain ⟨w0, hw0⟩ : ∃ w0, w.mapM toInt = some w0 := by
    have : ∃ w0, List.Forall₂ RT w0 w := forall₂_exists_list fun x hx => by
      obtain ⟨t', ht', hxt⟩ := hw x hx
      obtain ⟨t, _, htt⟩ := forall₂_exists_left h.transitions ht'
      obtain ⟨y, _, hy⟩ := forall₂_exists_left htt.word hxt
      exact ⟨y, hy⟩
    obtain ⟨w0, hw0⟩ := this
    exact ⟨w0, h.mapM_toInt.2 hw0⟩
  have hp0 : ∀ n, ∃ r, M.recognise G empty (some w0) n = some r := by
    intro n
    obtain ⟨⟨out, a⟩, hr⟩ := hp n
    obtain ⟨out0, h0, _⟩ := h.recogniseOuter_some hr
    rw [hw0] at h0
    exact ⟨_, h0⟩
  have h1 : (∃ n out a, M.recogniseOuter toInt itemMap G empty w n = some (out, a) ∧ G.pop a = none) ↔
      ∃ n out a, M.recognise G empty (some w0) n = some (out, a) ∧ G.pop a = none := by
    constructor
    · rintro ⟨n, out, a, hr, hend⟩
      obtain ⟨out0, h0, _⟩ := h.recogniseOuter_some hr
      rw [hw0] at h0
      exact ⟨n, out0, a, h0, hend⟩
    · rintro ⟨n, out0, a, hr, hend⟩
      obtain ⟨⟨out, a'⟩, hr'⟩ := hp n
      obtain ⟨out1, h0, _⟩ := h.recogniseOuter_some hr'
      rw [hw0, hr] at h0
      cases h0
      exact ⟨n, out, a, hr', hend⟩
  rw [h1, Automaton.recognise_ends_iff hG hempty M hM w0 hp0]
  constructor
  · rintro ⟨L, hL⟩
    refine ⟨L, fun ts' c' hc => ?_⟩
    obtain ⟨ts, c, h2, h3, h4⟩ := h.isRun_inner (h.mapM_toInt.1 hw0) hc
    rw [← h2.length_eq]
    exact hL ts c h4
  · rintro ⟨L, hL⟩
    refine ⟨L, fun ts c hc => ?_⟩
    obtain ⟨ts', c', h2, h3, h4⟩ := h.isRun_outer (h.mapM_toInt.1 hw0) hc
    rw [h2.length_eq]
    exact hL ts' c' h4

end Represents

end Rustomata
