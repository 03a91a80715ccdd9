import Verif.Proofs.CsCow
import Verif.Proofs.CsEncode
import Verif.Spec.CsCow

/-!
# Consistency of cow derivations, and their derivations
-/

namespace Rustomata
open Spec CowNode

/-! ### Groups -/

/-- The successors for one nonterminal. -/
def cowGroup (ts : List CowNode) (i : Nat) : List CowNode := ts.flatMap fun t => (t.successors.filter fun s => s.1.1 = i).map Prod.snd

theorem cowNodes_cons (ts : List CowNode) (i : Nat) (p : List Nat) : cowNodes ts (i :: p) = cowNodes (cowGroup ts i) p := rfl

theorem cowNodes_append (ts : List CowNode) (p q : List Nat) : cowNodes ts (p ++ q) = cowNodes (cowNodes ts p) q := by
  induction p generalizing ts with
  | nil => rfl
  | cons i p ih => rw [List.cons_append, cowNodes_cons, ih, cowNodes_cons]

theorem cowNodes_nil (p : List Nat) : cowNodes [] p = [] := by
  induction p with
  | nil => rfl
  | cons i p ih => exact ih

theorem groups_eq (ts : List CowNode) : groups ts = ((ts.flatMap successors).map fun s => (s.1.1, s.2)).foldl (fun m x => VecMultiMap.pushTo m x.1 x.2) [] := by
  rw [List.foldl_map]
  rfl

theorem groups_getD (ts : List CowNode) (i : Nat) : ((groups ts)[i]?).getD [] = cowGroup ts i := by
  rw [groups_eq, pushAll_getD]
  unfold cowGroup
  simp only [List.getElem?_nil, Option.getD_none, List.nil_append]
  induction ts with
  | nil => rfl
  | cons t ts ih =>
    rw [List.flatMap_cons, List.flatMap_cons, List.map_append, List.filter_append, List.map_append, ih]
    congr 1
    rw [List.filter_map, List.map_map]
    rfl

theorem pushAll_last {X : Type _} (L : List (Nat × X)) : ∀ (m : List (List X)) (n : Nat), n < (L.foldl (fun m x => VecMultiMap.pushTo m x.1 x.2) m).length →
    n < m.length ∨ ∃ x ∈ L, n ≤ x.1 := by
  induction L with
  | nil => intro m n h; exact .inl h
  | cons x L ih =>
    intro m n h
    rcases ih _ n h with h | ⟨y, hy, h⟩
    · rw [VecMultiMap.pushTo_length] at h
      by_cases hm : n < m.length
      · exact .inl hm
      · exact .inr ⟨x, by simp, by omega⟩
    · exact .inr ⟨y, by simp [hy], h⟩

theorem groups_last {ts : List CowNode} {i : Nat} (h : i < (groups ts).length) : ∃ i', i ≤ i' ∧ cowGroup ts i' ≠ [] := by
  rw [groups_eq] at h
  rcases pushAll_last _ _ _ h with h | ⟨x, hx, h⟩
  · cases h
  · obtain ⟨s, hs, rfl⟩ := List.mem_map.1 hx
    obtain ⟨t, ht, hs⟩ := List.mem_flatMap.1 hs
    refine ⟨s.1.1, h, List.ne_nil_of_mem (a := s.2) ?_⟩
    exact List.mem_flatMap.2 ⟨t, ht, List.mem_map.2 ⟨s, List.mem_filter.2 ⟨hs, by simp⟩, rfl⟩⟩

theorem groups_lt {ts : List CowNode} {i : Nat} (h : cowGroup ts i ≠ []) : i < (groups ts).length := by
  by_contra hn
  apply h
  rw [← groups_getD, List.getElem?_eq_none (by omega)]
  rfl

theorem groups_getElem {ts : List CowNode} {i : Nat} (h : i < (groups ts).length) : (groups ts)[i]? = some (cowGroup ts i) := by
  rw [← groups_getD, List.getElem?_eq_getElem h]
  rfl

theorem sameContent_iff {ts : List CowNode} : sameContent ts = true ↔ CowAgree ts [] := by
  cases ts with
  | nil => simp [sameContent, CowAgree, cowNodes]
  | cons t ts =>
    simp only [sameContent, List.all_eq_true, decide_eq_true_eq, CowAgree, cowNodes, List.mem_cons]
    constructor
    · rintro h a (rfl | ha) b (rfl | hb)
      · rfl
      · exact (h b hb).symm
      · exact h a ha
      · rw [h a ha, h b hb]
    · exact fun h a ha => h a (.inr ha) t (.inl rfl)

theorem cowConsistent_iff {ts : List CowNode} : CowConsistent ts ↔ CowAgree ts [] ∧ ∀ g ∈ groups ts, CowConsistent g := by
  constructor
  · refine fun h => ⟨h [], fun g hg p => ?_⟩
    obtain ⟨i, hi, rfl⟩ := List.mem_iff_getElem.1 hg
    have := groups_getElem hi
    rw [List.getElem?_eq_getElem hi, Option.some.injEq] at this
    rw [this]
    exact h (i :: p)
  · rintro ⟨h1, h2⟩ p
    cases p with
    | nil => exact h1
    | cons i p =>
      by_cases hi : i < (groups ts).length
      · have hm := List.mem_of_getElem? (groups_getElem hi)
        exact h2 _ hm p
      · have : cowGroup ts i = [] := by
          by_contra hne
          exact hi (groups_lt hne)
        unfold CowAgree
        rw [cowNodes_cons, this, cowNodes_nil]
        simp

/-- There are no nodes at the positions of length `n`. -/
def CowHeight (ts : List CowNode) (n : Nat) : Prop := ∀ p, n ≤ p.length → cowNodes ts p = []

theorem CowHeight.group {ts : List CowNode} {n : Nat} (h : CowHeight ts (n + 1)) {g : List CowNode} (hg : g ∈ groups ts) : CowHeight g n := by
  obtain ⟨i, hi, rfl⟩ := List.mem_iff_getElem.1 hg
  have := groups_getElem hi
  rw [List.getElem?_eq_getElem hi, Option.some.injEq] at this
  rw [this]
  exact fun p hp => h (i :: p) (by simpa using hp)

theorem cowNodes_sizeOf {t : CowNode} : ∀ (p : List Nat) (ts : List CowNode), t ∈ cowNodes ts p → ∃ t₀ ∈ ts, sizeOf t + p.length ≤ sizeOf t₀
  | [], ts, h => ⟨t, h, by simp⟩
  | i :: p, ts, h => by
    obtain ⟨t₁, h1, h2⟩ := cowNodes_sizeOf p _ h
    obtain ⟨t₀, h3, h4⟩ := List.mem_flatMap.1 h1
    obtain ⟨s, h5, rfl⟩ := List.mem_map.1 h4
    have h6 := (List.mem_filter.1 h5).1
    refine ⟨t₀, h3, ?_⟩
    cases t₀ with
    | node c ss =>
      have := List.sizeOf_lt_of_mem (show s ∈ ss from h6)
      have h7 : sizeOf s.2 < sizeOf s := by
        obtain ⟨l, s⟩ := s
        simp
      simp only [List.length_cons, CowNode.node.sizeOf_spec]
      omega

theorem cowHeight_single (t : CowNode) : CowHeight [t] (sizeOf t) := by
  intro p hp
  rw [List.eq_nil_iff_forall_not_mem]
  intro x hx
  obtain ⟨t₀, h1, h2⟩ := cowNodes_sizeOf p _ hx
  rw [List.mem_singleton] at h1
  subst h1
  have : 0 < sizeOf x := by cases x; simp
  omega

/-! ### `is_consistent` -/

theorem allPanicking_iff {A : Type _} {p : A → Option Bool} {R : A → Prop} : ∀ (l : List A), (∀ x ∈ l, ∃ b, p x = some b ∧ (b = true ↔ R x)) →
    ∃ b, allPanicking p l = some b ∧ (b = true ↔ ∀ x ∈ l, R x)
  | [], _ => ⟨true, rfl, by simp⟩
  | x :: l, h => by
    obtain ⟨b, h1, h2⟩ := h x (by simp)
    obtain ⟨b', h3, h4⟩ := allPanicking_iff l fun y hy => h y (by simp [hy])
    cases b with
    | false =>
      refine ⟨false, by simp [allPanicking, h1], ?_⟩
      simp only [Bool.false_eq_true, false_iff] at h2 ⊢
      exact fun hn => h2 (hn x (by simp))
    | true =>
      refine ⟨b', by simp [allPanicking, h1, h3], ?_⟩
      rw [h4]
      simp [h2.1 rfl]

theorem isConsistentVec_spec : ∀ (fuel n : Nat) (ts : List CowNode), CowHeight ts n → n < fuel →
    ∃ b, isConsistentVec fuel ts = some b ∧ (b = true ↔ CowConsistent ts)
  | 0, n, _, _, hn => by omega
  | fuel + 1, n, ts, hh, hn => by
    rw [isConsistentVec]
    by_cases hs : sameContent ts = true
    · rw [if_pos hs]
      have key : ∀ g ∈ groups ts, ∃ b, isConsistentVec fuel g = some b ∧ (b = true ↔ CowConsistent g) := by
        intro g hg
        cases n with
        | zero =>
          have : ts = [] := hh [] (by simp)
          subst this
          cases hg
        | succ n => exact isConsistentVec_spec fuel n g (hh.group hg) (by omega)
      obtain ⟨b, h1, h2⟩ := allPanicking_iff _ key
      refine ⟨b, h1, ?_⟩
      rw [h2, cowConsistent_iff]
      simp [sameContent_iff.1 hs]
    · rw [if_neg hs]
      refine ⟨false, rfl, ?_⟩
      simp only [Bool.false_eq_true, false_iff]
      exact fun h => hs (sameContent_iff.2 (h []))

/-! ### `to_mcfg_deriv` -/

section
variable {R : Type _} {rules : List R}

/-- As far as the nodes agree, the numbers of rules are valid and there are no gaps. -/
def CowSafe (n : Nat) (ts : List CowNode) : Prop :=
  ∀ p, (∀ q, q <+: p → CowAgree ts q) →
    (∀ t ∈ cowNodes ts p, t.content < n) ∧ ∀ i i', i' < i → cowNodes ts (p ++ [i]) ≠ [] → cowNodes ts (p ++ [i']) ≠ []

theorem cowsLoop_some {rec : List CowNode → GornTree R → List Nat → Option (Bool × GornTree R)} {pos : List Nat} {G : List CowNode → Prop}
    (h : ∀ g d p r, rec g d p = some r → (r.1 = true → G g)) : ∀ (gs : List (List CowNode)) (idx : Nat) (d : GornTree R) (r : Bool × GornTree R),
    cowsLoop rec pos idx gs d = some r → r.1 = true → ∀ g ∈ gs, G g
  | [], _, _, _, _, _ => by simp
  | g :: gs, idx, d, r, hl, hr => by
    rw [cowsLoop] at hl
    split at hl
    · cases hl
    · cases hl
      cases hr
    · rename_i d' hd
      intro g' hg'
      rcases List.mem_cons.1 hg' with rfl | hg'
      · exact h _ _ _ _ hd rfl
      · exact cowsLoop_some h gs _ _ _ hl hr g' hg'

theorem cowsLoop_false {rec : List CowNode → GornTree R → List Nat → Option (Bool × GornTree R)} {pos : List Nat} {G : List CowNode → Prop}
    (h : ∀ g d p r, rec g d p = some r → (r.1 = false → ¬ G g)) : ∀ (gs : List (List CowNode)) (idx : Nat) (d : GornTree R) (r : Bool × GornTree R),
    cowsLoop rec pos idx gs d = some r → r.1 = false → ∃ g ∈ gs, ¬ G g
  | [], _, _, r, hl, hr => by
    cases hl
    cases hr
  | g :: gs, idx, d, r, hl, hr => by
    rw [cowsLoop] at hl
    split at hl
    · cases hl
    · rename_i d' hd
      exact ⟨g, by simp, h _ _ _ _ hd rfl⟩
    · obtain ⟨g', h1, h2⟩ := cowsLoop_false h gs _ _ _ hl hr
      exact ⟨g', by simp [h1], h2⟩

theorem cowDense_of_groups {ts : List CowNode} (h : ∀ g ∈ groups ts, g ≠ [] ∧ CowDense g) : CowDense ts := by
  intro p
  cases p with
  | nil =>
    intro i i' hi hne
    simp only [List.nil_append, cowNodes_cons, cowNodes] at hne ⊢
    have hl := groups_lt hne
    exact (h _ (List.mem_of_getElem? (groups_getElem (show i' < _ by omega)))).1
  | cons k p =>
    intro i i' hi hne
    simp only [List.cons_append, cowNodes_cons] at hne ⊢
    by_cases hk : cowGroup ts k = []
    · rw [hk, cowNodes_nil] at hne
      exact absurd rfl hne
    · exact (h _ (List.mem_of_getElem? (groups_getElem (groups_lt hk)))).2 p i i' hi hne

theorem cowBelow_of_groups {n : Nat} {ts : List CowNode} (h0 : ∀ t ∈ ts, t.content < n) (h : ∀ g ∈ groups ts, CowBelow n g) : CowBelow n ts := by
  intro p
  cases p with
  | nil => exact h0
  | cons k p =>
    intro t ht
    rw [cowNodes_cons] at ht
    by_cases hk : cowGroup ts k = []
    · rw [hk, cowNodes_nil] at ht
      cases ht
    · exact h _ (List.mem_of_getElem? (groups_getElem (groups_lt hk))) p t ht

/-- A derivation is only returned for consistent trees without gaps and with valid rules. -/
theorem cowsToDeriv_true : ∀ (fuel : Nat) (ts : List CowNode) (d : GornTree R) (pos : List Nat) (r : Bool × GornTree R), cowsToDeriv rules fuel ts d pos = some r →
    r.1 = true → ts ≠ [] ∧ CowConsistent ts ∧ CowDense ts ∧ CowBelow rules.length ts
  | 0, _, _, _, _, h, _ => by cases h
  | fuel + 1, ts, d, pos, r, h, hr => by
    rw [cowsToDeriv] at h
    split at h
    · rename_i hs
      split at h
      · cases h
      · cases h
        cases hr
      · rename_i d' hd
        have key := cowsLoop_some (G := fun g => g ≠ [] ∧ CowConsistent g ∧ CowDense g ∧ CowBelow rules.length g)
          (fun g d p r h1 h2 => cowsToDeriv_true fuel g d p r h1 h2) _ _ _ _ hd rfl
        split at h
        · cases h
        · rename_i t ts'
          rw [Option.map_eq_some_iff] at h
          obtain ⟨ru, hru, _⟩ := h
          have ha := sameContent_iff.1 hs
          refine ⟨by simp, cowConsistent_iff.2 ⟨ha, fun g hg => (key g hg).2.1⟩, cowDense_of_groups fun g hg => ⟨(key g hg).1, (key g hg).2.2.1⟩,
            cowBelow_of_groups (fun t' ht' => ?_) fun g hg => (key g hg).2.2.2⟩
          rw [ha t' ht' t (by simp [cowNodes])]
          exact (List.getElem?_eq_some_iff.1 hru).1
    · cases h
      cases hr

/-- Inconsistent trees are only reported if they are inconsistent. -/
theorem cowsToDeriv_false : ∀ (fuel : Nat) (ts : List CowNode) (d : GornTree R) (pos : List Nat) (r : Bool × GornTree R), cowsToDeriv rules fuel ts d pos = some r →
    r.1 = false → ¬ CowConsistent ts
  | 0, _, _, _, _, h, _ => by cases h
  | fuel + 1, ts, d, pos, r, h, hr => by
    rw [cowsToDeriv] at h
    split at h
    · split at h
      · cases h
      · rename_i d' hd
        obtain ⟨g, h1, h2⟩ := cowsLoop_false (G := CowConsistent) (fun g d p r h1 h2 => cowsToDeriv_false fuel g d p r h1 h2) _ _ _ _ hd rfl
        exact fun hc => h2 ((cowConsistent_iff.1 hc).2 g h1)
      · split at h
        · cases h
        · rw [Option.map_eq_some_iff] at h
          obtain ⟨_, _, rfl⟩ := h
          cases hr
    · rename_i hs
      exact fun hc => hs (sameContent_iff.2 (hc []))

theorem CowSafe.group {n : Nat} {ts : List CowNode} (h : CowSafe n ts) (ha : CowAgree ts []) (i : Nat) : CowSafe n (cowGroup ts i) := by
  intro p hp
  have := h (i :: p) fun q hq => by
    cases q with
    | nil => exact ha
    | cons k q =>
      obtain ⟨rfl, hq'⟩ := List.cons_prefix_cons.1 hq
      exact hp q hq'
  exact this

/-- The result of the loop over the groups, if it does not fail. -/
theorem cowsLoop_spec {rec : List CowNode → GornTree R → List Nat → Option (Bool × GornTree R)} {pos : List Nat} :
    ∀ (gs : List (List CowNode)) (idx : Nat) (d : GornTree R),
    (∀ g ∈ gs, ∀ d p, ∃ r, rec g d p = some r ∧ (r.1 = true → (d.Sorted → r.2.Sorted) ∧
      (∀ q, r.2.get (p ++ q) = (cowRule rules g q).or (d.get (p ++ q))) ∧ ∀ q, ¬ p <+: q → r.2.get q = d.get q)) →
    ∃ r, cowsLoop rec pos idx gs d = some r ∧ (r.1 = true → (d.Sorted → r.2.Sorted) ∧
      (∀ i q, r.2.get (pos ++ i :: q) = if idx ≤ i then (cowRule rules ((gs[i - idx]?).getD []) q).or (d.get (pos ++ i :: q)) else d.get (pos ++ i :: q)) ∧
      ∀ q, (∀ i q', q ≠ pos ++ i :: q') → r.2.get q = d.get q)
  | [], idx, d, _ => ⟨(true, d), rfl, fun _ => ⟨id, fun i q => by simp [cowRule, cowNodes_nil], fun _ _ => rfl⟩⟩
  | g :: gs, idx, d, h => by
    obtain ⟨⟨b, d₁⟩, h1, h2⟩ := h g (by simp) d (pos ++ [idx])
    cases b with
    | false => exact ⟨(false, d₁), by simp [cowsLoop, h1], by simp⟩
    | true =>
      obtain ⟨s1, g1, g2⟩ := h2 rfl
      obtain ⟨r, k1, k2⟩ := cowsLoop_spec (pos := pos) gs (idx + 1) d₁ fun g' hg' => h g' (by simp [hg'])
      refine ⟨r, by simp [cowsLoop, h1, k1], fun hr => ?_⟩
      obtain ⟨s2, k3, k4⟩ := k2 hr
      refine ⟨fun hs => s2 (s1 hs), fun i q => ?_, fun q hq => ?_⟩
      · rw [k3]
        have hpre : ∀ i', i' ≠ i → ¬ (pos ++ [i']) <+: (pos ++ i :: q) := by
          rintro i' hne ⟨t, ht⟩
          simp only [List.append_assoc, List.cons_append, List.nil_append, List.append_cancel_left_eq, List.cons.injEq] at ht
          exact hne ht.1
        by_cases e : i = idx
        · subst e
          have := g1 q
          rw [List.append_assoc] at this
          simp only [List.cons_append, List.nil_append] at this
          simp [this]
        · rw [g2 _ (hpre idx (Ne.symm e))]
          by_cases hle : idx + 1 ≤ i
          · rw [if_pos hle, if_pos (by omega), show i - idx = (i - (idx + 1)) + 1 by omega, List.getElem?_cons_succ]
          · rw [if_neg hle, if_neg (by omega)]
      · rw [k4 q hq]
        apply g2
        rintro ⟨t, rfl⟩
        exact hq idx t (by simp)

/-- The result of `cows_to_mcfg_deriv`. -/
theorem cowsToDeriv_spec : ∀ (fuel n : Nat) (ts : List CowNode), CowHeight ts n → n < fuel → ts ≠ [] → CowSafe rules.length ts → ∀ (d : GornTree R) (pos : List Nat),
    ∃ r, cowsToDeriv rules fuel ts d pos = some r ∧ (r.1 = true → (d.Sorted → r.2.Sorted) ∧
      (∀ q, r.2.get (pos ++ q) = (cowRule rules ts q).or (d.get (pos ++ q))) ∧ ∀ q, ¬ pos <+: q → r.2.get q = d.get q)
  | 0, _, _, _, hn, _, _, _, _ => by omega
  | fuel + 1, n, ts, hh, hn, hne, hs, d, pos => by
    rw [cowsToDeriv]
    by_cases hc : sameContent ts = true
    · have ha := sameContent_iff.1 hc
      rw [if_pos hc]
      have hroot := hs [] fun q hq => by rw [List.prefix_nil.1 hq]; exact ha
      obtain ⟨⟨b, d₁⟩, h1, h2⟩ := cowsLoop_spec (rules := rules) (rec := cowsToDeriv rules fuel) (pos := pos) (groups ts) 0 d fun g hg => by
        obtain ⟨i, hi, rfl⟩ := List.mem_iff_getElem.1 hg
        have hgi := groups_getElem hi
        rw [List.getElem?_eq_getElem hi, Option.some.injEq] at hgi
        rw [hgi] at hg ⊢
        have hgne : cowGroup ts i ≠ [] := by
          obtain ⟨i', h1, h2⟩ := groups_last hi
          rcases Nat.lt_or_eq_of_le h1 with h1 | rfl
          · exact hroot.2 i' i h1 h2
          · exact h2
        intro d p
        cases n with
        | zero => exact absurd (hh [] (by simp)) hne
        | succ n => exact cowsToDeriv_spec fuel n _ (hh.group hg) (by omega) hgne (hs.group ha i) d p
      rw [h1]
      cases b with
      | false => exact ⟨(false, d₁), rfl, by simp⟩
      | true =>
        obtain ⟨s1, g1, g2⟩ := h2 rfl
        obtain ⟨t, ts', rfl⟩ : ∃ t ts', ts = t :: ts' := List.exists_cons_of_ne_nil hne
        have hlt := hroot.1 t (by simp [cowNodes])
        refine ⟨(true, d₁.insert pos rules[t.content]), ?_, fun _ => ⟨fun h => GornTree.sorted_insert (s1 h) _ _, fun q => ?_, fun q hq => ?_⟩⟩
        · simp [List.getElem?_eq_getElem hlt]
        · simp only
          rw [GornTree.get_insert]
          cases q with
          | nil =>
            simp [cowRule, cowNodes, List.getElem?_eq_getElem hlt]
          | cons i q =>
            rw [if_neg (by simp), g1, if_pos (Nat.zero_le _), Nat.sub_zero, groups_getD]
            rfl
        · simp only
          rw [GornTree.get_insert, if_neg (by rintro rfl; exact hq List.prefix_rfl)]
          apply g2
          rintro i q' rfl
          exact hq ⟨i :: q', rfl⟩
    · rw [if_neg hc]
      exact ⟨(false, d), rfl, by simp⟩

end

/-! ### Bracket words -/

theorem mem_cowSuccs {P : Parts} {i j : Nat} {t : CowNode} : ((i, j), t) ∈ cowSuccs P ↔ ∃ rid Q, ((i, j), rid, Q) ∈ Parts.tops P ∧ t = cowOf rid Q := by
  rw [cowSuccs_tops, List.mem_map]
  constructor
  · rintro ⟨⟨k, rid, Q⟩, h, e⟩
    cases e
    exact ⟨rid, Q, h, rfl⟩
  · rintro ⟨rid, Q, h, rfl⟩
    exact ⟨_, h, rfl⟩

theorem mem_cowNodes_cons {ts : List CowNode} {i : Nat} {p : List Nat} {t : CowNode} :
    t ∈ cowNodes ts (i :: p) ↔ ∃ t₀ ∈ ts, ∃ j t₁, ((i, j), t₁) ∈ t₀.successors ∧ t ∈ cowNodes [t₁] p := by
  have key : ∀ (p : List Nat) (l : List CowNode), t ∈ cowNodes l p ↔ ∃ t₁ ∈ l, t ∈ cowNodes [t₁] p := by
    intro p
    induction p with
    | nil => intro l; simp [cowNodes]
    | cons k p ih =>
      intro l
      rw [cowNodes_cons, ih]
      constructor
      · rintro ⟨t₁, h1, h2⟩
        obtain ⟨t₀, h3, h4⟩ := List.mem_flatMap.1 h1
        refine ⟨t₀, h3, ?_⟩
        rw [cowNodes_cons, ih]
        exact ⟨t₁, by simpa [cowGroup] using h4, h2⟩
      · rintro ⟨t₀, h1, h2⟩
        rw [cowNodes_cons, ih] at h2
        obtain ⟨t₁, h3, h4⟩ := h2
        exact ⟨t₁, List.mem_flatMap.2 ⟨t₀, h1, by simpa [cowGroup] using h3⟩, h4⟩
  rw [cowNodes_cons, key]
  constructor
  · rintro ⟨t₁, h1, h2⟩
    obtain ⟨t₀, h3, h4⟩ := List.mem_flatMap.1 h1
    obtain ⟨⟨⟨i', j⟩, s⟩, h5, rfl⟩ := List.mem_map.1 h4
    rw [List.mem_filter] at h5
    obtain ⟨h5, h6⟩ := h5
    simp only [decide_eq_true_eq] at h6
    subst h6
    exact ⟨t₀, h3, j, s, h5, h2⟩
  · rintro ⟨t₀, h1, j, t₁, h2, h3⟩
    exact ⟨t₁, List.mem_flatMap.2 ⟨t₀, h1, List.mem_map.2 ⟨((i, j), t₁), List.mem_filter.2 ⟨h2, by simp⟩, rfl⟩⟩, h3⟩

/-- The nodes of the cow derivation of a bracket word are the visits. -/
theorem cowNodes_visits {c : Nat} : ∀ (p : List Nat) (rid : Nat) (P : Parts), (∃ t ∈ cowNodes [cowOf rid P] p, t.content = c) ↔ (p, c) ∈ ([], rid) :: P.visits []
  | [], rid, P => by
    have : ([], c) ∉ P.visits [] := by
      rw [mem_visits]
      rintro ⟨_, _, _, _, _, _, h, _⟩
      cases h
    simp [cowNodes, this, cowOf, CowNode.content, eq_comm]
  | i :: p, rid, P => by
    rw [List.mem_cons, mem_visits]
    simp only [mem_cowNodes_cons, List.mem_singleton]
    constructor
    · rintro ⟨t, ⟨_, rfl, j, t₁, h1, h2⟩, h3⟩
      obtain ⟨rid', Q, h4, rfl⟩ := mem_cowSuccs.1 h1
      exact .inr ⟨i, j, rid', Q, h4, p, rfl, (cowNodes_visits p rid' Q).1 ⟨t, h2, h3⟩⟩
    · rintro (h | ⟨i', j, rid', Q, h1, p', h2, h3⟩)
      · cases h
      · cases h2
        obtain ⟨t, h4, h5⟩ := (cowNodes_visits p rid' Q).2 h3
        exact ⟨t, ⟨_, rfl, j, _, mem_cowSuccs.2 ⟨rid', Q, h1, rfl⟩, h4⟩, h5⟩

theorem cowConsistent_word {rid : Nat} {P : Parts} : CowConsistent [cowOf rid P] ↔ Consistent rid P := by
  constructor
  · intro h p r r' h1 h2
    obtain ⟨t, h3, rfl⟩ := (cowNodes_visits p rid P).2 h1
    obtain ⟨t', h4, rfl⟩ := (cowNodes_visits p rid P).2 h2
    exact h p t h3 t' h4
  · intro h p a ha b hb
    exact h p _ _ ((cowNodes_visits p rid P).1 ⟨a, ha, rfl⟩) ((cowNodes_visits p rid P).1 ⟨b, hb, rfl⟩)

/-! ### The words of the context-free approximation -/

section
variable {N T W : Type _} [Monoid W] {factorize : W → Nat → List W} {rules : List (PMCFGRule N T W)}

theorem fits_tops {tail : List N} {comp : List (VarT T)} {P : Parts} {u : List T} {w : W} (h : Fits factorize (indexed rules) tail comp P u w) :
    (∀ i j rid Q, ((i, j), rid, Q) ∈ Parts.tops P → .var i j ∈ comp ∧ ∃ r c u w, rules[rid]? = some r ∧ tail[i]? = some r.head ∧ r.composition[j]? = some c ∧
      Fits factorize (indexed rules) r.tail c Q u w) ∧
    ∀ i j, .var i j ∈ comp → ∃ rid Q, ((i, j), rid, Q) ∈ Parts.tops P := by
  induction h with
  | nil => exact ⟨fun i j rid Q h => (by cases h), fun i j h => (by cases h)⟩
  | term _ ih =>
    refine ⟨fun i j rid Q h => ?_, fun i j h => ?_⟩
    · exact ⟨by simp [(ih.1 i j rid Q h).1], (ih.1 i j rid Q h).2⟩
    · rcases List.mem_cons.1 h with h | h
      · cases h
      · exact ih.2 i j h
  | @part tail c comp i j rid r f P₁ P₂ u₁ u₂ w₁ w₂ h1 h2 h3 h4 h5 _ _ ih₂ =>
    refine ⟨fun i' j' rid' Q h => ?_, fun i' j' h => ?_⟩
    · rcases List.mem_cons.1 h with h | h
      · cases h
        exact ⟨by simp, r, comp, u₁, w₁, mem_indexed.1 h1, h2, h3, h5⟩
      · exact ⟨by simp [(ih₂.1 i' j' rid' Q h).1], (ih₂.1 i' j' rid' Q h).2⟩
    · rcases List.mem_cons.1 h with h | h
      · cases h
        exact ⟨rid, P₁, by simp [Parts.tops]⟩
      · obtain ⟨rid', Q, h⟩ := ih₂.2 i' j' h
        exact ⟨rid', Q, by simp [Parts.tops, h]⟩

/-- The trees are cow derivations of all components of a rule. -/
structure CowGroup (factorize : W → Nat → List W) (rules : List (PMCFGRule N T W)) (rid : Nat) (r : PMCFGRule N T W) (ts : List CowNode) : Prop where
  rule : rules[rid]? = some r
  sound : ∀ t ∈ ts, ∃ (j : Nat) (c : List (VarT T)) (P : Parts) (u : List T) (w : W), r.composition[j]? = some c ∧
    Fits factorize (indexed rules) r.tail c P u w ∧ t = cowOf rid P
  complete : ∀ c ∈ r.composition, ∃ (P : Parts) (u : List T) (w : W), Fits factorize (indexed rules) r.tail c P u w ∧ cowOf rid P ∈ ts

theorem mem_varsOf_comp {C : Composition T} {i j : Nat} : (i, j) ∈ varsOf C ↔ ∃ c ∈ C, VarT.var i j ∈ c := by
  unfold varsOf
  rw [List.mem_filterMap]
  constructor
  · rintro ⟨x, h1, h2⟩
    obtain ⟨c, h3, h4⟩ := List.mem_flatten.1 h1
    cases x with
    | var i' j' =>
      cases h2
      exact ⟨c, h3, h4⟩
    | t a => cases h2
  · rintro ⟨c, h1, h2⟩
    exact ⟨.var i j, List.mem_flatten.2 ⟨c, h1, h2⟩, rfl⟩

theorem mem_cowGroup {ts : List CowNode} {i : Nat} {t : CowNode} : t ∈ cowGroup ts i ↔ ∃ t₀ ∈ ts, ∃ j, ((i, j), t) ∈ t₀.successors := by
  have := mem_cowNodes_cons (ts := ts) (i := i) (p := []) (t := t)
  simp only [cowNodes_cons, cowNodes, List.mem_singleton] at this
  unfold cowGroup
  rw [this]
  constructor
  · rintro ⟨t₀, h1, j, _, h2, rfl⟩
    exact ⟨t₀, h1, j, h2⟩
  · rintro ⟨t₀, h1, j, h2⟩
    exact ⟨t₀, h1, j, _, h2, rfl⟩

theorem CowGroup.edge {rid : Nat} {r : PMCFGRule N T W} {ts : List CowNode} (h : CowGroup factorize rules rid r ts) {i : Nat} {t : CowNode} (ht : t ∈ cowGroup ts i) :
    ∃ j rid' Q, (i, j) ∈ varsOf r.composition ∧ t = cowOf rid' Q ∧ ∃ r' c u w, rules[rid']? = some r' ∧ r.tail[i]? = some r'.head ∧ r'.composition[j]? = some c ∧
      Fits factorize (indexed rules) r'.tail c Q u w := by
  obtain ⟨t₀, h1, j, h2⟩ := mem_cowGroup.1 ht
  obtain ⟨k, c, P, u, w, h3, h4, rfl⟩ := h.sound t₀ h1
  obtain ⟨rid', Q, h5, rfl⟩ := mem_cowSuccs.1 h2
  obtain ⟨h6, h7⟩ := (fits_tops h4).1 i j rid' Q h5
  exact ⟨j, rid', Q, mem_varsOf_comp.2 ⟨c, List.mem_of_getElem? h3, h6⟩, rfl, h7⟩

theorem CowGroup.child {rid : Nat} {r : PMCFGRule N T W} {ts : List CowNode} (h : CowGroup factorize rules rid r ts) {i j : Nat} (hv : (i, j) ∈ varsOf r.composition) :
    ∃ rid' Q, cowOf rid' Q ∈ cowGroup ts i ∧ ∃ r' c u w, rules[rid']? = some r' ∧ r.tail[i]? = some r'.head ∧ r'.composition[j]? = some c ∧
      Fits factorize (indexed rules) r'.tail c Q u w := by
  obtain ⟨c, h1, h2⟩ := mem_varsOf_comp.1 hv
  obtain ⟨P, u, w, h3, h4⟩ := h.complete c h1
  obtain ⟨rid', Q, h5⟩ := (fits_tops h3).2 i j h2
  exact ⟨rid', Q, mem_cowGroup.2 ⟨_, h4, j, mem_cowSuccs.2 ⟨rid', Q, h5, rfl⟩⟩, ((fits_tops h3).1 i j rid' Q h5).2⟩

theorem cowSafe_group {init : N} (hl : IsLcfrs rules init) (hne : ∀ r ∈ rules, r.composition ≠ []) (hcl : ∀ r ∈ rules, ∀ A ∈ r.tail, ∃ r' ∈ rules, r'.head = A) :
    ∀ (p : List Nat) (rid : Nat) (r : PMCFGRule N T W) (ts : List CowNode), CowGroup factorize rules rid r ts → (∀ q, q <+: p → CowAgree ts q) →
      (∀ t ∈ cowNodes ts p, t.content < rules.length) ∧ ∀ i i', i' < i → cowNodes ts (p ++ [i]) ≠ [] → cowNodes ts (p ++ [i']) ≠ []
  | [], rid, r, ts, hg, _ => by
    have hrm := List.mem_of_getElem? hg.rule
    refine ⟨fun t ht => ?_, fun i i' hi h => ?_⟩
    · obtain ⟨_, _, P, _, _, _, _, rfl⟩ := hg.sound t ht
      exact (List.getElem?_eq_some_iff.1 hg.rule).1
    · simp only [List.nil_append, cowNodes_cons, cowNodes] at h ⊢
      obtain ⟨t, ht⟩ := List.exists_mem_of_ne_nil _ h
      obtain ⟨j, _, _, h1, _⟩ := hg.edge ht
      obtain ⟨A, h2, _⟩ := (lcfrs_var hl hrm).1 h1
      have hlt : i' < r.tail.length := by
        have := (List.getElem?_eq_some_iff.1 h2).1
        omega
      obtain ⟨r', h3, h4⟩ := hcl r hrm _ (List.getElem_mem hlt)
      obtain ⟨_, _, h5, _⟩ := hg.child ((lcfrs_var hl hrm).2 ⟨_, List.getElem?_eq_getElem hlt, r', h3, h4, List.length_pos_iff.2 (hne r' h3)⟩)
      exact List.ne_nil_of_mem h5
  | i :: p, rid, r, ts, hg, ha => by
    simp only [cowNodes_cons, List.cons_append]
    by_cases he : cowGroup ts i = []
    · simp [he, cowNodes_nil]
    · have hrm := List.mem_of_getElem? hg.rule
      obtain ⟨t, ht⟩ := List.exists_mem_of_ne_nil _ he
      obtain ⟨_, rid', Q, _, rfl, r', _, _, _, h1, h2, _⟩ := hg.edge ht
      have hag : ∀ rid'' Q', cowOf rid'' Q' ∈ cowGroup ts i → rid'' = rid' := fun rid'' Q' h => ha [i] ⟨p, rfl⟩ _ h _ ht
      refine cowSafe_group hl hne hcl p rid' r' (cowGroup ts i) ⟨h1, fun t' ht' => ?_, fun c hc => ?_⟩ fun q hq => ha (i :: q) (List.cons_prefix_cons.2 ⟨rfl, hq⟩)
      · obtain ⟨j, rid'', Q', _, rfl, r'', c, u, w, g1, g2, g3, g4⟩ := hg.edge ht'
        have := hag _ _ ht'
        subst this
        rw [h1, Option.some.injEq] at g1
        subst g1
        exact ⟨j, c, Q', u, w, g3, g4, rfl⟩
      · obtain ⟨j, hj, hc⟩ := List.mem_iff_getElem.1 hc
        obtain ⟨rid'', Q', g0, r'', c', u, w, g1, g2, g3, g4⟩ := hg.child (i := i) (j := j) ((lcfrs_var hl hrm).2 ⟨_, h2, r', List.mem_of_getElem? h1, rfl, hj⟩)
        have := hag _ _ g0
        subst this
        rw [h1, Option.some.injEq] at g1
        subst g1
        rw [List.getElem?_eq_getElem hj, Option.some.injEq, hc] at g3
        subst g3
        exact ⟨Q', u, w, g4, g0⟩

/-- The cow derivations of the words of the context-free approximation have no gaps, as far as they are consistent. -/
theorem cowSafe_word {init : N} (hl : IsLcfrs rules init) (hne : ∀ r ∈ rules, r.composition ≠ []) (hcl : ∀ r ∈ rules, ∀ A ∈ r.tail, ∃ r' ∈ rules, r'.head = A)
    {rid : Nat} {P : Parts} {u : List T} {w : W} (h : CompDerives factorize (indexed rules) init 0 rid P u w) : CowSafe rules.length [cowOf rid P] := by
  obtain ⟨r, comp, f, w', h1, h2, h3, _, h5, _⟩ := h
  rw [mem_indexed] at h1
  have hl1 : r.composition.length = 1 := by
    obtain ⟨fan, g1, g2, _⟩ := hl
    have := (g1 r.head r.composition.length).2 ⟨r, List.mem_of_getElem? h1, rfl, rfl⟩
    rw [h2, g2, Option.some.injEq] at this
    exact this.symm
  intro p hp
  refine cowSafe_group (factorize := factorize) hl hne hcl p rid r _ ⟨h1, fun t ht => ?_, fun c hc => ?_⟩ hp
  · rw [List.mem_singleton] at ht
    exact ⟨0, comp, P, u, w', h3, h5, ht⟩
  · obtain ⟨c', hc'⟩ := List.length_eq_one_iff.1 hl1
    rw [hc'] at hc h3
    rw [List.mem_singleton] at hc
    cases h3
    subst hc
    exact ⟨P, u, w', h5, by simp⟩

end

theorem gorn_ext {V : Type _} : ∀ {m m' : GornTree V}, m.Sorted → m'.Sorted → (∀ p, m.get p = m'.get p) → m = m' := by
  have hlt : ∀ {x : List Nat × V} {m : GornTree V}, GornTree.Sorted (x :: m) → m.Sorted ∧ ∀ p v, m.get p = some v → x.1 < p := by
    intro x m h
    unfold GornTree.Sorted at h
    rw [List.map_cons, List.pairwise_cons] at h
    refine ⟨h.2, fun p v hv => h.1 p ?_⟩
    clear h
    induction m with
    | nil => cases hv
    | cons y m ih =>
      obtain ⟨k, u⟩ := y
      simp only [GornTree.get] at hv
      split at hv
      · rename_i e
        simp [e]
      · simp [ih hv]
  intro m
  induction m with
  | nil =>
    intro m' _ _ h
    cases m' with
    | nil => rfl
    | cons y m' =>
      have := h y.1
      simp [GornTree.get] at this
  | cons x m ih =>
    intro m' h1 h2 h
    cases m' with
    | nil =>
      have := h x.1
      simp [GornTree.get] at this
    | cons y m' =>
      obtain ⟨k, u⟩ := x
      obtain ⟨k', u'⟩ := y
      obtain ⟨s1, l1⟩ := hlt h1
      obtain ⟨s2, l2⟩ := hlt h2
      have hk : k = k' := by
        by_contra hne
        have e1 := h k
        have e2 := h k'
        simp only [GornTree.get, if_true, if_neg hne, if_neg (Ne.symm hne)] at e1 e2
        exact lt_asymm (l2 k u e1.symm) (l1 k' u' e2)
      subst hk
      have hu := h k
      simp only [GornTree.get, if_true, Option.some.injEq] at hu
      subst hu
      rw [ih s1 s2 fun p => ?_]
      have := h p
      simp only [GornTree.get] at this
      split at this
      · rename_i e
        subst e
        have a1 : GornTree.get m p = none := by
          cases hm : GornTree.get m p with
          | none => rfl
          | some v => exact absurd (l1 p v hm) (lt_irrefl _)
        have a2 : GornTree.get m' p = none := by
          cases hm : GornTree.get m' p with
          | none => rfl
          | some v => exact absurd (l2 p v hm) (lt_irrefl _)
        rw [a1, a2]
      · exact this

end Rustomata
