import Verif.Proofs.Pmcfg
import Verif.Proofs.Util

/-!
# Proofs about `Mcfg::from_pmcfg` and `Lcfrs::new`
-/

namespace Rustomata

theorem checkLinear_iff (vs seen : List (Nat × Nat)) :
    checkLinear vs seen = true ↔ vs.Nodup ∧ ∀ v ∈ vs, v ∉ seen := by
  induction vs generalizing seen with
  | nil => simp [checkLinear]
  | cons v vs ih =>
    simp only [checkLinear]
    split
    · simp_all
    · rename_i h
      rw [ih, List.nodup_cons]
      constructor
      · rintro ⟨h1, h2⟩
        exact ⟨⟨fun hv => absurd (h2 v hv) (by simp), h1⟩, by
          intro x hx
          rcases List.mem_cons.1 hx with rfl | hx
          · exact h
          · exact fun hs => h2 x hx (List.mem_cons_of_mem _ hs)⟩
      · rintro ⟨⟨h1, h2⟩, h3⟩
        refine ⟨h2, fun x hx hs => ?_⟩
        rcases List.mem_cons.1 hs with rfl | hs
        · exact h1 hx
        · exact h3 x (List.mem_cons_of_mem _ hx) hs

section
variable {N T W : Type _} [DecidableEq N]

theorem readFanoutsLoop_some {rules : List (PMCFGRule N T W)} {m m' : AMap N Nat} (h : readFanoutsLoop rules m = some m') :
    (∀ A f, m.get A = some f → m'.get A = some f) ∧ (∀ r ∈ rules, m'.get r.head = some r.composition.length) ∧
    ∀ A f, m'.get A = some f → m.get A = some f ∨ ∃ r ∈ rules, r.head = A ∧ r.composition.length = f := by
  induction rules generalizing m with
  | nil => simp [readFanoutsLoop] at h; subst h; simp
  | cons r rs ih =>
    simp only [readFanoutsLoop] at h
    cases hm : m.get r.head with
    | none =>
      rw [hm] at h
      obtain ⟨h1, h2, h3⟩ := ih h
      refine ⟨fun A f hA => h1 A f ?_, fun r' hr' => ?_, fun A f hA => ?_⟩
      · rw [AMap.get_set, if_neg, hA]
        rintro rfl; simp [hm] at hA
      · rcases List.mem_cons.1 hr' with rfl | hr'
        · exact h1 _ _ (AMap.get_set_self _ _ _)
        · exact h2 r' hr'
      · rcases h3 A f hA with h | ⟨r', hr', h⟩
        · rw [AMap.get_set] at h
          split at h
          · right; rename_i he; exact ⟨r, by simp, he, by simpa using h⟩
          · exact Or.inl h
        · exact Or.inr ⟨r', by simp [hr'], h⟩
    | some f =>
      rw [hm] at h
      simp only at h
      split at h
      · cases h
      · rename_i hf
        simp only [ne_eq, not_not] at hf
        obtain ⟨h1, h2, h3⟩ := ih h
        refine ⟨h1, fun r' hr' => ?_, fun A f hA => ?_⟩
        · rcases List.mem_cons.1 hr' with rfl | hr'
          · exact h1 _ _ (by rw [hm, hf])
          · exact h2 r' hr'
        · rcases h3 A f hA with h | ⟨r', hr', h⟩
          · exact Or.inl h
          · exact Or.inr ⟨r', by simp [hr'], h⟩

theorem readFanoutsLoop_isSome {rules : List (PMCFGRule N T W)} {m : AMap N Nat} (F : N → Option Nat)
    (h1 : ∀ A f, m.get A = some f → F A = some f) (h2 : ∀ r ∈ rules, F r.head = some r.composition.length) :
    (readFanoutsLoop rules m).isSome := by
  induction rules generalizing m with
  | nil => simp [readFanoutsLoop]
  | cons r rs ih =>
    have hr := h2 r (by simp)
    simp only [readFanoutsLoop]
    cases hm : m.get r.head with
    | none =>
      refine ih (fun A f hA => ?_) fun r' hr' => h2 r' (by simp [hr'])
      rw [AMap.get_set] at hA
      split at hA
      · rename_i he; rw [← he, hr, ← hA]
      · exact h1 A f hA
    | some f =>
      have := h1 _ _ hm
      rw [hr] at this
      simp only [Option.some_inj] at this
      simp only [this, ne_eq, not_true_eq_false, if_false]
      exact ih h1 fun r' hr' => h2 r' (by simp [hr'])

/-- The fanout of each nonterminal that has a rule. -/
theorem readFanouts_some {rules : List (PMCFGRule N T W)} {m : AMap N Nat} (h : readFanouts rules = some m) (A : N) (f : Nat) :
    m.get A = some f ↔ ∃ r ∈ rules, r.head = A ∧ r.composition.length = f := by
  obtain ⟨_, h2, h3⟩ := readFanoutsLoop_some h
  constructor
  · intro hA
    rcases h3 A f hA with h | h
    · simp [AMap.get] at h
    · exact h
  · rintro ⟨r, hr, rfl, rfl⟩; exact h2 r hr

theorem readFanouts_eq_none {rules : List (PMCFGRule N T W)} :
    readFanouts rules = none ↔ ∃ r ∈ rules, ∃ r' ∈ rules, r.head = r'.head ∧ r.composition.length ≠ r'.composition.length := by
  constructor
  · intro h
    by_contra hne
    have := readFanoutsLoop_isSome (rules := rules) (m := [])
      (fun A => (rules.find? fun r => r.head = A).map fun r => r.composition.length) (by simp [AMap.get]) (by
        intro r hr
        cases hf : rules.find? fun r' => r'.head = r.head with
        | none => have := List.find?_eq_none.1 hf r hr; simp at this
        | some r' =>
          have h1 := List.mem_of_find?_eq_some hf
          have h2 := List.find?_some hf
          simp only [decide_eq_true_eq] at h2
          simp only [Option.map_some, Option.some_inj]
          by_contra h3
          exact hne ⟨r', h1, r, hr, h2, h3⟩)
    unfold readFanouts at h
    rw [h] at this; cases this
  · rintro ⟨r, hr, r', hr', he, hne⟩
    cases h : readFanouts rules with
    | none => rfl
    | some m =>
      have h1 := (readFanouts_some h r.head _).2 ⟨r, hr, rfl, rfl⟩
      have h2 := (readFanouts_some h r.head _).2 ⟨r', hr', he.symm, rfl⟩
      rw [h1] at h2
      exact absurd (by simpa using h2) hne

end

/-- The multimap filled in `check_composition`. -/
def occ (vs : List (Nat × Nat)) (m : VecMultiMap Nat) : VecMultiMap Nat :=
  vs.foldl (fun m v => m.getMut v.1 (· ++ [v.2])) m

theorem padTo_length_eq (m : VecMultiMap Nat) (i : Nat) : (m.padTo i).length = max m.length (i + 1) := by
  unfold VecMultiMap.padTo; split
  · rw [VecMultiMap.resize_length]; omega
  · omega

theorem occ_length (vs : List (Nat × Nat)) (m : VecMultiMap Nat) :
    m.length ≤ (occ vs m).length ∧ (∀ v ∈ vs, v.1 < (occ vs m).length) ∧
    ∀ n, m.length ≤ n → (∀ v ∈ vs, v.1 < n) → (occ vs m).length ≤ n := by
  induction vs generalizing m with
  | nil => simp [occ]
  | cons v vs ih =>
    obtain ⟨h1, h2, h3⟩ := ih (m.getMut v.1 (· ++ [v.2]))
    have hl : (m.getMut v.1 (· ++ [v.2])).length = max m.length (v.1 + 1) := by
      simp [VecMultiMap.getMut, padTo_length_eq]
    rw [hl] at h1 h3
    have e : occ (v :: vs) m = occ vs (m.getMut v.1 (· ++ [v.2])) := rfl
    rw [e]
    refine ⟨by omega, ?_, fun n hn hv => h3 n ?_ fun x hx => hv x (by simp [hx])⟩
    · intro x hx
      rcases List.mem_cons.1 hx with rfl | hx
      · omega
      · exact h2 x hx
    · have := hv v (by simp); omega

theorem occ_abs (vs : List (Nat × Nat)) (m : VecMultiMap Nat) (i : Nat) :
    VecMultiMap.abs (occ vs m) i = VecMultiMap.abs m i ++ (vs.filter fun v => v.1 = i).map Prod.snd := by
  induction vs generalizing m with
  | nil => simp [occ]
  | cons v vs ih =>
    have e : occ (v :: vs) m = occ vs (m.getMut v.1 (· ++ [v.2])) := rfl
    rw [e, ih]
    unfold VecMultiMap.getMut
    rw [VecMultiMap.abs_modify]
    by_cases h : v.1 = i
    · subst h; simp
    · rw [Function.update_of_ne (Ne.symm h)]; simp [h]

theorem sort_eq_range (l : List Nat) (n : Nat) :
    l.insertionSort (· ≤ ·) = List.range n ↔ l.Nodup ∧ ∀ j, j ∈ l ↔ j < n := by
  have hp : (l.insertionSort (· ≤ ·)).Perm l := List.perm_insertionSort _ l
  constructor
  · intro h
    rw [h] at hp
    exact ⟨hp.nodup_iff.1 List.nodup_range, fun j => by rw [← hp.mem_iff]; exact List.mem_range⟩
  · rintro ⟨h1, h2⟩
    have h3 : (l.insertionSort (· ≤ ·)).Perm (List.range n) := by
      refine hp.trans ?_
      rw [List.perm_ext_iff_of_nodup h1 List.nodup_range]
      intro j; rw [h2]; exact List.mem_range.symm
    refine List.Perm.eq_of_pairwise (le := (· ≤ ·)) ?_ (List.pairwise_insertionSort _ l) List.pairwise_le_range h3
    intro a b _ _ h1 h2; omega

theorem nodup_of_filter {vs : List (Nat × Nat)} (h : ∀ i, ((vs.filter fun v => v.1 = i).map Prod.snd).Nodup) : vs.Nodup := by
  induction vs with
  | nil => simp
  | cons v vs ih =>
    rw [List.nodup_cons]
    constructor
    · intro hv
      have := h v.1
      simp only [List.filter_cons, decide_true, if_true, List.map_cons, List.nodup_cons] at this
      exact this.1 (List.mem_map.2 ⟨v, by simp [hv], rfl⟩)
    · refine ih fun i => ?_
      have := h i
      rw [List.filter_cons] at this
      split at this
      · exact (List.nodup_cons.1 this).2
      · exact this

theorem checkComposition_iff {T : Type _} (c : Composition T) (fs : List Nat) :
    checkComposition c fs = true ↔ (Spec.varsOf c).Nodup ∧
      (∀ i j, (i, j) ∈ Spec.varsOf c ↔ ∃ f, fs[i]? = some f ∧ j < f) ∧ fs.getLast? ≠ some 0 := by
  unfold checkComposition
  rw [vars_eq]
  generalize Spec.varsOf c = vs
  simp only [Bool.and_eq_true, beq_iff_eq, List.all_eq_true]
  change (occ vs []).length = _ ∧ (∀ x ∈ (occ vs []).zipIdx, _) ↔ _
  have hocc : ∀ i, i < (occ vs []).length → (occ vs [])[i]? = some ((vs.filter fun v => v.1 = i).map Prod.snd) := by
    intro i hi
    have := occ_abs vs [] i
    simp only [VecMultiMap.abs, List.getElem?_eq_getElem hi] at this
    rw [List.getElem?_eq_getElem hi]
    simpa using this
  have hall : (∀ x ∈ (occ vs []).zipIdx, x.1.insertionSort (· ≤ ·) = List.range (fs.getD x.2 0)) ↔
      ∀ i < (occ vs []).length, ((vs.filter fun v => v.1 = i).map Prod.snd).Nodup ∧
        ∀ j, (i, j) ∈ vs ↔ j < fs.getD i 0 := by
    constructor
    · intro h i hi
      have h1 := h (_, i) (List.mk_mem_zipIdx_iff_getElem?.2 (hocc i hi))
      rw [sort_eq_range] at h1
      refine ⟨h1.1, fun j => ?_⟩
      rw [← h1.2 j]; simp
    · rintro h ⟨l, i⟩ hx
      have hx := List.mk_mem_zipIdx_iff_getElem?.1 hx
      have hi : i < (occ vs []).length := (List.getElem?_eq_some_iff.1 hx).1
      rw [hocc i hi] at hx
      simp only [Option.some_inj] at hx
      subst hx
      simp only
      rw [sort_eq_range]
      refine ⟨(h i hi).1, fun j => ?_⟩
      rw [← (h i hi).2 j]; simp
  rw [hall]
  obtain ⟨_, hlt, hle⟩ := occ_length vs []
  have hget : ∀ i j, (∃ f, fs[i]? = some f ∧ j < f) ↔ j < fs.getD i 0 := by
    intro i j
    rw [List.getD_eq_getElem?_getD]
    cases fs[i]? <;> simp
  constructor
  · rintro ⟨h1, h2⟩
    have hvs : ∀ i j, (i, j) ∈ vs ↔ j < fs.getD i 0 := by
      intro i j
      by_cases hi : i < (occ vs []).length
      · exact (h2 i hi).2 j
      · constructor
        · intro h; exact absurd (hlt _ h) hi
        · intro h; rw [List.getD_eq_getElem?_getD, List.getElem?_eq_none (by omega)] at h; simp at h
    refine ⟨nodup_of_filter fun i => ?_, fun i j => by rw [hget]; exact hvs i j, ?_⟩
    · by_cases hi : i < (occ vs []).length
      · exact (h2 i hi).1
      · have : (vs.filter fun v => v.1 = i) = [] := by
          rw [List.filter_eq_nil_iff]
          intro v hv hvi
          simp only [decide_eq_true_eq] at hvi
          exact hi (hvi ▸ hlt v hv)
        simp [this]
    · intro hlast
      rw [List.getLast?_eq_getElem?] at hlast
      have hpos : 0 < fs.length := by
        by_contra h0
        have : fs = [] := List.length_eq_zero_iff.1 (by omega)
        simp [this] at hlast
      have := hle (fs.length - 1) (by simp) (by
        rintro ⟨i, j⟩ hv
        have h3 := (hvs i j).1 hv
        have h4 := hlt _ hv
        simp only at h4 ⊢
        by_contra h5
        have : i = fs.length - 1 := by omega
        subst this
        rw [List.getD_eq_getElem?_getD, hlast] at h3
        simp at h3)
      omega
  · rintro ⟨h1, h2, h3⟩
    simp only [hget] at h2
    refine ⟨?_, fun i hi => ⟨?_, h2 i⟩⟩
    · apply le_antisymm
      · refine hle _ (by simp) ?_
        rintro ⟨i, j⟩ hv
        have h4 := (h2 i j).1 hv
        by_contra h5
        rw [List.getD_eq_getElem?_getD, List.getElem?_eq_none (by simpa using h5)] at h4
        simp at h4
      · by_contra hlt'
        have hpos : 0 < fs.length := by omega
        have : (fs.length - 1, 0) ∈ vs := by
          rw [h2, List.getD_eq_getElem?_getD]
          rw [List.getLast?_eq_getElem?] at h3
          cases hf : fs[fs.length - 1]? with
          | none => rw [List.getElem?_eq_none_iff] at hf; omega
          | some f =>
            simp only [Option.getD_some]
            rcases Nat.eq_zero_or_pos f with rfl | h
            · exact absurd hf h3
            · exact h
        have := hlt _ this
        simp only at this
        omega
    · refine (List.Nodup.filter _ h1).map_on ?_
      rintro ⟨a, b⟩ h4 ⟨a', b'⟩ h5 h6
      simp at h4 h5 h6
      simp [h4.2, h5.2, h6]

theorem allPanicking_true {A : Type _} {p : A → Option Bool} {l : List A} :
    allPanicking p l = some true ↔ ∀ x ∈ l, p x = some true := by
  induction l with
  | nil => simp [allPanicking]
  | cons x l ih =>
    simp only [allPanicking, List.mem_cons, forall_eq_or_imp]
    cases hx : p x with
    | none => simp
    | some b => cases b <;> simp [ih]

theorem allPanicking_none {A : Type _} {p : A → Option Bool} {l : List A} :
    allPanicking p l = none ↔ ∃ l₁ x l₂, l = l₁ ++ x :: l₂ ∧ p x = none ∧ ∀ y ∈ l₁, p y = some true := by
  induction l with
  | nil => simp [allPanicking]
  | cons x l ih =>
    simp only [allPanicking]
    constructor
    · intro h
      cases hx : p x with
      | none => exact ⟨[], x, l, rfl, hx, by simp⟩
      | some b =>
        rw [hx] at h
        cases b with
        | false => simp at h
        | true =>
          obtain ⟨l₁, y, l₂, rfl, h1, h2⟩ := ih.1 h
          exact ⟨x :: l₁, y, l₂, rfl, h1, by simpa [hx] using h2⟩
    · rintro ⟨l₁, y, l₂, he, h1, h2⟩
      cases l₁ with
      | nil => simp at he; obtain ⟨rfl, rfl⟩ := he; simp [h1]
      | cons z l₁ =>
        simp at he; obtain ⟨rfl, rfl⟩ := he
        simp only [h2 x (by simp)]
        exact ih.2 ⟨l₁, y, l₂, rfl, h1, fun y hy => h2 y (by simp [hy])⟩

end Rustomata
