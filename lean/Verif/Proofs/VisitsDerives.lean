import Verif.Proofs.VisitsRuns

/-!
# Lemmas: visits and derivations
-/

namespace Rustomata
open Spec
variable {N T W : Type _}

theorem segWord_congr {args args' : Nat → List (List T)} {l l' : List (List T × Nat × Nat)}
    (h : List.Forall₂ (fun x y => x.1 = y.1 ∧ (args x.2.1)[x.2.2]? = (args' y.2.1)[y.2.2]?) l l') : segWord args l = segWord args' l' := by
  induction h with
  | nil => rfl
  | cons hx _ ih =>
    rename_i x y l l' _
    obtain ⟨b, i, j⟩ := x
    obtain ⟨b', i', j'⟩ := y
    simp only at hx
    obtain ⟨rfl, hx⟩ := hx
    simp only [segWord]
    rw [hx, ih]

theorem forall₂_get {α β : Type _} {R : α → β → Prop} {l : List α} {l' : List β} (h : List.Forall₂ R l l') {a : Nat} {x : α} (hx : l[a]? = some x) :
    ∃ y, l'[a]? = some y ∧ R x y := by
  induction h generalizing a with
  | nil => simp at hx
  | cons hr _ ih =>
    cases a with
    | zero => simp only [List.getElem?_cons_zero, Option.some.injEq] at hx; subst hx; exact ⟨_, rfl, hr⟩
    | succ a => simp only [List.getElem?_cons_succ] at hx ⊢; exact ih hx

theorem mapM_total {α β : Type _} {f : α → Option β} {l : List α} (h : ∀ x ∈ l, ∃ y, f x = some y) : ∃ r, l.mapM f = some r := by
  induction l with
  | nil => exact ⟨[], rfl⟩
  | cons x l ih =>
    obtain ⟨y, hy⟩ := h x (by simp)
    obtain ⟨r, hr⟩ := ih fun x hx => h x (by simp [hx])
    exact ⟨y :: r, by rw [List.mapM_cons, hy, hr]; rfl⟩

theorem mem_varsOf_iff {cs : Composition T} {x : Nat × Nat} : x ∈ varsOf cs ↔ ∃ c ∈ cs, x ∈ varsOf [c] := by
  rw [← allSegs_vars, List.mem_flatMap]
  simp only [segs_vars]

theorem mem_visitsOf {cs : Composition T} {i j : Nat} : j ∈ visitsOf cs i ↔ (i, j) ∈ varsOf cs := by
  unfold visitsOf
  simp only [List.mem_map, List.mem_filter, decide_eq_true_eq]
  constructor
  · rintro ⟨⟨a, b⟩, ⟨h1, h2⟩, rfl⟩
    simp only at h2
    subst h2
    exact h1
  · intro h
    exact ⟨(i, j), ⟨h, rfl⟩, rfl⟩

/-- The word of a visited component. -/
theorem visit_word {vc : Composition T} {args vf : Nat → List (List T)} {ws : List (List T)}
    (hws : compose (fun i => some (args i)) (visitNumbers (fun _ => 0) vc) = some ws) {a : Nat} {c : List (VarT T)} (hc : vc[a]? = some c)
    (hv : ∀ (i n j : Nat), (visitsOf vc i)[n]? = some j → (args i)[n]? = (vf i)[j]?) : substAll (fun i => some (vf i)) c = ws[a]? := by
  obtain ⟨c', e1, e2, e3, e4⟩ := visitNumbers_seg hc
  have h1 := mapM_getElem? hws a
  rw [e1, Option.bind_some] at h1
  rw [h1]
  have h2 := substAll_segs args c' []
  have h3 := substAll_segs vf c []
  simp only [List.nil_append, Option.map_id_fun', id_eq] at h2 h3
  rw [h2, h3, e3]
  congr 1
  refine (segWord_congr ?_).symm
  rw [List.forall₂_iff_get]
  refine ⟨e2, fun k g1 g2 => ?_⟩
  have h4 : (segs c [])[k]? = some ((segs c [])[k]'g2) := List.getElem?_eq_getElem g2
  have h5 : (segs c' [])[k]? = some ((segs c' [])[k]'g1) := List.getElem?_eq_getElem g1
  simp only [List.get_eq_getElem]
  generalize (segs c [])[k]'g2 = x at h4
  generalize (segs c' [])[k]'g1 = x' at h5
  obtain ⟨b, i, j⟩ := x
  rw [e4 _ _ _ _ h4, Option.some_inj] at h5
  subst h5
  refine ⟨rfl, ?_⟩
  simp only
  refine hv _ _ _ ?_
  obtain ⟨l, hl⟩ := visitsOf_split hc h4
  rw [hl, List.getElem?_append_right (by rw [visBefore_length]), visBefore_length, Nat.sub_self]
  rfl

section
variable [CommMonoid W]

/-- Visits of all components of a grammar that does not delete are derivations. -/
theorem Spec.Visited.derives {cut : Composition T → Composition T} {rules : List (PMCFGRule N T W)} (hnd : NonDeleting (rules.map (cutRule cut)))
    (hex : ∀ r ∈ rules, ∀ A ∈ r.tail, ∃ r' ∈ rules, r'.head = A) (hne : ∀ r ∈ rules, cut r.composition ≠ [])
    {A : N} {s : List Nat} {labels : List Nat → Option (PMCFGRule N T W)} {ws : List (List T)} {u : W} (h : Visited cut rules A s labels ws u) :
    (∀ r ∈ rules, r.head = A → ∀ j < (cut r.composition).length, j ∈ s) → ∃ (d : DTree (PMCFGRule N T W)) (v : List (List T)), Derives (rules.map (cutRule cut)) A d v ∧ d.weight = u ∧
      (∀ (a j : Nat), s[a]? = some j → ws[a]? = v[j]?) ∧ ∀ p, d.at? p = (labels p).map (cutRule cut) := by
  induction h with
  | @node r s vc A labels args us ws hr hhist horder htail hkids hws ih =>
    intro hall
    have hr' : cutRule cut r ∈ rules.map (cutRule cut) := List.mem_map.2 ⟨r, hr, rfl⟩
    -- all variables are visited
    have hvars : ∀ i j, (i, j) ∈ varsOf (cut r.composition) → j ∈ visitsOf vc i := by
      intro i j hij
      obtain ⟨c, hc, hij⟩ := mem_varsOf_iff.1 hij
      obtain ⟨m, hm⟩ := List.getElem?_of_mem hc
      obtain ⟨a, ha⟩ := List.getElem?_of_mem (hall r hr rfl m (List.getElem?_eq_some_iff.1 hm).1)
      obtain ⟨c', h1, h2⟩ := forall₂_get hhist ha
      rw [hm, Option.some_inj] at h2
      subst h2
      exact mem_visitsOf.2 (mem_varsOf_iff.2 ⟨c, List.mem_of_getElem? h1, hij⟩)
    have htot : ∀ i B, r.tail[i]? = some B → visitsOf vc i ≠ [] ∧ ∀ r' ∈ rules, r'.head = B → ∀ j < (cut r'.composition).length, j ∈ visitsOf vc i := by
      intro i B hB
      have hj : ∀ r' ∈ rules, r'.head = B → ∀ j < (cut r'.composition).length, j ∈ visitsOf vc i := by
        intro r' hr' hh j hj
        exact hvars i j (hnd _ (List.mem_map.2 ⟨r, hr, rfl⟩) i B hB (cutRule cut r') (List.mem_map.2 ⟨r', hr', rfl⟩) hh j hj)
      refine ⟨?_, hj⟩
      obtain ⟨r', hr', hh⟩ := hex r hr B (List.mem_of_getElem? hB)
      exact List.ne_nil_of_mem (hj r' hr' hh 0 (List.length_pos_iff.2 (hne r' hr')))
    have hexd : ∀ i, ∃ (y : DTree (PMCFGRule N T W) × List (List T)), visitsOf vc i ≠ [] → Derives (rules.map (cutRule cut)) (A i) y.1 y.2 ∧ y.1.weight = us i ∧
        (∀ (a j : Nat), (visitsOf vc i)[a]? = some j → (args i)[a]? = y.2[j]?) ∧ ∀ p, y.1.at? p = (labels i p).map (cutRule cut) := by
      intro i
      by_cases hv : visitsOf vc i = []
      · exact ⟨(.node r [], []), fun h => absurd hv h⟩
      · obtain ⟨d, v, h⟩ := ih i hv (htot i _ (htail i hv)).2
        exact ⟨(d, v), fun _ => h⟩
    choose y hy using hexd
    have hword : ∀ (a j : Nat) c, s[a]? = some j → (cut r.composition)[j]? = some c → substAll (fun i => some (y i).2) c = ws[a]? := by
      intro a j c ha hc
      obtain ⟨c', h1, h2⟩ := forall₂_get hhist ha
      rw [hc, Option.some_inj] at h2
      subst h2
      refine visit_word hws h1 fun i n j hn => ?_
      have hv : visitsOf vc i ≠ [] := by intro e; rw [e] at hn; simp at hn
      exact (hy i hv).2.2.1 n j hn
    have hwlen : ws.length = s.length := by rw [compose_length hws, visitNumbers_length, hhist.length_eq]
    obtain ⟨v, hv⟩ : ∃ v, compose (fun i => some (y i).2) (cut r.composition) = some v := by
      refine mapM_total fun c hc => ?_
      obtain ⟨m, hm⟩ := List.getElem?_of_mem hc
      obtain ⟨a, ha⟩ := List.getElem?_of_mem (hall r hr rfl m (List.getElem?_eq_some_iff.1 hm).1)
      rw [hword a m c ha hm]
      have : a < ws.length := by rw [hwlen]; exact (List.getElem?_eq_some_iff.1 ha).1
      exact ⟨_, List.getElem?_eq_getElem this⟩
    have hlt : ∀ i j, (i, j) ∈ varsOf (cut r.composition) → i < r.tail.length := by
      intro i j hij
      exact (List.getElem?_eq_some_iff.1 (htail i (List.ne_nil_of_mem (hvars i j hij)))).1
    have hdi : ∀ i B, r.tail[i]? = some B → Derives (rules.map (cutRule cut)) B (y i).1 (y i).2 := by
      intro i B hB
      have h1 := (htot i B hB).1
      have h2 := htail i h1
      rw [hB, Option.some_inj] at h2
      rw [h2]
      exact (hy i h1).1
    refine ⟨.node (cutRule cut r) ((List.range r.tail.length).map fun i => (y i).1), v, ?_, ?_, ?_, ?_⟩
    · refine Derives.node (r := cutRule cut r) (args := (List.range r.tail.length).map fun i => (y i).2) hr' ?_ ?_
      · rw [derivesAll_iff]
        refine ⟨by simp [cutRule], by simp [cutRule], fun i B d v' hB hd hv' => ?_⟩
        obtain ⟨_, rfl⟩ := map_range_get.1 hd
        obtain ⟨_, rfl⟩ := map_range_get.1 hv'
        exact hdi i B hB
      · refine compose_mono (fun i j hij x hx => ?_) hv
        rw [map_range_get]
        exact ⟨hlt i j hij, by simpa using hx⟩
    · rw [DTree.weight, weights_eq, List.map_map]
      show r.weight * _ = _
      congr 2
      refine List.map_congr_left fun i hi => ?_
      have hi' : i < r.tail.length := List.mem_range.1 hi
      have h1 := (htot i _ (List.getElem?_eq_getElem hi')).1
      rw [if_neg h1]
      exact (hy i h1).2.1
    · intro a j ha
      obtain ⟨c, _, hc⟩ := forall₂_get hhist ha
      have := mapM_getElem? hv j
      rw [hc, Option.bind_some] at this
      rw [this, hword a j c ha hc]
    · intro p
      cases p with
      | nil => rfl
      | cons i p =>
        rw [DTree.at?, visitLabels]
        by_cases hi : i < r.tail.length
        · have h1 := (htot i _ (List.getElem?_eq_getElem hi)).1
          rw [map_range_get.2 ⟨hi, rfl⟩, if_neg h1]
          exact (hy i h1).2.2.2 p
        · have h1 : visitsOf vc i = [] := by
            by_contra h
            exact hi (List.getElem?_eq_some_iff.1 (htail i h)).1
          rw [if_pos h1, List.getElem?_eq_none (by simp; omega)]
          rfl

/-- Nothing changes if the variables are already numbered by their visits. -/
theorem visitNumbersIn_self (n : Nat → Nat) (c : List (VarT T)) (h : ∀ i, ∃ m, visitsOf [c] i = List.range' (n i) m) : visitNumbersIn n c = c := by
  induction c generalizing n with
  | nil => rfl
  | cons x c ih =>
    cases x with
    | t a =>
      simp only [visitNumbersIn]
      rw [ih n]
      intro i
      obtain ⟨m, hm⟩ := h i
      exact ⟨m, by rw [← hm]; simp [visitsOf, varsOf]⟩
    | var i j =>
      have hv : ∀ i', visitsOf [VarT.var i j :: c] i' = (if i' = i then [j] else []) ++ visitsOf [c] i' := by
        intro i'
        unfold visitsOf
        by_cases hi : i' = i
        · subst hi; simp [varsOf]
        · rw [if_neg hi]; simp [varsOf, Ne.symm hi]
      have hj : j = n i := by
        obtain ⟨m, hm⟩ := h i
        rw [hv, if_pos rfl] at hm
        cases m with
        | zero => simp at hm
        | succ m => rw [List.range'_succ] at hm; simp at hm; exact hm.1
      subst hj
      simp only [visitNumbersIn]
      rw [ih]
      intro i'
      obtain ⟨m, hm⟩ := h i'
      rw [hv] at hm
      by_cases hi : i' = i
      · subst hi
        rw [if_pos rfl] at hm
        cases m with
        | zero => simp at hm
        | succ m => rw [List.range'_succ] at hm; simp at hm; exact ⟨m, by simp [hm]⟩
      · rw [if_neg hi] at hm
        exact ⟨m, by simpa [hi] using hm⟩

theorem visitNumbers_self (n : Nat → Nat) (cs : Composition T) (h : ∀ i, ∃ m, visitsOf cs i = List.range' (n i) m) : visitNumbers n cs = cs := by
  induction cs generalizing n with
  | nil => rfl
  | cons c cs ih =>
    have hv : ∀ i, visitsOf (c :: cs) i = visitsOf [c] i ++ visitsOf cs i := by
      intro i
      unfold visitsOf
      rw [varsOf_head, List.filter_append, List.map_append]
    have hs : ∀ i, ∃ m, visitsOf [c] i = List.range' (n i) (visitsOf [c] i).length ∧ visitsOf cs i = List.range' (n i + (visitsOf [c] i).length) m := by
      intro i
      obtain ⟨m, hm⟩ := h i
      rw [hv] at hm
      have hl := congrArg List.length hm
      rw [List.length_append, List.length_range'] at hl
      have h1 : List.range' (n i) m = List.range' (n i) (visitsOf [c] i).length ++ List.range' (n i + (visitsOf [c] i).length) (visitsOf cs i).length := by
        rw [← hl, List.range'_append_1]
      rw [h1] at hm
      obtain ⟨h2, h3⟩ := List.append_inj hm (by simp)
      exact ⟨_, h2, h3⟩
    simp only [visitNumbers]
    rw [visitNumbersIn_self n c fun i => ?_, ih _ fun i => ?_]
    · obtain ⟨m, _, h2⟩ := hs i
      exact ⟨m, h2⟩
    · obtain ⟨m, h1, _⟩ := hs i
      exact ⟨_, h1⟩

/-- Derivations of ordered grammars are visits of the components in order. -/
theorem Spec.Derives.visited {cut : Composition T → Composition T} {rules : List (PMCFGRule N T W)} (ho : Ordered (rules.map (cutRule cut)))
    (hwf : WellFormed (rules.map (cutRule cut))) (hne : ∀ r ∈ rules, cut r.composition ≠ []) {A : N} {d : DTree (PMCFGRule N T W)} {v : List (List T)}
    (h : Derives (rules.map (cutRule cut)) A d v) : ∃ labels, Visited cut rules A (List.range v.length) labels v d.weight ∧
      ∀ p, d.at? p = (labels p).map (cutRule cut) := by
  refine derives_induct (P := fun A d v => ∃ labels, Visited cut rules A (List.range v.length) labels v d.weight ∧
      ∀ p, d.at? p = (labels p).map (cutRule cut)) ?_ h
  clear h
  intro r' ds args v hr' hl1 hl2 hch hv
  obtain ⟨r, hr, rfl⟩ := List.mem_map.1 hr'
  simp only [cutRule] at hl1 hl2 hch hv ⊢
  have hlen := compose_length hv
  -- the children
  have hvis : ∀ (i : Nat) B d a, r.tail[i]? = some B → ds[i]? = some d → args[i]? = some a → visitsOf (cut r.composition) i = List.range a.length ∧ a ≠ [] := by
    intro i B d a hB hd ha
    obtain ⟨hder, _⟩ := hch i B d a hB hd ha
    cases hder with
    | @node ri dsi argsi _ hri _ hvi =>
      have h1 := compose_length hvi
      refine ⟨by rw [h1]; exact ho _ hr' i _ hB ri hri rfl, ?_⟩
      obtain ⟨r₁, hr₁, rfl⟩ := List.mem_map.1 hri
      intro e
      rw [e] at h1
      exact hne r₁ hr₁ (List.length_eq_zero_iff.1 h1.symm)
  have hout : ∀ i, visitsOf (cut r.composition) i ≠ [] → i < r.tail.length := by
    intro i hi
    obtain ⟨j, hj⟩ := List.exists_mem_of_ne_nil _ hi
    obtain ⟨B, hB, _⟩ := hwf _ hr' i j (mem_visitsOf.1 hj)
    exact (List.getElem?_eq_some_iff.1 hB).1
  have hex : ∀ i : Nat, ∃ labels : List Nat → Option (PMCFGRule N T W), ∀ (B : N) (d : DTree (PMCFGRule N T W)) (a : List (List T)), r.tail[i]? = some B → ds[i]? = some d → args[i]? = some a →
      Visited cut rules B (List.range a.length) labels a d.weight ∧ ∀ p, d.at? p = (labels p).map (cutRule cut) := by
    intro i
    by_cases hi : i < r.tail.length
    · have hdi : ds[i]? = some (ds[i]'(by omega)) := List.getElem?_eq_getElem _
      have hai : args[i]? = some (args[i]'(by omega)) := List.getElem?_eq_getElem _
      obtain ⟨_, labels, hl⟩ := hch i _ _ _ (List.getElem?_eq_getElem hi) hdi hai
      refine ⟨labels, fun B d a hB hd ha => ?_⟩
      rw [List.getElem?_eq_getElem hi, Option.some_inj] at hB
      rw [hdi, Option.some_inj] at hd
      rw [hai, Option.some_inj] at ha
      subst hB hd ha
      exact hl
    · refine ⟨fun _ => none, fun B d a hB => ?_⟩
      rw [List.getElem?_eq_none (by omega)] at hB
      cases hB
  choose labels hlab using hex
  have hnum : visitNumbers (fun _ => 0) (cut r.composition) = cut r.composition := by
    refine visitNumbers_self _ _ fun i => ?_
    by_cases hi : i < r.tail.length
    · have hdi : ds[i]? = some (ds[i]'(by omega)) := List.getElem?_eq_getElem _
      have hai : args[i]? = some (args[i]'(by omega)) := List.getElem?_eq_getElem _
      exact ⟨_, by rw [(hvis i _ _ _ (List.getElem?_eq_getElem hi) hdi hai).1, List.range_eq_range']⟩
    · refine ⟨0, ?_⟩
      by_contra h
      exact hi (hout i (by simpa using h))
  set argsf : Nat → List (List T) := fun i => (args[i]?).getD [] with hargsf
  set us : Nat → W := fun i => ((ds[i]?).map DTree.weight).getD 1 with hus
  have hkid : ∀ i (hi : i < r.tail.length), Visited cut rules r.tail[i] (visitsOf (cut r.composition) i) (labels i) (argsf i) (us i) := by
    intro i hi
    have hdi : ds[i]? = some (ds[i]'(by omega)) := List.getElem?_eq_getElem _
    have hai : args[i]? = some (args[i]'(by omega)) := List.getElem?_eq_getElem _
    have hB := List.getElem?_eq_getElem hi
    have h1 := (hlab i _ _ _ hB hdi hai).1
    rw [(hvis i _ _ _ hB hdi hai).1]
    simp only [hargsf, hus, hdi, hai, Option.map_some, Option.getD_some]
    exact h1
  have hex : ∃ A : Nat → N, ∀ i, i < r.tail.length → r.tail[i]? = some (A i) := by
    refine ⟨fun i => (r.tail[i]?).getD r.head, fun i hi => ?_⟩
    simp [List.getElem?_eq_getElem hi]
  obtain ⟨A, hA⟩ := hex
  refine ⟨visitLabels r (cut r.composition) labels, ?_, ?_⟩
  · have := Visited.node (cut := cut) (rules := rules) (r := r) (s := List.range v.length) (vc := cut r.composition) (A := A)
      (labels := labels) (args := argsf) (us := us) (ws := v) hr ?_ ?_ (fun i hi => hA i (hout i hi)) (fun i hi => ?_) ?_
    · refine cast ?_ this
      congr 1
      rw [DTree.weight, weights_eq]
      simp only [cutRule]
      congr 2
      refine List.ext_getElem? fun i => ?_
      by_cases hi : i < r.tail.length
      · have hdi : ds[i]? = some (ds[i]'(by omega)) := List.getElem?_eq_getElem _
        have hai : args[i]? = some (args[i]'(by omega)) := List.getElem?_eq_getElem _
        obtain ⟨h1, h2⟩ := hvis i _ _ _ (List.getElem?_eq_getElem hi) hdi hai
        have hne' : visitsOf (cut r.composition) i ≠ [] := by
          rw [h1]; simpa using h2
        rw [map_range_get.2 ⟨hi, rfl⟩, List.getElem?_map, hdi, if_neg hne']
        simp only [hus, hdi, Option.map_some, Option.getD_some]
      · rw [List.getElem?_eq_none (by simp; omega), List.getElem?_eq_none (by simp; omega)]
    · rw [List.forall₂_iff_get]
      refine ⟨by simp [hlen], fun i h1 h2 => ?_⟩
      simp only [List.get_eq_getElem, List.getElem_range]
      exact List.getElem?_eq_getElem _
    · intro a j c k i j₁ h1 h2 h3
      obtain ⟨h4, rfl⟩ := List.getElem?_eq_some_iff.1 h1
      rw [List.getElem_range]
    · have hi' := hout i hi
      have h1 := hA i hi'
      rw [List.getElem?_eq_getElem hi', Option.some_inj] at h1
      rw [← h1]
      exact hkid i hi'
    · rw [hnum]
      refine compose_mono (fun i j _ x hx => ?_) hv
      simp [hargsf, hx]
  · intro p
    cases p with
    | nil => rfl
    | cons i p =>
      rw [DTree.at?, visitLabels]
      by_cases hi : i < r.tail.length
      · have hdi : ds[i]? = some (ds[i]'(by omega)) := List.getElem?_eq_getElem _
        have hai : args[i]? = some (args[i]'(by omega)) := List.getElem?_eq_getElem _
        obtain ⟨h1, h2⟩ := hvis i _ _ _ (List.getElem?_eq_getElem hi) hdi hai
        rw [hdi, if_neg (by rw [h1]; simpa using h2)]
        exact (hlab i _ _ _ (List.getElem?_eq_getElem hi) hdi hai).2 p
      · have h1 : visitsOf (cut r.composition) i = [] := by
          by_contra h
          exact hi (hout i h)
        rw [if_pos h1, List.getElem?_eq_none (by omega)]
        rfl

end

theorem cutTrails_varsOf (cs : Composition T) : varsOf (cutTrails cs) = varsOf cs := by
  have h := cutTrails_before cs cs.length 0
  rw [before_all] at h
  conv_lhs at h => rw [← cutTrails_length cs]
  rw [before_all] at h
  exact h

theorem cutTrails_ordered {rules : List (PMCFGRule N T W)} (h : Ordered rules) : Ordered (rules.map (cutRule cutTrails)) := by
  intro r₀ hr₀ i A hA r₁ hr₁ hh
  obtain ⟨r, hr, rfl⟩ := List.mem_map.1 hr₀
  obtain ⟨r', hr', rfl⟩ := List.mem_map.1 hr₁
  simp only [cutRule] at hA hh ⊢
  rw [cutTrails_varsOf, cutTrails_length]
  exact h r hr i A hA r' hr' hh

theorem cutTrails_nonDeleting {rules : List (PMCFGRule N T W)} (h : NonDeleting rules) : NonDeleting (rules.map (cutRule cutTrails)) := by
  intro r₀ hr₀ i A hA r₁ hr₁ hh j hj
  obtain ⟨r, hr, rfl⟩ := List.mem_map.1 hr₀
  obtain ⟨r', hr', rfl⟩ := List.mem_map.1 hr₁
  simp only [cutRule] at hA hh hj ⊢
  rw [cutTrails_length] at hj
  rw [cutTrails_varsOf]
  exact h r hr i A hA r' hr' hh j hj

theorem cutTrails_wellFormed {rules : List (PMCFGRule N T W)} (h : WellFormed rules) : WellFormed (rules.map (cutRule cutTrails)) := by
  intro r₀ hr₀ i j hij
  obtain ⟨r, hr, rfl⟩ := List.mem_map.1 hr₀
  simp only [cutRule] at hij ⊢
  rw [cutTrails_varsOf] at hij
  obtain ⟨A, hA, h2⟩ := h r hr i j hij
  refine ⟨A, hA, fun r₁ hr₁ hh => ?_⟩
  obtain ⟨r', hr', rfl⟩ := List.mem_map.1 hr₁
  simp only [cutRule] at hh ⊢
  rw [cutTrails_length]
  exact h2 r' hr' hh

theorem cutTrails_rules {rules : List (PMCFGRule N T W)} (h : ∀ r ∈ rules, ShortTrails r.composition) : rules.map (cutRule cutTrails) = rules := by
  conv_rhs => rw [← List.map_id rules]
  refine List.map_congr_left fun r hr => ?_
  unfold cutRule
  rw [cutTrails_short (h r hr)]
  rfl

end Rustomata
