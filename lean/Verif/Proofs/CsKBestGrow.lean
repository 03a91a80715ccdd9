import Verif.Proofs.CsKBestTable

/-!
# `kth` extends the table

A call of `kth` for the next derivation of an item evaluates the successors of the last derivation found. The recursive calls are for parts of this derivation, so
they are for smaller derivations. Therefore they end and do not change the cell of the item, even if the item occurs again below itself.
-/

namespace Rustomata
open Spec KForest

section
variable {W : Type _} [RoundedWeight W]

/-- The derivation of the last backtrace in the list of an item. -/
def LastTree (c : KTab W) (i j q : Nat) (t : BinTree) : Prop := ∃ p, (c i j q).1.getLast? = some p ∧ DenotesIn (tabL c) i j p.1 t

/-- Cells whose last derivation has more than `n` rules do not change. -/
def Keeps (F : HForest W) (n : Nat) (c c' : KTab W) : Prop := ∀ i j q t, F.ok i j q → LastTree c i j q t → n < t.size → c' i j q = c i j q

/-- Visited items remain visited. -/
def Visits (d d' : KCache W) : Prop := ∀ x, (d.get x).isSome → (d'.get x).isSome

/-- `K` returns backtraces that have been found. -/
def KFound (F : HForest W) (K : KthFn W) : Prop := ∀ i j q k d p, F.ok i j q → (tabL (F.cell d) i j q)[k]? = some p →
  ∃ d', K i j q k d = some (some p, d') ∧ F.cell d' = F.cell d ∧ Visits d d'

/-- `K` finds the next backtrace if the last derivation has fewer than `n` rules. -/
def KNext (F : HForest W) (K : KthFn W) (n : Nat) : Prop := ∀ i j q k d Fin t, F.ok i j q → TabOk F (F.cell d) Fin → LastTree (F.cell d) i j q t → t.size < n →
  (k = (tabL (F.cell d) i j q).length ∨ (Fin i j q ∧ (tabL (F.cell d) i j q).length ≤ k)) →
  ∃ d' Fin', K i j q k d = some ((tabL (F.cell d') i j q)[k]?, d') ∧ TabOk F (F.cell d') Fin' ∧ TabLe (F.cell d) Fin (F.cell d') Fin' ∧ Keeps F t.size (F.cell d) (F.cell d') ∧
    Visits d d' ∧ ((tabL (F.cell d') i j q)[k]? = none → Fin' i j q)

omit [RoundedWeight W] in
theorem Visits.refl {d : KCache W} : Visits d d := fun _ h => h

omit [RoundedWeight W] in
theorem Visits.trans {d d' d'' : KCache W} (h : Visits d d') (h' : Visits d' d'') : Visits d d'' := fun x hx => h' x (h x hx)

omit [RoundedWeight W] in
theorem Visits.set {d : KCache W} {x : Nat × Nat × Nat} {cell : KCell W} : Visits d (d.set x cell) := by
  intro y hy
  rw [AMap.get_set]
  split
  · rfl
  · exact hy

theorem HForest.cell_set (F : HForest W) (d : KCache W) (i j q : Nat) (cell : KCell W) (i' j' q' : Nat) :
    F.cell (d.set (i, j, q) cell) i' j' q' = if (i', j', q') = (i, j, q) then cell else F.cell d i' j' q' := by
  unfold HForest.cell
  rw [AMap.get_set]
  by_cases h : (i, j, q) = (i', j', q')
  · rw [if_pos h, if_pos h.symm]
    rfl
  · rw [if_neg h, if_neg fun h' => h h'.symm]

theorem HForest.cell_set_same {F : HForest W} {d : KCache W} {i j q : Nat} {cell : KCell W} (h : F.cell d i j q = cell) : F.cell (d.set (i, j, q) cell) = F.cell d := by
  funext i' j' q'
  rw [F.cell_set]
  split
  · rename_i he
    cases he
    exact h.symm
  · rfl

theorem HForest.cell_get {F : HForest W} {d : KCache W} {i j q : Nat} (h : (d.get (i, j, q)).isSome) : d.get (i, j, q) = some (F.cell d i j q) := by
  unfold HForest.cell
  obtain ⟨c, hc⟩ := Option.isSome_iff_exists.1 h
  rw [hc]
  rfl

theorem LastTree.det {c : KTab W} {i j q : Nat} {t t' : BinTree} (h : LastTree c i j q t) (h' : LastTree c i j q t') : t = t' := by
  obtain ⟨p, h1, h2⟩ := h
  obtain ⟨p', h1', h2'⟩ := h'
  rw [h1] at h1'
  cases h1'
  exact h2.det h2'

theorem LastTree.mono {c c' : KTab W} (h : ∀ i j q, (c i j q).1 <+: (c' i j q).1) {i j q : Nat} {t : BinTree} (ht : LastTree c i j q t) (he : c' i j q = c i j q) :
    LastTree c' i j q t := by
  obtain ⟨p, h1, h2⟩ := ht
  exact ⟨p, by rw [he, h1], h2.mono h⟩

theorem Keeps.weaken {F : HForest W} {n n' : Nat} {c c' : KTab W} (h : Keeps F n c c') (hn : n ≤ n') : Keeps F n' c c' := fun i j q t hok ht hlt => h i j q t hok ht (by omega)

theorem Keeps.trans {F : HForest W} {n : Nat} {c c' c'' : KTab W} (hp : ∀ i j q, (c i j q).1 <+: (c' i j q).1) (h : Keeps F n c c') (h' : Keeps F n c' c'') : Keeps F n c c'' := by
  intro i j q t hok ht hlt
  have e := h i j q t hok ht hlt
  rw [h' i j q t hok (ht.mono hp e) hlt, e]

theorem Spec.BinTree.size_pos (t : BinTree) : 0 < t.size := by cases t <;> simp [BinTree.size]

variable {F : HForest W} {K : KthFn W}

/-- The backtrace after one that was found. -/
theorem kth_succ {n : Nat} (hK : KFound F K) (hN : KNext F K n) {i j q k : Nat} {d : KCache W} {Fin} {p : Backtrace W × W} {t : BinTree} (hok : F.ok i j q)
    (hc : TabOk F (F.cell d) Fin) (hp : (tabL (F.cell d) i j q)[k]? = some p) (ht : DenotesIn (tabL (F.cell d)) i j p.1 t) (hn : t.size < n) :
    ∃ d' Fin', K i j q (k + 1) d = some ((tabL (F.cell d') i j q)[k + 1]?, d') ∧ TabOk F (F.cell d') Fin' ∧ TabLe (F.cell d) Fin (F.cell d') Fin' ∧
      Keeps F t.size (F.cell d) (F.cell d') ∧ Visits d d' ∧ ((tabL (F.cell d') i j q)[k + 1]? = none → Fin' i j q) := by
  have hlt := (List.getElem?_eq_some_iff.1 hp).1
  by_cases hk : k + 1 < (tabL (F.cell d) i j q).length
  · have hg : (tabL (F.cell d) i j q)[k + 1]? = some (tabL (F.cell d) i j q)[k + 1] := List.getElem?_eq_getElem hk
    obtain ⟨d', h1, h2, h3⟩ := hK i j q (k + 1) d _ hok hg
    refine ⟨d', Fin, by rw [h1, h2, hg], by rw [h2]; exact hc, by rw [h2]; exact .refl, ?_, h3, by rw [h2, hg]; intro h; cases h⟩
    rw [h2]
    exact fun _ _ _ _ _ _ _ => rfl
  · refine hN i j q (k + 1) d Fin t hok hc ⟨p, ?_, ht⟩ hn (.inl (by omega))
    rw [List.getLast?_eq_getElem?, ← hp]
    unfold tabL at hlt hk ⊢
    congr 1
    omega

/-- The weight of a successor of a backtrace that was found. -/
theorem btWeight_grow {n : Nat} (hF : F.Ok) (hK : KFound F K) (hN : KNext F K n) {i j q : Nat} {d : KCache W} {Fin} {b b' : Backtrace W} {t : BinTree} (hok : F.ok i j q)
    (hc : TabOk F (F.cell d) Fin) (hb : F.Cand i j q b) (ht : DenotesIn (tabL (F.cell d)) i j b t) (hn : t.size ≤ n) (hs : b' ∈ b.succs) :
    ∃ d' Fin', btWeight K i j b' d = some (btW (listWt (tabL (F.cell d'))) i j b', d') ∧ TabOk F (F.cell d') Fin' ∧ TabLe (F.cell d) Fin (F.cell d') Fin' ∧
      Keeps F (t.size - 1) (F.cell d) (F.cell d') ∧ Visits d d' ∧ (btW (listWt (tabL (F.cell d'))) i j b' = none → Dead (F.cell d') Fin' i j b') := by
  have hk := TabOk.kids hF hok hb
  cases ht with
  | nullary => simp [Backtrace.succs] at hs
  | unary h1 h2 =>
    rename_i rid q₁ k w p t₁
    simp only [Backtrace.succs, List.mem_singleton] at hs
    subst hs
    have hq := (hk (i, j, q₁) (by simp [Backtrace.kids])).1
    simp only [BinTree.size] at hn
    obtain ⟨d', Fin', g1, g2, g3, g4, g5, g6⟩ := kth_succ hK hN hq hc h1 h2 (by omega)
    refine ⟨d', Fin', ?_, g2, g3, g4.weaken (by simp [BinTree.size]), g5, ?_⟩
    · simp only [btWeight, g1, btW, listWt]
      cases (tabL (F.cell d') i j q₁)[k + 1]? <;> rfl
    · intro hnone
      simp only [btW, listWt, Option.map_eq_none_iff] at hnone
      exact ⟨((i, j, q₁), k + 1), by simp [Backtrace.parts], g6 hnone, List.getElem?_eq_none_iff.1 hnone⟩
  | binary h1 h2 h3 h4 =>
    rename_i rid q₁ m q₂ k₁ k₂ w p₁ p₂ t₁ t₂
    have hq₁ := (hk (i, m, q₁) (by simp [Backtrace.kids])).1
    have hq₂ := (hk (m, j, q₂) (by simp [Backtrace.kids])).1
    simp only [BinTree.size] at hn ⊢
    have hpos := t₁.size_pos
    have hpos₂ := t₂.size_pos
    simp only [Backtrace.succs, List.mem_cons, List.not_mem_nil, or_false] at hs
    rcases hs with rfl | rfl
    · obtain ⟨d₁, e1, e2, e3⟩ := hK i m q₁ k₁ d _ hq₁ h1
      obtain ⟨d', Fin', g1, g2, g3, g4, g5, g6⟩ := kth_succ (d := d₁) (Fin := Fin) hK hN hq₂ (by rw [e2]; exact hc) (by rw [e2]; exact h2) (by rw [e2]; exact h4) (by omega)
      rw [e2] at g3 g4
      have h1' : (tabL (F.cell d') i m q₁)[k₁]? = some p₁ := getElem?_of_prefix (g3.pre _ _ _) h1
      refine ⟨d', Fin', ?_, g2, g3, g4.weaken (by omega), e3.trans g5, ?_⟩
      · simp only [btWeight, e1, g1, btW, listWt, h1', Option.map_some, Option.bind_some]
        cases (tabL (F.cell d') m j q₂)[k₂ + 1]? <;> rfl
      · intro hnone
        simp only [btW, listWt, h1', Option.map_some, Option.bind_some, Option.map_eq_none_iff] at hnone
        exact ⟨((m, j, q₂), k₂ + 1), by simp [Backtrace.parts], g6 hnone, List.getElem?_eq_none_iff.1 hnone⟩
    · obtain ⟨d₁, Fin₁, g1, g2, g3, g4, g5, g6⟩ := kth_succ hK hN hq₁ hc h1 h3 (by omega)
      cases hg : (tabL (F.cell d₁) i m q₁)[k₁ + 1]? with
      | none =>
        rw [hg] at g1
        refine ⟨d₁, Fin₁, ?_, g2, g3, g4.weaken (by omega), g5, fun _ => ?_⟩
        · simp only [btWeight, g1, btW, listWt, hg, Option.map_none, Option.bind_none]
        · exact ⟨((i, m, q₁), k₁ + 1), by simp [Backtrace.parts], g6 hg, List.getElem?_eq_none_iff.1 hg⟩
      | some r =>
        rw [hg] at g1
        have h2' : (tabL (F.cell d₁) m j q₂)[k₂]? = some p₂ := getElem?_of_prefix (g3.pre _ _ _) h2
        obtain ⟨d₂, e1, e2, e3⟩ := hK m j q₂ k₂ d₁ _ hq₂ h2'
        refine ⟨d₂, Fin₁, ?_, by rw [e2]; exact g2, by rw [e2]; exact g3, by rw [e2]; exact g4.weaken (by omega), g5.trans e3, ?_⟩
        · simp only [btWeight, g1, e1, btW, listWt, e2, hg, h2', Option.map_some, Option.bind_some]
        · intro hnone
          simp only [btW, listWt, e2, hg, h2', Option.map_some, Option.bind_some] at hnone
          cases hnone

/-- The weights of some successors of a backtrace that was found. -/
theorem btWorse_grow {n : Nat} (hF : F.Ok) (hK : KFound F K) (hN : KNext F K n) {i j q : Nat} {b : Backtrace W} {t : BinTree} (hok : F.ok i j q) (hb : F.Cand i j q b)
    (hn : t.size ≤ n) (bs : List (Backtrace W)) : ∀ {d : KCache W} {Fin}, TabOk F (F.cell d) Fin → DenotesIn (tabL (F.cell d)) i j b t → (∀ b' ∈ bs, b' ∈ b.succs) →
    ∃ new d' Fin', btWorse K i j bs d = some (new, d') ∧ TabOk F (F.cell d') Fin' ∧ TabLe (F.cell d) Fin (F.cell d') Fin' ∧ Keeps F (t.size - 1) (F.cell d) (F.cell d') ∧
      Visits d d' ∧ (∀ b' w, (b', w) ∈ new ↔ b' ∈ bs ∧ btW (listWt (tabL (F.cell d'))) i j b' = some w) ∧
      ∀ b' ∈ bs, btW (listWt (tabL (F.cell d'))) i j b' = none → Dead (F.cell d') Fin' i j b' := by
  induction bs with
  | nil =>
    intro d Fin hc _ _
    exact ⟨[], d, Fin, rfl, hc, .refl, fun _ _ _ _ _ _ _ => rfl, .refl, by simp, by simp⟩
  | cons b' bs ih =>
    intro d Fin hc ht hs
    obtain ⟨d₁, Fin₁, g1, g2, g3, g4, g5, g6⟩ := btWeight_grow hF hK hN hok hc hb ht hn (hs b' (by simp))
    obtain ⟨new, d₂, Fin₂, e1, e2, e3, e4, e5, e6, e7⟩ := ih g2 (ht.mono g3.pre) fun b'' h => hs b'' (by simp [h])
    have hsome : ∀ w, btW (listWt (tabL (F.cell d₁))) i j b' = some w → btW (listWt (tabL (F.cell d₂))) i j b' = some w := fun w h => btW_mono e3.pre h
    have hnone : btW (listWt (tabL (F.cell d₁))) i j b' = none → Dead (F.cell d₂) Fin₂ i j b' := fun h => (g6 h).mono e3
    cases hw : btW (listWt (tabL (F.cell d₁))) i j b' with
    | none =>
      refine ⟨new, d₂, Fin₂, ?_, e2, g3.trans e3, g4.trans g3.pre e4, g5.trans e5, ?_, ?_⟩
      · simp only [btWorse, g1, e1, hw]
      · intro b'' w
        rw [e6, List.mem_cons]
        constructor
        · rintro ⟨h, h'⟩
          exact ⟨.inr h, h'⟩
        · rintro ⟨rfl | h, h'⟩
          · rw [(hnone hw).undefined] at h'
            cases h'
          · exact ⟨h, h'⟩
      · intro b'' h h'
        rcases List.mem_cons.1 h with rfl | h
        · exact hnone hw
        · exact e7 _ h h'
    | some w =>
      refine ⟨(b', w) :: new, d₂, Fin₂, ?_, e2, g3.trans e3, g4.trans g3.pre e4, g5.trans e5, ?_, ?_⟩
      · simp only [btWorse, g1, e1, hw]
      · intro b'' w'
        rw [List.mem_cons, e6, List.mem_cons]
        constructor
        · rintro (h | ⟨h, h'⟩)
          · cases h
            exact ⟨.inl rfl, hsome _ hw⟩
          · exact ⟨.inr h, h'⟩
        · rintro ⟨rfl | h, h'⟩
          · rw [hsome _ hw] at h'
            cases h'
            exact .inl rfl
          · exact .inr ⟨h, h'⟩
      · intro b'' h h'
        rcases List.mem_cons.1 h with rfl | h
        · rw [hsome _ hw] at h'
          cases h'
        · exact e7 _ h h'

/-- The table with another cell. -/
def KTab.put (c : KTab W) (i j q : Nat) (cell : KCell W) : KTab W := fun i' j' q' => if (i', j', q') = (i, j, q) then cell else c i' j' q'

/-- All derivations of an item have been found. -/
theorem TabOk.finish {c : KTab W} {Fin} (hc : TabOk F c Fin) {i j q : Nat} (hh : (c i j q).2 = []) {p : Backtrace W × W} (hp : (c i j q).1.getLast? = some p)
    (hd : ∀ b ∈ p.1.succs, Dead c Fin i j b) : TabOk F c (fun i' j' q' => Fin i' j' q' ∨ (i', j', q') = (i, j, q)) ∧
      TabLe c Fin c (fun i' j' q' => Fin i' j' q' ∨ (i', j', q') = (i, j, q)) := by
  have hle : TabLe c Fin c (fun i' j' q' => Fin i' j' q' ∨ (i', j', q') = (i, j, q)) := ⟨fun _ _ _ => List.prefix_refl _, fun _ _ _ h => .inl h, fun _ _ _ _ => rfl⟩
  refine ⟨⟨hc.sorted, hc.nonempty, hc.entry, hc.den, hc.dist, hc.heap, hc.init, ?_, ?_⟩, hle⟩
  · intro i' j' q' p' b hok h1 h2
    exact (hc.succ hok h1 h2).imp_right fun h => h.mono hle
  · rintro i' j' q' hok (h | h)
    · obtain ⟨h1, h2⟩ := hc.fin hok h
      exact ⟨h1, fun p' hp' b hb => (h2 p' hp' b hb).imp_right fun h => h.mono hle⟩
    · cases h
      refine ⟨hh, fun p' hp' b hb => ?_⟩
      obtain ⟨l, hl⟩ : ∃ l, (c i j q).1 = l ++ [p] := ⟨_, (List.dropLast_append_getLast? p (by rw [hp]; rfl)).symm⟩
      have hp'' := hp'
      rw [hl, List.mem_append, List.mem_singleton] at hp''
      rcases hp'' with h | rfl
      · rcases hc.succ hok (p := p') (by rw [hl, List.dropLast_concat]; exact h) hb with ⟨w, h | h⟩ | h
        · exact .inl ⟨w, h⟩
        · rw [hh] at h
          exact absurd h List.not_mem_nil
        · exact .inr (h.mono hle)
      · exact .inr ((hd b hb).mono hle)

/-- The best candidate is appended to the list. -/
theorem TabOk.append (hF : F.Ok) {c : KTab W} {Fin} (hc : TabOk F c Fin) {i j q : Nat} (hok : F.ok i j q) (hfin : ¬ Fin i j q) {p : Backtrace W × W}
    (hp : (c i j q).1.getLast? = some p) {new : List (Backtrace W × W)}
    (hnew : ∀ b w, (b, w) ∈ new ↔ b ∈ p.1.succs ∧ btW (listWt (tabL c)) i j b = some w) (hd : ∀ b ∈ p.1.succs, btW (listWt (tabL c)) i j b = none → Dead c Fin i j b)
    {w : W} {b : Backtrace W} {rest : List (W × Backtrace W)} (hpop : btPop (new.foldl (fun h c => btPush h c.1 c.2) (c i j q).2) = some ((w, b), rest)) :
    TabOk F (c.put i j q ((c i j q).1 ++ [(b, w)], rest)) Fin ∧ TabLe c Fin (c.put i j q ((c i j q).1 ++ [(b, w)], rest)) Fin := by
  obtain ⟨l, hl⟩ : ∃ l, (c i j q).1 = l ++ [p] := ⟨_, (List.dropLast_append_getLast? p (by rw [hp]; rfl)).symm⟩
  have hpm : p ∈ (c i j q).1 := by rw [hl]; simp
  have hpc := hc.entry hok (b := p.1) (w := p.2) hpm
  set c' := c.put i j q ((c i j q).1 ++ [(b, w)], rest) with hc'
  have hself : c' i j q = ((c i j q).1 ++ [(b, w)], rest) := by simp [hc', KTab.put]
  have hother : ∀ i' j' q', (i', j', q') ≠ (i, j, q) → c' i' j' q' = c i' j' q' := fun i' j' q' h => by
    simp only [hc', KTab.put]
    rw [if_neg h]
  have hle : TabLe c Fin c' Fin := by
    refine ⟨fun i' j' q' => ?_, fun _ _ _ h => h, fun i' j' q' h => ?_⟩
    · by_cases he : (i', j', q') = (i, j, q)
      · cases he
        rw [hself]
        exact List.prefix_append _ _
      · rw [hother _ _ _ he]
    · by_cases he : (i', j', q') = (i, j, q)
      · cases he
        exact absurd h hfin
      · rw [hother _ _ _ he]
  -- the heap after the successors have been added
  have hfold : new.foldl (fun h c => btPush h c.1 c.2) (c i j q).2 = (new.map Prod.swap).foldl (fun h c => btPush h c.2 c.1) (c i j q).2 := by
    rw [List.foldl_map]; rfl
  have hcand : ∀ w' b', ((w', b') ∈ (c i j q).2 ∨ (w', b') ∈ new.map Prod.swap) → F.Cand i j q b' ∧ btW (listWt (tabL c)) i j b' = some w' ∧ ∀ x ∈ (c i j q).1, bwKey (b', w') < bwKey x := by
    rintro w' b' (h | h)
    · exact hc.heap hok h
    · rw [List.mem_map] at h
      obtain ⟨⟨b₂, w₂⟩, h, he⟩ := h
      cases he
      obtain ⟨h1, h2⟩ := (hnew _ _).1 h
      refine ⟨?_, h2, fun x hx => ?_⟩
      · obtain ⟨w₀, h₀⟩ := hpc.1
        exact ⟨w₀, by rw [Backtrace.base_succs h1]; exact h₀⟩
      · have hlt := hc.succ_lt hF hok (b := p.1) (w := p.2) hpm h1 h2
        rw [hl, List.mem_append, List.mem_singleton] at hx
        rcases hx with hx | rfl
        · have := hc.sorted hok
          rw [hl, List.pairwise_append] at this
          exact hlt.trans (this.2.2 x hx p (by simp))
        · exact hlt
  obtain ⟨hdist, hmem⟩ := mem_btPush_foldl (new.map Prod.swap) (c i j q).2 (hc.dist hok) fun x y hx hy hk => by
    obtain ⟨w₁, b₁⟩ := x
    obtain ⟨w₂, b₂⟩ := y
    obtain ⟨g1, g2, _⟩ := hcand _ _ hx
    obtain ⟨g1', g2', _⟩ := hcand _ _ hy
    have := TabOk.key_inj hF hok g1 g1' hk
    subst this
    rw [g2] at g2'
    rw [Option.some.inj g2']
  rw [hfold] at hpop
  obtain ⟨hperm, hmax⟩ := btPop_some hpop
  have hdist' := (hperm.pairwise_iff (R := fun x y : W × Backtrace W => x.2.key ≠ y.2.key) fun h => h.symm).1 hdist
  rw [List.pairwise_cons] at hdist'
  have hin : ∀ w' b', (w', b') = (w, b) ∨ (w', b') ∈ rest ↔ ((w', b') ∈ (c i j q).2 ∨ (w', b') ∈ new.map Prod.swap) := fun w' b' => by
    rw [← hmem, hperm.mem_iff, List.mem_cons]
  obtain ⟨hb1, hb2, hb3⟩ := hcand w b ((hin _ _).1 (.inl rfl))
  have hhave : ∀ b', (∃ w', (b', w') ∈ (c i j q).1 ∨ (w', b') ∈ (c i j q).2) → ∃ w', (b', w') ∈ (c' i j q).1 ∨ (w', b') ∈ (c' i j q).2 := by
    rintro b' ⟨w', h | h⟩
    · exact ⟨w', .inl (by rw [hself]; simp [h])⟩
    · rcases (hin _ _).2 (.inl h) with h | h
      · cases h
        exact ⟨w, .inl (by rw [hself]; simp)⟩
      · exact ⟨w', .inr (by rw [hself]; exact h)⟩
  refine ⟨⟨?_, ?_, ?_, ?_, ?_, ?_, ?_, ?_, ?_⟩, hle⟩
  · intro i' j' q' hok'
    by_cases he : (i', j', q') = (i, j, q)
    · cases he
      rw [hself]
      simp only
      rw [List.pairwise_append]
      refine ⟨hc.sorted hok, List.pairwise_singleton _ _, fun x hx y hy => ?_⟩
      rw [List.mem_singleton] at hy
      subst hy
      exact hb3 x hx
    · rw [hother _ _ _ he]
      exact hc.sorted hok'
  · intro i' j' q' hok' hnil
    by_cases he : (i', j', q') = (i, j, q)
    · cases he
      rw [hself] at hnil
      simp at hnil
    · rw [hother _ _ _ he] at hnil
      exact hc.nonempty hok' hnil
  · intro i' j' q' b' w' hok' hm
    by_cases he : (i', j', q') = (i, j, q)
    · cases he
      rw [hself] at hm
      simp only [List.mem_append, List.mem_singleton] at hm
      rcases hm with h | h
      · obtain ⟨h1, h2⟩ := hc.entry hok h
        exact ⟨h1, btW_mono hle.pre h2⟩
      · cases h
        exact ⟨hb1, btW_mono hle.pre hb2⟩
    · rw [hother _ _ _ he] at hm
      obtain ⟨h1, h2⟩ := hc.entry hok' hm
      exact ⟨h1, btW_mono hle.pre h2⟩
  · intro i' j' q' p' hok' hm
    by_cases he : (i', j', q') = (i, j, q)
    · cases he
      rw [hself] at hm
      simp only [List.mem_append, List.mem_singleton] at hm
      rcases hm with h | h
      · obtain ⟨t, ht⟩ := hc.den hok h
        exact ⟨t, ht.mono hle.pre⟩
      · cases h
        obtain ⟨t, ht⟩ := hc.denotes_of_weight hF hok hb1 hb2
        exact ⟨t, ht.mono hle.pre⟩
    · rw [hother _ _ _ he] at hm
      obtain ⟨t, ht⟩ := hc.den hok' hm
      exact ⟨t, ht.mono hle.pre⟩
  · intro i' j' q' hok'
    by_cases he : (i', j', q') = (i, j, q)
    · cases he
      rw [hself]
      exact hdist'.2
    · rw [hother _ _ _ he]
      exact hc.dist hok'
  · intro i' j' q' w' b' hok' hm
    by_cases he : (i', j', q') = (i, j, q)
    · cases he
      rw [hself] at hm ⊢
      simp only at hm ⊢
      obtain ⟨h1, h2, h3⟩ := hcand w' b' ((hin _ _).1 (.inr hm))
      refine ⟨h1, btW_mono hle.pre h2, fun x hx => ?_⟩
      rw [List.mem_append, List.mem_singleton] at hx
      rcases hx with hx | rfl
      · exact h3 x hx
      · refine lt_of_le_of_ne (hmax _ hm) fun he => ?_
        have : w' = w ∧ b'.key = b.key := by simpa [bwKey] using he
        exact hdist'.1 _ hm this.2.symm
    · rw [hother _ _ _ he] at hm ⊢
      obtain ⟨h1, h2, h3⟩ := hc.heap hok' hm
      exact ⟨h1, btW_mono hle.pre h2, h3⟩
  · intro i' j' q' w' b' hok' hm
    by_cases he : (i', j', q') = (i, j, q)
    · cases he
      rw [hself]
      simp only [List.mem_append, List.mem_singleton]
      rcases hc.init hok hm with h | h
      · exact .inl (.inl h)
      · rcases (hin _ _).2 (.inl h) with h | h
        · cases h
          exact .inl (.inr rfl)
        · exact .inr h
    · rw [hother _ _ _ he]
      exact hc.init hok' hm
  · intro i' j' q' p' b' hok' hm hs
    by_cases he : (i', j', q') = (i, j, q)
    · cases he
      rw [hself, List.dropLast_concat, hl, List.mem_append, List.mem_singleton] at hm
      rcases hm with h | rfl
      · rcases hc.succ hok (p := p') (by rw [hl, List.dropLast_concat]; exact h) hs with h | h
        · exact .inl (hhave _ h)
        · exact .inr (h.mono hle)
      · cases hw' : btW (listWt (tabL c)) i j b' with
        | none => exact .inr ((hd b' hs hw').mono hle)
        | some w' =>
          have h1 : (w', b') ∈ new.map Prod.swap := List.mem_map.2 ⟨(b', w'), (hnew _ _).2 ⟨hs, hw'⟩, rfl⟩
          rcases (hin _ _).2 (.inr h1) with h | h
          · cases h
            exact .inl ⟨w, .inl (by rw [hself]; simp)⟩
          · exact .inl ⟨w', .inr (by rw [hself]; exact h)⟩
    · rw [hother _ _ _ he] at hm ⊢
      exact (hc.succ hok' hm hs).imp_right fun h => h.mono hle
  · intro i' j' q' hok' hf
    have he : (i', j', q') ≠ (i, j, q) := by
      rintro he
      cases he
      exact hfin hf
    rw [hother _ _ _ he]
    obtain ⟨h1, h2⟩ := hc.fin hok' hf
    exact ⟨h1, fun p' hp' b' hb' => (h2 p' hp' b' hb').imp_right fun h => h.mono hle⟩

/-- The candidates of all items are those of the forest. -/
def BtOf {T : Type _} [DecidableEq T] (A : CsAutomaton T W) (chart : DenseChart W) (filter : List Bool) (F : HForest W) : Prop :=
  ∀ i j q, F.ok i j q → backtraces A chart filter i j q = some (F.H i j q)

/-- After the cell of an unvisited item was made, `kth` continues with the last backtrace. -/
theorem kth_visit {T : Type _} [DecidableEq T] {A : CsAutomaton T W} {chart : DenseChart W} {filter : List Bool} (hB : BtOf A chart filter F) {i j q : Nat} (hok : F.ok i j q)
    (fuel k : Nat) (d : KCache W) {b : Backtrace W} {w : W} (hlast : (F.cell d i j q).1.getLast? = some (b, w)) :
    ∃ d₁, F.cell d₁ = F.cell d ∧ Visits d d₁ ∧ (d₁.get (i, j, q)).isSome ∧
      kth A chart filter (fuel + 1) i j q k d = kthFinish (kth A chart filter fuel) i j q k (F.cell d i j q).1.length b w d₁ := by
  cases hg : d.get (i, j, q) with
  | none =>
    have hcell : F.cell d i j q = F.init i j q := by
      unfold HForest.cell
      rw [hg]
      rfl
    refine ⟨d.set (i, j, q) (F.cell d i j q), HForest.cell_set_same rfl, .set, by rw [AMap.get_set_self]; rfl, ?_⟩
    rw [hcell] at hlast ⊢
    unfold kth
    simp only [hg, hB i j q hok]
    unfold HForest.init at hlast ⊢
    cases hp : btPop (F.H i j q) with
    | none =>
      rw [hp] at hlast
      simp at hlast
    | some x =>
      obtain ⟨⟨w', b'⟩, rest⟩ := x
      rw [hp] at hlast
      simp only [List.getLast?_singleton, Option.some.injEq, Prod.mk.injEq] at hlast
      obtain ⟨rfl, rfl⟩ := hlast
      rfl
  | some cell =>
    have hcell : F.cell d i j q = cell := by
      unfold HForest.cell
      rw [hg]
      rfl
    refine ⟨d, rfl, .refl, by rw [hg]; rfl, ?_⟩
    rw [hcell] at hlast ⊢
    unfold kth
    simp only [hg, hlast]

theorem kth_found {T : Type _} [DecidableEq T] {A : CsAutomaton T W} {chart : DenseChart W} {filter : List Bool} (hB : BtOf A chart filter F) (fuel : Nat) :
    KFound F (kth A chart filter (fuel + 1)) := by
  intro i j q k d p hok hp
  obtain ⟨hk, _⟩ := List.getElem?_eq_some_iff.1 hp
  have hne : (F.cell d i j q).1 ≠ [] := by
    intro h
    unfold tabL at hk
    rw [h] at hk
    simp at hk
  obtain ⟨⟨b, w⟩, hlast⟩ : ∃ x, (F.cell d i j q).1.getLast? = some x := ⟨_, List.getLast?_eq_some_getLast hne⟩
  obtain ⟨d₁, h1, h2, h3, h4⟩ := kth_visit hB hok fuel k d hlast
  refine ⟨d₁, ?_, h1, h2⟩
  rw [h4]
  unfold tabL at hk hp
  have hloop : kthLoop (kth A chart filter fuel) i j q k (k + 1) (F.cell d i j q).1.length b w d₁ = some ((F.cell d i j q).1.length, b, w, d₁) := by
    rw [kthLoop, if_neg (by omega)]
  unfold kthFinish
  simp only [hloop]
  rcases Nat.lt_trichotomy (F.cell d i j q).1.length (k + 1) with hlt | heq | hgt
  · omega
  · rw [Nat.compare_eq_eq.2 heq]
    simp only
    rw [List.getLast?_eq_getElem?, heq, Nat.add_sub_cancel, hp] at hlast
    rw [Option.some.inj hlast]
  · rw [Nat.compare_eq_gt.2 hgt]
    simp only [HForest.cell_get (F := F) h3, h1, hp]

theorem HForest.cell_put (F : HForest W) (d : KCache W) (i j q : Nat) (cell : KCell W) : F.cell (d.set (i, j, q) cell) = (F.cell d).put i j q cell := by
  funext i' j' q'
  rw [F.cell_set]
  rfl

/-- `kth` finds the next backtrace. -/
theorem kth_next {T : Type _} [DecidableEq T] {A : CsAutomaton T W} {chart : DenseChart W} {filter : List Bool} (hF : F.Ok) (hB : BtOf A chart filter F) (fuel : Nat) :
    KNext F (kth A chart filter fuel) fuel := by
  induction fuel with
  | zero => intro i j q k d Fin t _ _ _ h; omega
  | succ fuel ih =>
    intro i j q k d Fin t hok hc hlt hsize hk
    have hpos := t.size_pos
    obtain ⟨fuel, rfl⟩ : ∃ f, fuel = f + 1 := ⟨fuel - 1, by omega⟩
    have hfound := kth_found hB (F := F) fuel
    obtain ⟨⟨b, w⟩, hlast, hden⟩ := hlt
    obtain ⟨d₁, h1, h2, h3, h4⟩ := kth_visit hB hok (fuel + 1) k d hlast
    have hlen : (F.cell d i j q).1.length < k + 1 := by
      unfold tabL at hk
      omega
    have hmem : (b, w) ∈ (F.cell d i j q).1 := List.mem_of_getLast? hlast
    obtain ⟨hb1, hb2⟩ := hc.entry hok hmem
    obtain ⟨new, d₂, Fin₂, g1, g2, g3, g4, g5, g6, g7⟩ := btWorse_grow (t := t) hF hfound ih hok hb1 (by omega) b.succs (d := d₁) (Fin := Fin) (by rw [h1]; exact hc) (by rw [h1]; exact hden)
      fun _ h => h
    rw [h1] at g3 g4
    have hsame : F.cell d₂ i j q = F.cell d i j q := g4 i j q t hok ⟨(b, w), hlast, hden⟩ (by omega)
    have hget : d₂.get (i, j, q) = some (F.cell d i j q) := by rw [← hsame]; exact HForest.cell_get (g5 _ h3)
    have hlast₂ : (F.cell d₂ i j q).1.getLast? = some (b, w) := by rw [hsame, hlast]
    have hkeeps : ∀ (d₃ : KCache W) cell, d₃ = d₂.set (i, j, q) cell → Keeps F t.size (F.cell d) (F.cell d₃) := by
      rintro d₃ cell rfl i' j' q' t' hok' ht' hlt'
      rw [F.cell_set, if_neg]
      · exact g4 i' j' q' t' hok' ht' (by omega)
      · rintro he
        cases he
        have := ht'.det ⟨(b, w), hlast, hden⟩
        rw [this] at hlt'
        omega
    rw [h4]
    unfold kthFinish
    rw [kthLoop, if_pos hlen]
    simp only [g1, hget]
    cases hpop : btPop (new.foldl (fun h c => btPush h c.1 c.2) (F.cell d i j q).2) with
    | none =>
      have hnil := btPop_none.1 hpop
      have hsub : ∀ (l : List (Backtrace W × W)) (h : List (W × Backtrace W)), l.foldl (fun h c => btPush h c.1 c.2) h = [] → h = [] ∧ l = [] := by
        intro l
        induction l with
        | nil => exact fun h hh => ⟨hh, rfl⟩
        | cons x l ihl =>
          intro h hh
          have := (ihl _ hh).1
          simp only [btPush] at this
          split at this
          · rename_i ha
            rw [this] at ha
            simp at ha
          · simp at this
      obtain ⟨hheap, hnew⟩ := hsub _ _ hnil
      have hcell : F.cell (d₂.set (i, j, q) ((F.cell d i j q).1, [])) = F.cell d₂ := HForest.cell_set_same (by rw [hsame]; exact Prod.ext rfl hheap)
      obtain ⟨e1, e2⟩ := g2.finish (by rw [hsame]; exact hheap) hlast₂ fun b' hb' => g7 b' hb' (by
        cases hw : btW (listWt (tabL (F.cell d₂))) i j b' with
        | none => rfl
        | some w' =>
          have := (g6 b' w').2 ⟨hb', hw⟩
          rw [hnew] at this
          exact absurd this List.not_mem_nil)
      refine ⟨d₂.set (i, j, q) ((F.cell d i j q).1, []), fun i' j' q' => Fin₂ i' j' q' ∨ (i', j', q') = (i, j, q), ?_, by rw [hcell]; exact e1, by rw [hcell]; exact g3.trans e2, hkeeps _ _ rfl, (h2.trans g5).trans .set, fun _ => .inr rfl⟩
      simp only
      rw [Nat.compare_eq_lt.2 hlen]
      simp only
      rw [hcell, List.getElem?_eq_none]
      unfold tabL
      rw [hsame]
      omega
    | some x =>
      obtain ⟨⟨w', b'⟩, rest⟩ := x
      simp only
      have hfin : ¬ Fin₂ i j q := by
        intro hfin
        obtain ⟨f1, f2⟩ := g2.fin hok hfin
        rw [hsame] at f1
        have hnew : new = [] := by
          refine List.eq_nil_iff_forall_not_mem.2 ?_
          rintro ⟨b'', w''⟩ hm
          obtain ⟨m1, m2⟩ := (g6 _ _).1 hm
          rcases f2 (b, w) (List.mem_of_getLast? hlast₂) b'' m1 with ⟨w₃, h⟩ | h
          · have hlt := g2.succ_lt hF hok (List.mem_of_getLast? hlast₂) m1 (g2.entry hok h).2
            obtain ⟨l, hl⟩ : ∃ l, (F.cell d₂ i j q).1 = l ++ [(b, w)] := ⟨_, (List.dropLast_append_getLast? (b, w) (by rw [hlast₂]; rfl)).symm⟩
            rw [hl, List.mem_append, List.mem_singleton] at h
            rcases h with h | h
            · have hs := g2.sorted hok
              rw [hl, List.pairwise_append] at hs
              exact lt_irrefl _ (hlt.trans (hs.2.2 _ h _ (by simp)))
            · rw [h] at hlt
              exact lt_irrefl _ hlt
          · rw [h.undefined] at m2
            cases m2
        rw [hnew, f1] at hpop
        cases hpop
      have hk' : k = (F.cell d i j q).1.length := by
        rcases hk with hk | hk
        · exact hk
        · exact absurd (g3.fin _ _ _ hk.1) hfin
      obtain ⟨e1, e2⟩ := g2.append hF hok hfin hlast₂ g6 g7 (by rw [hsame]; exact hpop)
      have hcell : F.cell (d₂.set (i, j, q) ((F.cell d i j q).1 ++ [(b', w')], rest)) = (F.cell d₂).put i j q ((F.cell d₂ i j q).1 ++ [(b', w')], rest) := by
        rw [F.cell_put, hsame]
      rw [← hcell] at e1 e2
      have hres : (tabL (F.cell (d₂.set (i, j, q) ((F.cell d i j q).1 ++ [(b', w')], rest))) i j q)[k]? = some (b', w') := by
        unfold tabL
        rw [F.cell_set, if_pos rfl, hk']
        simp
      refine ⟨d₂.set (i, j, q) ((F.cell d i j q).1 ++ [(b', w')], rest), Fin₂, ?_, e1, g3.trans e2, hkeeps _ _ rfl, (h2.trans g5).trans .set, ?_⟩
      · rw [kthLoop.eq_def]
        simp only
        rw [if_neg (by omega)]
        simp only
        rw [Nat.compare_eq_eq.2 (by omega)]
        simp only [hres]
      · rw [hres]
        intro h
        cases h

end

end Rustomata
