import Verif.Proofs.CsKBestForest

/-!
# `kth` enumerates the lists of a forest
-/

namespace Rustomata
open KForest

section
variable {W : Type _} [RoundedWeight W]

/-- The heap contains the backtraces from position `m` on that have zero indices or are successors of one of the first `c` backtraces. -/
def HeapOK (F : KForest W) (i j q m c : Nat) (h : List (W × Backtrace W)) : Prop :=
  BtDistinct h ∧ ∀ w b, (w, b) ∈ h ↔ (b, w) ∈ (F.L i j q).drop m ∧ (b ∈ F.I i j q ∨ ∃ p ∈ (F.L i j q).take c, b ∈ p.1.succs)

/-- The cell of an item: the first backtraces and the candidates. -/
def CellOK (F : KForest W) (i j q : Nat) (cell : List (Backtrace W × W) × List (W × Backtrace W)) : Prop :=
  ∃ m ≤ (F.L i j q).length, cell.1 = (F.L i j q).take m ∧ HeapOK F i j q m (m - 1) cell.2 ∧ (m = 0 → F.L i j q = [])

/-- All cells are correct. -/
def CacheOK (F : KForest W) (d : KCache W) : Prop := ∀ i j q cell, d.get (i, j, q) = some cell → F.ok i j q ∧ CellOK F i j q cell

/-- `K` returns the elements of the lists for items of rank less than `r`. -/
def KSpec (F : KForest W) (K : KthFn W) (r : Nat) : Prop :=
  ∀ i j q k d, F.ok i j q → F.rank i j q < r → CacheOK F d → ∃ d', K i j q k d = some ((F.L i j q)[k]?, d') ∧ CacheOK F d' ∧
    ∀ i' j' q', F.rank i j q < F.rank i' j' q' → d'.get (i', j', q') = d.get (i', j', q')

variable {F : KForest W}

theorem HeapOK.pop (hF : F.Ok) {i j q m : Nat} (hok : F.ok i j q) {h : List (W × Backtrace W)} (hh : HeapOK F i j q m m h) :
    (btPop h = none ∧ (F.L i j q).length ≤ m ∧ h = []) ∨ ∃ w b r, btPop h = some ((w, b), r) ∧ (F.L i j q)[m]? = some (b, w) ∧ HeapOK F i j q (m + 1) m r := by
  have hsort := (hF.L_spec hok).1
  cases hp : btPop h with
  | none =>
    have hnil := btPop_none.1 hp
    refine .inl ⟨rfl, ?_, hnil⟩
    by_contra hlt
    rw [not_le] at hlt
    have hget : (F.L i j q)[m]? = some (F.L i j q)[m] := List.getElem?_eq_getElem hlt
    have hmem : (F.L i j q)[m] ∈ F.L i j q := List.getElem_mem hlt
    have hd : (F.L i j q)[m] ∈ (F.L i j q).drop m := by
      rw [List.drop_eq_getElem_cons hlt]; exact List.mem_cons_self
    have : ((F.L i j q)[m].2, (F.L i j q)[m].1) ∈ h := by
      rw [hh.2]
      refine ⟨hd, ?_⟩
      rcases hF.pred hok (b := (F.L i j q)[m].1) (w := (F.L i j q)[m].2) hmem with h | ⟨p, hp, hs, hlt'⟩
      · exact .inl h
      · refine .inr ⟨p, ?_, hs⟩
        obtain ⟨k, hk⟩ := List.getElem?_of_mem hp
        rw [List.mem_take_iff_getElem]
        have hk2 := List.getElem?_eq_some_iff.1 hk
        refine ⟨k, ?_, hk2.2⟩
        rw [lt_min_iff]
        refine ⟨?_, hk2.1⟩
        by_contra hge
        rw [not_lt] at hge
        rcases Nat.eq_or_lt_of_le hge with rfl | hgt
        · rw [hk] at hget
          rw [Option.some.inj hget] at hlt'
          exact lt_irrefl _ hlt'
        · exact lt_irrefl _ (hlt'.trans (hF.L_lt hok hget hk hgt))
    rw [hnil] at this
    exact absurd this List.not_mem_nil
  | some x =>
    obtain ⟨⟨w, b⟩, r⟩ := x
    obtain ⟨hperm, hmax⟩ := btPop_some hp
    refine .inr ⟨w, b, r, rfl, ?_⟩
    have hin : (w, b) ∈ h := hperm.mem_iff.2 List.mem_cons_self
    have hlt : m < (F.L i j q).length := by
      have := ((hh.2 w b).1 hin).1
      by_contra hge
      rw [List.drop_eq_nil_of_le (by omega)] at this
      exact absurd this List.not_mem_nil
    have hget : (F.L i j q)[m]? = some (F.L i j q)[m] := List.getElem?_eq_getElem hlt
    have hmem : (F.L i j q)[m] ∈ F.L i j q := List.getElem_mem hlt
    have hd : (F.L i j q)[m] ∈ (F.L i j q).drop m := by
      rw [List.drop_eq_getElem_cons hlt]; exact List.mem_cons_self
    have hinm : ((F.L i j q)[m].2, (F.L i j q)[m].1) ∈ h := by
      rw [hh.2]
      refine ⟨hd, ?_⟩
      rcases hF.pred hok (b := (F.L i j q)[m].1) (w := (F.L i j q)[m].2) hmem with h | ⟨p, hp, hs, hlt'⟩
      · exact .inl h
      · refine .inr ⟨p, ?_, hs⟩
        obtain ⟨k, hk⟩ := List.getElem?_of_mem hp
        rw [List.mem_take_iff_getElem]
        have hk2 := List.getElem?_eq_some_iff.1 hk
        refine ⟨k, ?_, hk2.2⟩
        rw [lt_min_iff]
        refine ⟨?_, hk2.1⟩
        by_contra hge
        rw [not_lt] at hge
        rcases Nat.eq_or_lt_of_le hge with rfl | hgt
        · rw [hk] at hget
          rw [Option.some.inj hget] at hlt'
          exact lt_irrefl _ hlt'
        · exact lt_irrefl _ (hlt'.trans (hF.L_lt hok hget hk hgt))
    have heq : (F.L i j q)[m] = (b, w) := by
      have hbd := ((hh.2 w b).1 hin).1
      rw [List.drop_eq_getElem_cons hlt, List.mem_cons] at hbd
      rcases hbd with hbd | hbd
      · exact hbd.symm
      · rw [List.drop_eq_getElem_cons hlt] at hd
        have h1 : bwKey (b, w) < bwKey (F.L i j q)[m] := by
          have := hsort.sublist (List.drop_sublist m _)
          rw [List.drop_eq_getElem_cons hlt, List.pairwise_cons] at this
          exact this.1 _ hbd
        rcases List.mem_cons.1 (hperm.mem_iff.1 hinm) with h2 | h2
        · rw [Prod.mk.injEq] at h2
          exact Prod.ext h2.2 h2.1
        · exact absurd h1 (not_lt_of_ge (hmax _ h2))
    refine ⟨by rw [hget, heq], ?_, ?_⟩
    · have := (hperm.pairwise_iff (R := fun x y : W × Backtrace W => x.2.key ≠ y.2.key) fun h => h.symm).1 hh.1
      exact (List.pairwise_cons.1 this).2
    · have hdist := (hperm.pairwise_iff (R := fun x y : W × Backtrace W => x.2.key ≠ y.2.key) fun h => h.symm).1 hh.1
      have hdist := (List.pairwise_cons.1 hdist).1
      have hnd : (b, w) ∉ (F.L i j q).drop (m + 1) := by
        intro hbd
        have := hsort.sublist (List.drop_sublist m _)
        rw [List.drop_eq_getElem_cons hlt, List.pairwise_cons] at this
        have := this.1 _ hbd
        rw [heq] at this
        exact lt_irrefl _ this
      intro w' b'
      constructor
      · intro hr
        obtain ⟨h1, h2⟩ := (hh.2 w' b').1 (hperm.mem_iff.2 (List.mem_cons_of_mem _ hr))
        refine ⟨?_, h2⟩
        rw [List.drop_eq_getElem_cons hlt, List.mem_cons, heq] at h1
        rcases h1 with h1 | h1
        · rw [Prod.mk.injEq] at h1
          exact absurd (by rw [h1.1]) (hdist _ hr)
        · exact h1
      · rintro ⟨h1, h2⟩
        have : (w', b') ∈ h := (hh.2 w' b').2 ⟨by rw [List.drop_eq_getElem_cons hlt]; exact List.mem_cons_of_mem _ h1, h2⟩
        rcases List.mem_cons.1 (hperm.mem_iff.1 this) with h3 | h3
        · rw [Prod.mk.injEq] at h3
          obtain ⟨rfl, rfl⟩ := h3
          exact absurd h1 hnd
        · exact h3

/-- The successors that have a weight. -/
noncomputable def goodSuccs (F : KForest W) (i j : Nat) (bs : List (Backtrace W)) : List (Backtrace W × W) :=
  bs.filterMap fun b => (btW (listWt F.L) i j b).map fun w => (b, w)

theorem mem_goodSuccs {i j : Nat} {bs : List (Backtrace W)} {b : Backtrace W} {w : W} :
    (b, w) ∈ goodSuccs F i j bs ↔ b ∈ bs ∧ btW (listWt F.L) i j b = some w := by
  unfold goodSuccs
  rw [List.mem_filterMap]
  constructor
  · rintro ⟨b', h, he⟩
    rw [Option.map_eq_some_iff] at he
    obtain ⟨w', h', he⟩ := he
    cases he
    exact ⟨h, h'⟩
  · rintro ⟨h, h'⟩
    exact ⟨b, h, by rw [h']; rfl⟩

theorem HeapOK.push (hF : F.Ok) {i j q m : Nat} (hok : F.ok i j q) {h : List (W × Backtrace W)} {b : Backtrace W} {w : W} (hh : HeapOK F i j q (m + 1) m h)
    (hb : (F.L i j q)[m]? = some (b, w)) : HeapOK F i j q (m + 1) (m + 1) ((goodSuccs F i j b.succs).foldl (fun h c => btPush h c.1 c.2) h) := by
  obtain ⟨hlt, hgetm⟩ := List.getElem?_eq_some_iff.1 hb
  have hbL : (b, w) ∈ F.L i j q := List.mem_of_getElem? hb
  have hdrop : ∀ b' w', b' ∈ b.succs → btW (listWt F.L) i j b' = some w' → (b', w') ∈ (F.L i j q).drop (m + 1) := by
    intro b' w' hs hw'
    obtain ⟨h1, h2⟩ := hF.succ_lt hok hbL hs hw'
    obtain ⟨k, hk⟩ := List.getElem?_of_mem h1
    have hk2 := List.getElem?_eq_some_iff.1 hk
    have hgt : m < k := by
      by_contra hge
      rw [not_lt] at hge
      rcases Nat.eq_or_lt_of_le hge with rfl | hlt'
      · rw [hb] at hk
        rw [Option.some.inj hk] at h2
        exact lt_irrefl _ h2
      · exact lt_irrefl _ (h2.trans (hF.L_lt hok hk hb hlt'))
    rw [List.mem_iff_getElem?]
    refine ⟨k - (m + 1), ?_⟩
    rw [List.getElem?_drop, show m + 1 + (k - (m + 1)) = k by omega, hk]
  have hfold : (goodSuccs F i j b.succs).foldl (fun h c => btPush h c.1 c.2) h = ((goodSuccs F i j b.succs).map Prod.swap).foldl (fun h c => btPush h c.2 c.1) h := by
    rw [List.foldl_map]; rfl
  have hsw : ∀ x, x ∈ (goodSuccs F i j b.succs).map Prod.swap ↔ x.2 ∈ b.succs ∧ btW (listWt F.L) i j x.2 = some x.1 := by
    rintro ⟨w', b'⟩
    rw [List.mem_map]
    constructor
    · rintro ⟨⟨b₂, w₂⟩, h, he⟩
      cases he
      exact mem_goodSuccs.1 h
    · intro h
      exact ⟨(b', w'), mem_goodSuccs.2 h, rfl⟩
  have hall : ∀ x, (x ∈ h ∨ x ∈ (goodSuccs F i j b.succs).map Prod.swap) → (x.2, x.1) ∈ F.L i j q := by
    rintro ⟨w', b'⟩ (hx | hx)
    · exact List.mem_of_mem_drop ((hh.2 w' b').1 hx).1
    · rw [hsw] at hx
      exact List.mem_of_mem_drop (hdrop _ _ hx.1 hx.2)
  obtain ⟨h1, h2⟩ := mem_btPush_foldl ((goodSuccs F i j b.succs).map Prod.swap) h hh.1 fun x y hx hy hk => by
    have := hF.L_key hok (hall x hx) (hall y hy) hk
    rw [Prod.mk.injEq] at this
    exact Prod.ext this.2 this.1
  rw [hfold]
  refine ⟨h1, fun w' b' => ?_⟩
  rw [h2, hsw, hh.2, List.take_add_one, hb]
  simp only [Option.toList_some, List.mem_append, List.mem_singleton]
  constructor
  · rintro (⟨ha, hb' | ⟨p, hp, hs⟩⟩ | ⟨hs, hw'⟩)
    · exact ⟨ha, .inl hb'⟩
    · exact ⟨ha, .inr ⟨p, .inl hp, hs⟩⟩
    · exact ⟨hdrop _ _ hs hw', .inr ⟨_, .inr rfl, hs⟩⟩
  · rintro ⟨ha, hb' | ⟨p, hp | rfl, hs⟩⟩
    · exact .inl ⟨ha, .inl hb'⟩
    · exact .inl ⟨ha, .inr ⟨p, hp, hs⟩⟩
    · exact .inr ⟨hs, (((hF.L_spec hok).2 _ _).1 (List.mem_of_mem_drop ha)).2⟩

/-! ### Calls for other items -/

theorem btWeight_spec (hF : F.Ok) {K : KthFn W} {i j q r : Nat} (hK : KSpec F K r) (hok : F.ok i j q) (hr : F.rank i j q ≤ r) {b : Backtrace W} (hb : b.base ∈ F.I i j q)
    {d : KCache W} (hd : CacheOK F d) :
    ∃ d', btWeight K i j b d = some (btW (listWt F.L) i j b, d') ∧ CacheOK F d' ∧
      ∀ i' j' q', F.rank i j q ≤ F.rank i' j' q' → d'.get (i', j', q') = d.get (i', j', q') := by
  have hk := hF.kids hok hb
  rw [Backtrace.kids_base] at hk
  cases b with
  | nullary => exact ⟨d, rfl, hd, fun _ _ _ _ => rfl⟩
  | unary rid q₁ w k =>
    have h1 := hk (i, j, q₁) (by simp [Backtrace.kids])
    obtain ⟨d', h2, h3, h4⟩ := hK i j q₁ k d h1.1 (lt_of_lt_of_le h1.2.1 hr) hd
    refine ⟨d', ?_, h3, fun i' j' q' h => h4 _ _ _ (lt_of_lt_of_le h1.2.1 h)⟩
    simp only [btWeight, h2, btW, listWt]
    cases (F.L i j q₁)[k]? <;> rfl
  | binary rid q₁ m q₂ w k₁ k₂ =>
    have h1 := hk (i, m, q₁) (by simp [Backtrace.kids])
    have h1' := hk (m, j, q₂) (by simp [Backtrace.kids])
    obtain ⟨d', h2, h3, h4⟩ := hK i m q₁ k₁ d h1.1 (lt_of_lt_of_le h1.2.1 hr) hd
    obtain ⟨d₂, h2', h3', h4'⟩ := hK m j q₂ k₂ d' h1'.1 (lt_of_lt_of_le h1'.2.1 hr) h3
    simp only [btWeight, h2, btW, listWt]
    cases (F.L i m q₁)[k₁]? with
    | none => exact ⟨d', rfl, h3, fun i' j' q' h => h4 _ _ _ (lt_of_lt_of_le h1.2.1 h)⟩
    | some p =>
      refine ⟨d₂, ?_, h3', fun i' j' q' h => (h4' _ _ _ (lt_of_lt_of_le h1'.2.1 h)).trans (h4 _ _ _ (lt_of_lt_of_le h1.2.1 h))⟩
      simp only [h2']
      cases (F.L m j q₂)[k₂]? <;> rfl

theorem btWorse_spec (hF : F.Ok) {K : KthFn W} {i j q r : Nat} (hK : KSpec F K r) (hok : F.ok i j q) (hr : F.rank i j q ≤ r) (bs : List (Backtrace W)) :
    ∀ {d : KCache W}, (∀ b ∈ bs, b.base ∈ F.I i j q) → CacheOK F d →
    ∃ d', btWorse K i j bs d = some (goodSuccs F i j bs, d') ∧ CacheOK F d' ∧ ∀ i' j' q', F.rank i j q ≤ F.rank i' j' q' → d'.get (i', j', q') = d.get (i', j', q') := by
  induction bs with
  | nil => exact fun _ hd => ⟨_, rfl, hd, fun _ _ _ _ => rfl⟩
  | cons b bs ih =>
    intro d hb hd
    obtain ⟨d₁, h1, h2, h3⟩ := btWeight_spec hF hK hok hr (hb b (by simp)) hd
    obtain ⟨d₂, h4, h5, h6⟩ := ih (fun b' h => hb b' (by simp [h])) h2
    refine ⟨d₂, ?_, h5, fun i' j' q' h => (h6 _ _ _ h).trans (h3 _ _ _ h)⟩
    simp only [btWorse, h1, h4, goodSuccs, List.filterMap_cons]
    cases btW (listWt F.L) i j b <;> rfl

theorem CacheOK.set {d : KCache W} (hd : CacheOK F d) {i j q : Nat} (hok : F.ok i j q) {cell : List (Backtrace W × W) × List (W × Backtrace W)} (h : CellOK F i j q cell) :
    CacheOK F (d.set (i, j, q) cell) := by
  intro i' j' q' cell' hg
  rw [AMap.get_set] at hg
  split at hg
  · rename_i he
    cases he
    cases hg
    exact ⟨hok, h⟩
  · exact hd _ _ _ _ hg

theorem kthLoop_spec (hF : F.Ok) {K : KthFn W} {i j q k r : Nat} (hK : KSpec F K r) (hok : F.ok i j q) (hr : F.rank i j q ≤ r) (fuel : Nat) :
    ∀ {m : Nat} {last : Backtrace W} {lw : W} {d : KCache W} {h : List (W × Backtrace W)}, k + 1 ≤ fuel + (m + 1) → CacheOK F d →
      (F.L i j q)[m]? = some (last, lw) → d.get (i, j, q) = some ((F.L i j q).take (m + 1), h) → HeapOK F i j q (m + 1) m h →
      ∃ m' last' lw' d' h', kthLoop K i j q k fuel (m + 1) last lw d = some (m' + 1, last', lw', d') ∧ CacheOK F d' ∧ (F.L i j q)[m']? = some (last', lw') ∧
        d'.get (i, j, q) = some ((F.L i j q).take (m' + 1), h') ∧ (k + 1 ≤ m' + 1 ∨ (F.L i j q).length = m' + 1) ∧
        ∀ i' j' q', F.rank i j q < F.rank i' j' q' → d'.get (i', j', q') = d.get (i', j', q') := by
  induction fuel with
  | zero =>
    intro m last lw d h hfuel hd hlast hget hheap
    refine ⟨m, last, lw, d, h, ?_, hd, hlast, hget, .inl (by omega), fun _ _ _ _ => rfl⟩
    rw [kthLoop, if_neg (by omega)]
  | succ fuel ih =>
    intro m last lw d h hfuel hd hlast hget hheap
    by_cases hk : m + 1 < k + 1
    · have hlastL := List.mem_of_getElem? hlast
      have hlb := (((hF.L_spec hok).2 last lw).1 hlastL).1
      obtain ⟨d₁, h1, h2, h3⟩ := btWorse_spec hF hK hok hr last.succs (fun b hb => by rw [Backtrace.base_succs hb]; exact hlb) hd
      have hg1 : d₁.get (i, j, q) = some ((F.L i j q).take (m + 1), h) := by rw [h3 _ _ _ (le_refl _), hget]
      have hpush := hheap.push hF hok hlast
      rcases hpush.pop hF hok with ⟨h4, h5, h6⟩ | ⟨w, b, rest, h4, h5, h6⟩
      · have hlen := (List.getElem?_eq_some_iff.1 hlast).1
        have hcell : CellOK F i j q ((F.L i j q).take (m + 1), []) := by
          refine ⟨m + 1, by omega, rfl, ⟨List.Pairwise.nil, fun w b => ?_⟩, by omega⟩
          rw [List.drop_eq_nil_of_le h5]
          simp
        refine ⟨m, last, lw, d₁.set (i, j, q) ((F.L i j q).take (m + 1), []), [], ?_, h2.set hok hcell, hlast, AMap.get_set_self _ _ _, .inr (by omega), ?_⟩
        · rw [kthLoop, if_pos hk]
          simp only [h1, hg1, h4]
        · intro i' j' q' hlt
          rw [AMap.get_set, if_neg, h3 _ _ _ hlt.le]
          rintro he
          cases he
          exact lt_irrefl _ hlt
      · have hlen := (List.getElem?_eq_some_iff.1 h5).1
        have htake : (F.L i j q).take (m + 1) ++ [(b, w)] = (F.L i j q).take (m + 1 + 1) := by
          rw [List.take_add_one (i := m + 1), h5]; rfl
        have hcell : CellOK F i j q ((F.L i j q).take (m + 1) ++ [(b, w)], rest) := ⟨m + 1 + 1, by omega, htake, h6, by omega⟩
        obtain ⟨m', last', lw', d', h', g1, g2, g3, g4, g5, g6⟩ := ih (m := m + 1) (last := b) (lw := w)
          (d := d₁.set (i, j, q) ((F.L i j q).take (m + 1) ++ [(b, w)], rest)) (h := rest) (by omega) (h2.set hok hcell) h5
          (by rw [AMap.get_set_self, htake]) h6
        refine ⟨m', last', lw', d', h', ?_, g2, g3, g4, g5, ?_⟩
        · rw [kthLoop, if_pos hk]
          simp only [h1, hg1, h4]
          exact g1
        · intro i' j' q' hlt
          rw [g6 _ _ _ hlt, AMap.get_set, if_neg, h3 _ _ _ hlt.le]
          rintro he
          cases he
          exact lt_irrefl _ hlt
    · refine ⟨m, last, lw, d, h, ?_, hd, hlast, hget, .inl (by omega), fun _ _ _ _ => rfl⟩
      rw [kthLoop, if_neg hk]

theorem kthFinish_spec (hF : F.Ok) {K : KthFn W} {i j q k r m : Nat} (hK : KSpec F K r) (hok : F.ok i j q) (hr : F.rank i j q ≤ r)
    {last : Backtrace W} {lw : W} {d : KCache W} {h : List (W × Backtrace W)} (hd : CacheOK F d)
    (hlast : (F.L i j q)[m]? = some (last, lw)) (hget : d.get (i, j, q) = some ((F.L i j q).take (m + 1), h)) (hheap : HeapOK F i j q (m + 1) m h) :
    ∃ d', kthFinish K i j q k (m + 1) last lw d = some ((F.L i j q)[k]?, d') ∧ CacheOK F d' ∧
      ∀ i' j' q', F.rank i j q < F.rank i' j' q' → d'.get (i', j', q') = d.get (i', j', q') := by
  obtain ⟨m', last', lw', d', h', g1, g2, g3, g4, g5, g6⟩ := kthLoop_spec hF (k := k) hK hok hr (k + 1) (m := m) (by omega) hd hlast hget hheap
  refine ⟨d', ?_, g2, g6⟩
  unfold kthFinish
  simp only [g1]
  have hlen := (List.getElem?_eq_some_iff.1 g3).1
  rcases Nat.lt_trichotomy (m' + 1) (k + 1) with hlt | heq | hgt
  · rw [Nat.compare_eq_lt.2 hlt]
    simp only
    rw [List.getElem?_eq_none (by omega)]
  · rw [Nat.compare_eq_eq.2 heq]
    simp only
    rw [← Nat.succ.inj heq, g3]
  · rw [Nat.compare_eq_gt.2 hgt]
    simp only [g4]
    rw [List.getElem?_take_of_lt (by omega), List.getElem?_eq_getElem (by omega)]

/-- The candidates of all items are those of the forest. -/
def BtSpec {T : Type _} [DecidableEq T] (A : CsAutomaton T W) (chart : DenseChart W) (filter : List Bool) (F : KForest W) : Prop :=
  ∀ i j q, F.ok i j q → ∃ h, backtraces A chart filter i j q = some h ∧ BtDistinct h ∧ ∀ w b, (w, b) ∈ h ↔ b ∈ F.I i j q ∧ F.wt0 i j b = some w

theorem kth_spec {T : Type _} [DecidableEq T] {A : CsAutomaton T W} {chart : DenseChart W} {filter : List Bool} (hF : F.Ok) (hB : BtSpec A chart filter F) (fuel : Nat) :
    KSpec F (kth A chart filter fuel) fuel := by
  induction fuel with
  | zero => intro i j q k d _ h; omega
  | succ fuel ih =>
    intro i j q k d hok hr hd
    unfold kth
    cases hg : d.get (i, j, q) with
    | none =>
      obtain ⟨h, h1, h2, h3⟩ := hB i j q hok
      have hheap : HeapOK F i j q 0 0 h := by
        refine ⟨h2, fun w b => ?_⟩
        rw [h3, List.drop_zero, (hF.L_spec hok).2]
        constructor
        · rintro ⟨ha, hb⟩
          rw [hF.base ha, hF.wt0_eq hok ha]
          exact ⟨⟨ha, hb⟩, .inl ha⟩
        · rintro ⟨⟨ha, hb⟩, hc | ⟨p, hp, _⟩⟩
          · exact ⟨hc, by rw [← hF.wt0_eq hok hc]; exact hb⟩
          · simp at hp
      simp only [h1]
      rcases hheap.pop hF hok with ⟨h4, h5, h6⟩ | ⟨w, b, rest, h4, h5, h6⟩
      · simp only [h4]
        have hnil : F.L i j q = [] := List.length_eq_zero_iff.1 (by omega)
        refine ⟨d.set (i, j, q) ([], []), by rw [hnil]; rfl, hd.set hok ⟨0, Nat.zero_le _, rfl, ⟨List.Pairwise.nil, fun w b => ?_⟩, fun _ => hnil⟩, ?_⟩
        · rw [hnil]; simp
        · intro i' j' q' hlt
          rw [AMap.get_set, if_neg]
          rintro he
          cases he
          exact lt_irrefl _ hlt
      · simp only [h4]
        have hlen := (List.getElem?_eq_some_iff.1 h5).1
        have htake : [(b, w)] = (F.L i j q).take (0 + 1) := by
          rw [List.take_add_one, h5]; rfl
        obtain ⟨d', g1, g2, g3⟩ := kthFinish_spec hF (k := k) ih hok (Nat.lt_succ_iff.1 hr) (m := 0) (d := d.set (i, j, q) ([(b, w)], rest)) (hd.set hok ⟨1, by omega, htake, h6, by omega⟩) h5
          (by rw [AMap.get_set_self, ← htake]) h6
        refine ⟨d', g1, g2, ?_⟩
        intro i' j' q' hlt
        rw [g3 _ _ _ hlt, AMap.get_set, if_neg]
        rintro he
        cases he
        exact lt_irrefl _ hlt
    | some cell =>
      obtain ⟨derivs, h⟩ := cell
      obtain ⟨_, m, hm, h1, h2, h3⟩ := hd _ _ _ _ hg
      simp only at h1 h2
      subst h1
      simp only
      cases m with
      | zero =>
        rw [h3 rfl]
        exact ⟨d, rfl, hd, fun _ _ _ _ => rfl⟩
      | succ m =>
        have hlast : (F.L i j q)[m]? = some (F.L i j q)[m] := List.getElem?_eq_getElem (by omega)
        have hl : ((F.L i j q).take (m + 1)).getLast? = some (F.L i j q)[m] := by
          rw [List.take_add_one, hlast, Option.toList_some, List.getLast?_concat]
        have hlen : ((F.L i j q).take (m + 1)).length = m + 1 := by rw [List.length_take]; omega
        simp only [hl, hlen]
        exact kthFinish_spec hF ih hok (Nat.lt_succ_iff.1 hr) hd hlast hg h2

end

end Rustomata
