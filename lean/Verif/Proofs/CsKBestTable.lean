import Verif.Proofs.CsKBestForest
import Verif.Spec.CsKBest

/-!
# Tables of derivations

The state of `kth` is a table with the best derivations found so far for each item and the candidates for the next one. Items that have not been visited stand for
their best backtrace. In contrast to the lists of a ranked forest, tables are finite also if there are cycles of chain rules.
-/

namespace Rustomata
open Spec KForest

/-- The backtraces found and the candidates of an item. -/
abbrev KCell (W : Type _) := List (Backtrace W × W) × List (W × Backtrace W)

/-- The cells of all items. -/
abbrev KTab (W : Type _) := Nat → Nat → Nat → KCell W

/-- The items of a backtrace with their indices. -/
def Backtrace.parts {W : Type _} (i j : Nat) : Backtrace W → List ((Nat × Nat × Nat) × Nat)
  | .nullary _ _ => []
  | .unary _ q _ k => [((i, j, q), k)]
  | .binary _ q₁ m q₂ _ k₁ k₂ => [((i, m, q₁), k₁), ((m, j, q₂), k₂)]

/-- The number of rules in a derivation. -/
def Spec.BinTree.size : BinTree → Nat
  | .nullary _ => 1
  | .unary _ t => t.size + 1
  | .binary _ _ t₁ t₂ => t₁.size + t₂.size + 1

/-- The initial candidates of all items. -/
structure HForest (W : Type _) where
  H : Nat → Nat → Nat → List (W × Backtrace W)
  ok : Nat → Nat → Nat → Prop

section
variable {W : Type _} [RoundedWeight W]

/-- The cell after the best candidate was removed. -/
def HForest.init (F : HForest W) (i j q : Nat) : KCell W :=
  match btPop (F.H i j q) with
  | none => ([], [])
  | some ((w, b), rest) => ([(b, w)], rest)

/-- The table that a cache stands for. -/
def HForest.cell (F : HForest W) (d : KCache W) : KTab W := fun i j q => (d.get (i, j, q)).getD (F.init i j q)

/-- The lists of a table. -/
def tabL (c : KTab W) (i j q : Nat) : List (Backtrace W × W) := (c i j q).1

/-- `DenotesIn L i j b t`: the backtrace `b` for the span from `i` to `j` stands for the derivation `t`. -/
inductive DenotesIn (L : Nat → Nat → Nat → List (Backtrace W × W)) : Nat → Nat → Backtrace W → BinTree → Prop
  | nullary {i j rid : Nat} {w : W} : DenotesIn L i j (.nullary rid w) (.nullary rid)
  | unary {i j rid q k : Nat} {w : W} {p : Backtrace W × W} {t : BinTree} : (L i j q)[k]? = some p → DenotesIn L i j p.1 t →
      DenotesIn L i j (.unary rid q w k) (.unary rid t)
  | binary {i j rid q₁ m q₂ k₁ k₂ : Nat} {w : W} {p₁ p₂ : Backtrace W × W} {t₁ t₂ : BinTree} : (L i m q₁)[k₁]? = some p₁ → (L m j q₂)[k₂]? = some p₂ →
      DenotesIn L i m p₁.1 t₁ → DenotesIn L m j p₂.1 t₂ → DenotesIn L i j (.binary rid q₁ m q₂ w k₁ k₂) (.binary rid m t₁ t₂)

/-- The candidates contain the greatest weights, and the best backtraces have no cycles. -/
structure HForest.Ok (F : HForest W) : Prop where
  base : ∀ {i j q w b}, F.ok i j q → (w, b) ∈ F.H i j q → b.base = b
  dist : ∀ {i j q}, F.ok i j q → BtDistinct (F.H i j q)
  kids : ∀ {i j q w b}, F.ok i j q → (w, b) ∈ F.H i j q → ∀ c ∈ b.kids i j, F.ok c.1 c.2.1 c.2.2 ∧ F.H c.1 c.2.1 c.2.2 ≠ []
  wt : ∀ {i j q w b}, F.ok i j q → (w, b) ∈ F.H i j q → btW (listWt (tabL F.init)) i j b = some w
  den : ∀ {i j q p}, F.ok i j q → p ∈ (F.init i j q).1 → ∃ t, DenotesIn (tabL F.init) i j p.1 t

/-- The backtrace has a rule of the item. -/
def HForest.Cand (F : HForest W) (i j q : Nat) (b : Backtrace W) : Prop := ∃ w, (w, b.base) ∈ F.H i j q

/-- The backtrace has no weight since one of the parts does not have so many derivations. -/
def Dead (c : KTab W) (Fin : Nat → Nat → Nat → Prop) (i j : Nat) (b : Backtrace W) : Prop :=
  ∃ x ∈ b.parts i j, Fin x.1.1 x.1.2.1 x.1.2.2 ∧ (tabL c x.1.1 x.1.2.1 x.1.2.2).length ≤ x.2

/-- The invariant of the table; `Fin` holds for items of which all derivations have been found. -/
structure TabOk (F : HForest W) (c : KTab W) (Fin : Nat → Nat → Nat → Prop) : Prop where
  sorted : ∀ {i j q}, F.ok i j q → (c i j q).1.Pairwise fun a b => bwKey b < bwKey a
  nonempty : ∀ {i j q}, F.ok i j q → (c i j q).1 = [] → F.H i j q = []
  entry : ∀ {i j q b w}, F.ok i j q → (b, w) ∈ (c i j q).1 → F.Cand i j q b ∧ btW (listWt (tabL c)) i j b = some w
  den : ∀ {i j q p}, F.ok i j q → p ∈ (c i j q).1 → ∃ t, DenotesIn (tabL c) i j p.1 t
  dist : ∀ {i j q}, F.ok i j q → BtDistinct (c i j q).2
  heap : ∀ {i j q w b}, F.ok i j q → (w, b) ∈ (c i j q).2 → F.Cand i j q b ∧ btW (listWt (tabL c)) i j b = some w ∧ ∀ p ∈ (c i j q).1, bwKey (b, w) < bwKey p
  init : ∀ {i j q w b}, F.ok i j q → (w, b) ∈ F.H i j q → (b, w) ∈ (c i j q).1 ∨ (w, b) ∈ (c i j q).2
  succ : ∀ {i j q p b}, F.ok i j q → p ∈ (c i j q).1.dropLast → b ∈ p.1.succs → (∃ w, (b, w) ∈ (c i j q).1 ∨ (w, b) ∈ (c i j q).2) ∨ Dead c Fin i j b
  fin : ∀ {i j q}, F.ok i j q → Fin i j q → (c i j q).2 = [] ∧ ∀ p ∈ (c i j q).1, ∀ b ∈ p.1.succs, (∃ w, (b, w) ∈ (c i j q).1) ∨ Dead c Fin i j b

/-- The table has grown. -/
structure TabLe (c : KTab W) (Fin : Nat → Nat → Nat → Prop) (c' : KTab W) (Fin' : Nat → Nat → Nat → Prop) : Prop where
  pre : ∀ i j q, (c i j q).1 <+: (c' i j q).1
  fin : ∀ i j q, Fin i j q → Fin' i j q
  same : ∀ i j q, Fin i j q → (c' i j q).1 = (c i j q).1

theorem TabLe.refl {c : KTab W} {Fin} : TabLe c Fin c Fin := ⟨fun _ _ _ => List.prefix_refl _, fun _ _ _ h => h, fun _ _ _ _ => rfl⟩

theorem TabLe.trans {c c' c'' : KTab W} {Fin Fin' Fin''} (h : TabLe c Fin c' Fin') (h' : TabLe c' Fin' c'' Fin'') : TabLe c Fin c'' Fin'' :=
  ⟨fun i j q => (h.pre i j q).trans (h'.pre i j q), fun i j q hf => h'.fin _ _ _ (h.fin _ _ _ hf),
    fun i j q hf => (h'.same _ _ _ (h.fin _ _ _ hf)).trans (h.same _ _ _ hf)⟩

theorem getElem?_of_prefix {X : Type _} {l l' : List X} (h : l <+: l') {k : Nat} {p : X} (hk : l[k]? = some p) : l'[k]? = some p := by
  obtain ⟨r, rfl⟩ := h
  rw [List.getElem?_append_left (List.getElem?_eq_some_iff.1 hk).1, hk]

theorem listWt_mono {c c' : KTab W} (h : ∀ i j q, (c i j q).1 <+: (c' i j q).1) {i j q k : Nat} {w : W} (hw : listWt (tabL c) i j q k = some w) :
    listWt (tabL c') i j q k = some w := by
  unfold listWt tabL at hw ⊢
  rw [Option.map_eq_some_iff] at hw ⊢
  obtain ⟨p, hp, rfl⟩ := hw
  exact ⟨p, getElem?_of_prefix (h i j q) hp, rfl⟩

theorem btW_mono {c c' : KTab W} (h : ∀ i j q, (c i j q).1 <+: (c' i j q).1) {i j : Nat} {b : Backtrace W} {w : W} (hw : btW (listWt (tabL c)) i j b = some w) :
    btW (listWt (tabL c')) i j b = some w := by
  cases b with
  | nullary => exact hw
  | unary r q v k =>
    simp only [btW, Option.map_eq_some_iff] at hw ⊢
    obtain ⟨a, ha, rfl⟩ := hw
    exact ⟨a, listWt_mono h ha, rfl⟩
  | binary r q₁ m q₂ v k₁ k₂ =>
    simp only [btW, Option.map_eq_some_iff, Option.bind_eq_some_iff] at hw ⊢
    obtain ⟨a, ha, a', ha', rfl⟩ := hw
    exact ⟨a, listWt_mono h ha, a', listWt_mono h ha', rfl⟩

theorem DenotesIn.mono {c c' : KTab W} (h : ∀ i j q, (c i j q).1 <+: (c' i j q).1) {i j : Nat} {b : Backtrace W} {t : BinTree} (hd : DenotesIn (tabL c) i j b t) :
    DenotesIn (tabL c') i j b t := by
  induction hd with
  | nullary => exact .nullary
  | unary h1 _ ih => exact .unary (getElem?_of_prefix (h _ _ _) h1) ih
  | binary h1 h2 _ _ ih₁ ih₂ => exact .binary (getElem?_of_prefix (h _ _ _) h1) (getElem?_of_prefix (h _ _ _) h2) ih₁ ih₂

theorem DenotesIn.det {L : Nat → Nat → Nat → List (Backtrace W × W)} {i j : Nat} {b : Backtrace W} {t t' : BinTree} (h : DenotesIn L i j b t) (h' : DenotesIn L i j b t') :
    t = t' := by
  induction h generalizing t' with
  | nullary => cases h'; rfl
  | unary h1 _ ih =>
    cases h' with
    | unary h2 h3 =>
      rw [h1] at h2
      cases h2
      rw [ih h3]
  | binary h1 h2 _ _ ih₁ ih₂ =>
    cases h' with
    | binary g1 g2 g3 g4 =>
      rw [h1] at g1
      rw [h2] at g2
      cases g1
      cases g2
      rw [ih₁ g3, ih₂ g4]

theorem Dead.mono {c c' : KTab W} {Fin Fin'} (h : TabLe c Fin c' Fin') {i j : Nat} {b : Backtrace W} (hd : Dead c Fin i j b) : Dead c' Fin' i j b := by
  obtain ⟨x, hx, hf, hl⟩ := hd
  refine ⟨x, hx, h.fin _ _ _ hf, ?_⟩
  unfold tabL at hl ⊢
  rw [h.same _ _ _ hf]
  exact hl

theorem Dead.undefined {c : KTab W} {Fin} {i j : Nat} {b : Backtrace W} (hd : Dead c Fin i j b) : btW (listWt (tabL c)) i j b = none := by
  obtain ⟨x, hx, _, hl⟩ := hd
  have hn : listWt (tabL c) x.1.1 x.1.2.1 x.1.2.2 x.2 = none := by
    unfold listWt
    rw [List.getElem?_eq_none hl]
    rfl
  cases b with
  | nullary => simp [Backtrace.parts] at hx
  | unary r q v k =>
    simp only [Backtrace.parts, List.mem_singleton] at hx
    subst hx
    simp only [btW, hn, Option.map_none]
  | binary r q₁ m q₂ v k₁ k₂ =>
    simp only [Backtrace.parts, List.mem_cons, List.not_mem_nil, or_false] at hx
    rcases hx with rfl | rfl
    · simp only [btW, hn, Option.bind_none]
    · simp only [btW, hn, Option.map_none]
      cases listWt (tabL c) i m q₁ k₁ <;> rfl

namespace TabOk
variable {F : HForest W} {c : KTab W} {Fin : Nat → Nat → Nat → Prop}

theorem kids (hF : F.Ok) {i j q : Nat} (hok : F.ok i j q) {b : Backtrace W} (hb : F.Cand i j q b) : ∀ c ∈ b.kids i j, F.ok c.1 c.2.1 c.2.2 ∧ F.H c.1 c.2.1 c.2.2 ≠ [] := by
  obtain ⟨w, hw⟩ := hb
  have := hF.kids hok hw
  rw [Backtrace.kids_base] at this
  exact this

theorem L_lt (hc : TabOk F c Fin) {i j q k k' : Nat} (hok : F.ok i j q) {p p' : Backtrace W × W} (hp : (tabL c i j q)[k]? = some p) (hp' : (tabL c i j q)[k']? = some p')
    (h : k < k') : bwKey p' < bwKey p := by
  obtain ⟨h1, rfl⟩ := List.getElem?_eq_some_iff.1 hp
  obtain ⟨h2, rfl⟩ := List.getElem?_eq_some_iff.1 hp'
  exact List.pairwise_iff_getElem.1 (hc.sorted hok) k k' h1 h2 h

theorem L_le (hc : TabOk F c Fin) {i j q k k' : Nat} (hok : F.ok i j q) {w w' : W} (hp : listWt (tabL c) i j q k = some w) (hp' : listWt (tabL c) i j q k' = some w')
    (h : k ≤ k') : w' ≤ w := by
  unfold listWt at hp hp'
  rw [Option.map_eq_some_iff] at hp hp'
  obtain ⟨p, hp, rfl⟩ := hp
  obtain ⟨p', hp', rfl⟩ := hp'
  rcases Nat.eq_or_lt_of_le h with rfl | h
  · rw [hp] at hp'
    rw [Option.some.inj hp']
  · exact snd_le_of_bwKey (hc.L_lt hok hp hp' h).le

theorem index (hc : TabOk F c Fin) {i j q k k' : Nat} (hok : F.ok i j q) {p : Backtrace W × W} (h : (tabL c i j q)[k]? = some p) (h' : (tabL c i j q)[k']? = some p) : k = k' := by
  rcases Nat.lt_trichotomy k k' with hlt | heq | hgt
  · exact absurd (hc.L_lt hok h h' hlt) (lt_irrefl _)
  · exact heq
  · exact absurd (hc.L_lt hok h' h hgt) (lt_irrefl _)

/-- Backtraces with the same key are equal. -/
theorem key_inj (hF : F.Ok) {i j q : Nat} (hok : F.ok i j q) {b b' : Backtrace W} (hb : F.Cand i j q b) (hb' : F.Cand i j q b') (h : b.key = b'.key) : b = b' := by
  obtain ⟨w, hw⟩ := hb
  obtain ⟨w', hw'⟩ := hb'
  refine Backtrace.eq_of_base_key ?_ h
  by_contra hne
  have hd := hF.dist hok
  have hne' : (w, b.base) ≠ (w', b'.base) := fun he => hne (congrArg Prod.snd he)
  haveI : Std.Symm fun x y : W × Backtrace W => x.2.key ≠ y.2.key := ⟨fun _ _ h => h.symm⟩
  exact List.Pairwise.forall hd hw hw' hne' (Backtrace.base_key h)

/-- Successors have smaller weights. -/
theorem succ_le (hF : F.Ok) (hc : TabOk F c Fin) {i j q : Nat} (hok : F.ok i j q) {b b' : Backtrace W} {w : W} (hb : F.Cand i j q b) (hs : b' ∈ b.succs)
    (h : btW (listWt (tabL c)) i j b' = some w) : ∃ w', btW (listWt (tabL c)) i j b = some w' ∧ w ≤ w' := by
  have hk := kids hF hok hb
  cases b with
  | nullary => simp [Backtrace.succs] at hs
  | unary r q₁ v k =>
    simp only [Backtrace.succs, List.mem_singleton] at hs
    subst hs
    simp only [btW, Option.map_eq_some_iff] at h ⊢
    obtain ⟨a, ha, rfl⟩ := h
    obtain ⟨a', ha'⟩ := listWt_of_le ha (Nat.le_succ k)
    have := hk (i, j, q₁) (by simp [Backtrace.kids])
    exact ⟨_, ⟨a', ha', rfl⟩, mul_le_mul_right (hc.L_le this.1 ha' ha (Nat.le_succ _)) v⟩
  | binary r q₁ m q₂ v k₁ k₂ =>
    have h1 := hk (i, m, q₁) (by simp [Backtrace.kids])
    have h2 := hk (m, j, q₂) (by simp [Backtrace.kids])
    simp only [Backtrace.succs, List.mem_cons, List.not_mem_nil, or_false] at hs
    rcases hs with rfl | rfl <;> simp only [btW, Option.map_eq_some_iff, Option.bind_eq_some_iff] at h ⊢ <;> obtain ⟨a, ha, c, hc', rfl⟩ := h
    · obtain ⟨c', hc''⟩ := listWt_of_le hc' (Nat.le_succ k₂)
      exact ⟨_, ⟨a, ha, c', hc'', rfl⟩, mul_le_mul_right (hc.L_le h2.1 hc'' hc' (Nat.le_succ _)) _⟩
    · obtain ⟨a', ha'⟩ := listWt_of_le ha (Nat.le_succ k₁)
      exact ⟨_, ⟨a', ha', c, hc', rfl⟩, mul_le_mul_left (mul_le_mul_right (hc.L_le h1.1 ha' ha (Nat.le_succ _)) v) c⟩

theorem bwKey_lt_of {b b' : Backtrace W} {w w' : W} (hs : b' ∈ b.succs) (h : w' ≤ w) : bwKey (b', w') < bwKey (b, w) := by
  unfold bwKey
  rw [Prod.Lex.toLex_lt_toLex]
  rcases h.lt_or_eq with h | h
  · exact .inl h
  · exact .inr ⟨h, Backtrace.key_succs hs⟩

/-- Successors of backtraces in the list come later. -/
theorem succ_lt (hF : F.Ok) (hc : TabOk F c Fin) {i j q : Nat} (hok : F.ok i j q) {b b' : Backtrace W} {w w' : W} (hb : (b, w) ∈ (c i j q).1) (hs : b' ∈ b.succs)
    (h : btW (listWt (tabL c)) i j b' = some w') : bwKey (b', w') < bwKey (b, w) := by
  obtain ⟨h1, h2⟩ := hc.entry hok hb
  obtain ⟨w₂, hw₂, hle⟩ := succ_le hF hc hok h1 hs h
  rw [h2] at hw₂
  cases hw₂
  exact bwKey_lt_of hs hle

/-- Backtraces with nonzero indices are successors. -/
theorem pred (hF : F.Ok) (hc : TabOk F c Fin) {i j q : Nat} (hok : F.ok i j q) {b : Backtrace W} {w : W} (hb : F.Cand i j q b) (hw : btW (listWt (tabL c)) i j b = some w) :
    b = b.base ∨ ∃ b' w', F.Cand i j q b' ∧ btW (listWt (tabL c)) i j b' = some w' ∧ b ∈ b'.succs ∧ bwKey (b, w) < bwKey (b', w') := by
  have key : ∀ b' : Backtrace W, b'.base = b.base → b ∈ b'.succs →
      ∃ b' w', F.Cand i j q b' ∧ btW (listWt (tabL c)) i j b' = some w' ∧ b ∈ b'.succs ∧ bwKey (b, w) < bwKey (b', w') := by
    intro b' he hs
    have hb' : F.Cand i j q b' := by
      unfold HForest.Cand
      rw [he]
      exact hb
    obtain ⟨w', hw', hle⟩ := succ_le hF hc hok hb' hs hw
    exact ⟨b', w', hb', hw', hs, bwKey_lt_of hs hle⟩
  cases b with
  | nullary => exact .inl rfl
  | unary r q₁ v k =>
    cases k with
    | zero => exact .inl rfl
    | succ k => exact .inr (key (.unary r q₁ v k) rfl (by simp [Backtrace.succs]))
  | binary r q₁ m q₂ v k₁ k₂ =>
    cases k₂ with
    | succ k₂ => exact .inr (key (.binary r q₁ m q₂ v k₁ k₂) rfl (by simp [Backtrace.succs]))
    | zero =>
      cases k₁ with
      | zero => exact .inl rfl
      | succ k₁ => exact .inr (key (.binary r q₁ m q₂ v k₁ 0) rfl (by simp [Backtrace.succs]))

/-- The best weights are those of the initial candidates. -/
theorem init_wt (hF : F.Ok) (hc : TabOk F c Fin) {i j q : Nat} (hok : F.ok i j q) {b : Backtrace W} {w : W} (h : (w, b) ∈ F.H i j q) : btW (listWt (tabL c)) i j b = some w := by
  rcases hc.init hok h with h | h
  · exact (hc.entry hok h).2
  · exact (hc.heap hok h).2.1

/-- The sum of the indices. -/
def idx : Backtrace W → Nat
  | .nullary _ _ => 0
  | .unary _ _ _ k => k
  | .binary _ _ _ _ _ k₁ k₂ => k₁ + k₂

omit [RoundedWeight W] in
theorem idx_succs {b b' : Backtrace W} (h : b' ∈ b.succs) : idx b' = idx b + 1 := by
  cases b with
  | nullary => simp [Backtrace.succs] at h
  | unary =>
    simp only [Backtrace.succs, List.mem_singleton] at h
    subst h; rfl
  | binary =>
    simp only [Backtrace.succs, List.mem_cons, List.not_mem_nil, or_false] at h
    rcases h with rfl | rfl <;> simp [idx] <;> omega

/-- A backtrace that has a weight and is not in the list comes after all elements of the list. -/
theorem later (hF : F.Ok) (hc : TabOk F c Fin) {i j q : Nat} (hok : F.ok i j q) (n : Nat) : ∀ {b : Backtrace W} {w : W}, idx b = n → F.Cand i j q b →
    btW (listWt (tabL c)) i j b = some w → (b, w) ∉ (c i j q).1 → ∀ p ∈ (c i j q).1, bwKey (b, w) < bwKey p := by
  induction n with
  | zero =>
    intro b w hn hb hw hnot
    rcases pred hF hc hok hb hw with h | ⟨b', w', _, _, hs, _⟩
    · obtain ⟨w₀, h₀⟩ := hb
      rw [← h] at h₀
      have := hc.init_wt hF hok h₀
      rw [hw] at this
      cases this
      rcases hc.init hok h₀ with h | h
      · exact absurd h hnot
      · exact (hc.heap hok h).2.2
    · have := idx_succs hs
      omega
  | succ n ih =>
    intro b w hn hb hw hnot
    rcases pred hF hc hok hb hw with h | ⟨b', w', hb', hw', hs, hlt⟩
    · rw [h] at hn
      cases b <;> simp [Backtrace.base, idx] at hn
    · by_cases hin : (b', w') ∈ (c i j q).1
      · -- either `b'` is the last one or its successors have been evaluated
        obtain ⟨l, p, hl⟩ : ∃ l p, (c i j q).1 = l ++ [p] := ⟨_, _, (List.dropLast_append_getLast (List.ne_nil_of_mem hin)).symm⟩
        have hin' := hin
        rw [hl, List.mem_append, List.mem_singleton] at hin'
        rcases hin' with h | h
        · have hd : (b', w') ∈ (c i j q).1.dropLast := by rw [hl, List.dropLast_concat]; exact h
          rcases hc.succ hok hd hs with ⟨w₂, h | h⟩ | h
          · have := (hc.entry hok h).2
            rw [hw] at this
            cases this
            exact absurd h hnot
          · have := (hc.heap hok h).2.1
            rw [hw] at this
            cases this
            exact (hc.heap hok h).2.2
          · rw [h.undefined] at hw
            cases hw
        · intro x hx
          rw [hl, List.mem_append, List.mem_singleton] at hx
          rcases hx with hx | rfl
          · have := hc.sorted hok
            rw [hl, List.pairwise_append] at this
            have := this.2.2 x hx p (by simp)
            rw [← h] at this
            exact hlt.trans this
          · rw [← h]
            exact hlt
      · intro p hp
        exact hlt.trans (ih (by have := idx_succs hs; omega) hb' hw' hin p hp)

/-- A backtrace whose parts are listed stands for a derivation. -/
theorem denotes_of_weight (hF : F.Ok) (hc : TabOk F c Fin) {i j q : Nat} (hok : F.ok i j q) {b : Backtrace W} {w : W} (hb : F.Cand i j q b)
    (hw : btW (listWt (tabL c)) i j b = some w) : ∃ t, DenotesIn (tabL c) i j b t := by
  have hk := kids hF hok hb
  cases b with
  | nullary => exact ⟨_, .nullary⟩
  | unary r q₁ v k =>
    simp only [btW, listWt, Option.map_eq_some_iff] at hw
    obtain ⟨_, ⟨p, hp, rfl⟩, rfl⟩ := hw
    obtain ⟨t, ht⟩ := hc.den (hk (i, j, q₁) (by simp [Backtrace.kids])).1 (List.mem_of_getElem? hp)
    exact ⟨_, .unary hp ht⟩
  | binary r q₁ m q₂ v k₁ k₂ =>
    simp only [btW, listWt, Option.map_eq_some_iff, Option.bind_eq_some_iff] at hw
    obtain ⟨_, ⟨p₁, hp₁, rfl⟩, _, ⟨p₂, hp₂, rfl⟩, rfl⟩ := hw
    obtain ⟨t₁, ht₁⟩ := hc.den (hk (i, m, q₁) (by simp [Backtrace.kids])).1 (List.mem_of_getElem? hp₁)
    obtain ⟨t₂, ht₂⟩ := hc.den (hk (m, j, q₂) (by simp [Backtrace.kids])).1 (List.mem_of_getElem? hp₂)
    exact ⟨_, .binary hp₁ hp₂ ht₁ ht₂⟩

end TabOk

/-- The initial table is correct. -/
theorem HForest.Ok.initial {F : HForest W} (hF : F.Ok) : TabOk F F.init fun _ _ _ => False := by
  have hinit : ∀ i j q, ((F.init i j q).1 = [] ∧ (F.init i j q).2 = [] ∧ F.H i j q = []) ∨
      ∃ w b r, F.init i j q = ([(b, w)], r) ∧ (F.H i j q).Perm ((w, b) :: r) ∧ ∀ y ∈ r, btKey y ≤ btKey (w, b) := by
    intro i j q
    unfold HForest.init
    cases h : btPop (F.H i j q) with
    | none => exact .inl ⟨rfl, rfl, btPop_none.1 h⟩
    | some x =>
      obtain ⟨⟨w, b⟩, r⟩ := x
      obtain ⟨h1, h2⟩ := btPop_some h
      exact .inr ⟨w, b, r, rfl, h1, h2⟩
  have hcand : ∀ {i j q w b}, F.ok i j q → (w, b) ∈ F.H i j q → F.Cand i j q b := fun hok h => ⟨_, by rw [hF.base hok h]; exact h⟩
  constructor
  · intro i j q hok
    rcases hinit i j q with ⟨h, _⟩ | ⟨w, b, r, h, _⟩ <;> rw [h] <;> simp
  · intro i j q hok hl
    rcases hinit i j q with ⟨_, _, h⟩ | ⟨w, b, r, h, _⟩
    · exact h
    · rw [h] at hl
      simp at hl
  · intro i j q b w hok hm
    rcases hinit i j q with ⟨h, _⟩ | ⟨w', b', r, h, hp, _⟩
    · rw [h] at hm
      simp at hm
    · rw [h] at hm
      simp only [List.mem_singleton] at hm
      cases hm
      have : (w, b) ∈ F.H i j q := hp.mem_iff.2 (by simp)
      exact ⟨hcand hok this, hF.wt hok this⟩
  · exact fun hok hp => hF.den hok hp
  · intro i j q hok
    rcases hinit i j q with ⟨_, h, _⟩ | ⟨w, b, r, h, hp, _⟩
    · rw [h]
      exact List.Pairwise.nil
    · rw [h]
      have := (hp.pairwise_iff (R := fun x y : W × Backtrace W => x.2.key ≠ y.2.key) fun h => h.symm).1 (hF.dist hok)
      exact (List.pairwise_cons.1 this).2
  · intro i j q w b hok hm
    rcases hinit i j q with ⟨_, h, _⟩ | ⟨w', b', r, h, hp, hmax⟩
    · rw [h] at hm
      simp at hm
    · rw [h] at hm ⊢
      simp only at hm ⊢
      have hH : (w, b) ∈ F.H i j q := hp.mem_iff.2 (by simp [hm])
      refine ⟨hcand hok hH, hF.wt hok hH, fun p hp' => ?_⟩
      rw [List.mem_singleton] at hp'
      subst hp'
      have hd := (hp.pairwise_iff (R := fun x y : W × Backtrace W => x.2.key ≠ y.2.key) fun h => h.symm).1 (hF.dist hok)
      have hne := (List.pairwise_cons.1 hd).1 _ hm
      refine lt_of_le_of_ne (hmax _ hm) fun he => ?_
      have : w = w' ∧ b.key = b'.key := by simpa [bwKey] using he
      exact hne this.2.symm
  · intro i j q w b hok hm
    rcases hinit i j q with ⟨_, _, h⟩ | ⟨w', b', r, h, hp, hmax⟩
    · rw [h] at hm
      simp at hm
    · rw [h]
      rcases List.mem_cons.1 (hp.mem_iff.1 hm) with h | h
      · cases h
        exact .inl (by simp)
      · exact .inr h
  · intro i j q p b hok hm
    rcases hinit i j q with ⟨h, _⟩ | ⟨w', b', r, h, _⟩ <;> rw [h] at hm <;> simp at hm
  · intro i j q hok h
    exact h.elim

end

end Rustomata
