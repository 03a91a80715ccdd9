import Verif.Proofs.CsKBestFill

/-!
# The enumeration for charts with arbitrary weights

If the weights in the chart are not the greatest weights of the derivations, then the lists of `kth` are not sorted and a backtrace may be listed more than once. For
each item, the list is given by a process that removes the greatest candidate and adds its successors.
-/

namespace Rustomata
open Spec KForest

/-- The sum of the indices. -/
def Backtrace.depth {W : Type _} : Backtrace W → Nat
  | nullary _ _ => 0
  | unary _ _ _ k => k
  | binary _ _ _ _ _ k₁ k₂ => k₁ + k₂

theorem Backtrace.depth_succs {W : Type _} {b b' : Backtrace W} (h : b' ∈ b.succs) : b'.depth = b.depth + 1 := by
  cases b with
  | nullary => simp [succs] at h
  | unary =>
    simp only [succs, List.mem_singleton] at h
    subst h; rfl
  | binary =>
    simp only [succs, List.mem_cons, List.not_mem_nil, or_false] at h
    rcases h with rfl | rfl <;> simp only [depth] <;> omega

section
variable {W : Type _} [RoundedWeight W]

/-- The backtraces that have a weight. -/
def weighted (val : Backtrace W → Option W) (bs : List (Backtrace W)) : List (Backtrace W × W) := bs.filterMap fun b => (val b).map fun w => (b, w)

omit [RoundedWeight W] in
theorem mem_weighted {val : Backtrace W → Option W} {bs : List (Backtrace W)} {b : Backtrace W} {w : W} : (b, w) ∈ weighted val bs ↔ b ∈ bs ∧ val b = some w := by
  unfold weighted
  rw [List.mem_filterMap]
  constructor
  · rintro ⟨b', h, he⟩
    rw [Option.map_eq_some_iff] at he
    obtain ⟨w', h', he⟩ := he
    cases he
    exact ⟨h, h'⟩
  · rintro ⟨h, h'⟩
    exact ⟨b, h, by rw [h']; rfl⟩

/-- The candidates after the successors of the last backtrace are added. -/
def pushAll (h : List (W × Backtrace W)) (new : List (Backtrace W × W)) : List (W × Backtrace W) := new.foldl (fun h c => btPush h c.1 c.2) h

/-- The successors of the last backtrace. -/
def succsOf : Option (Backtrace W) → List (Backtrace W)
  | none => []
  | some b => b.succs

/-- The process: the successors of the last backtrace are added and the greatest candidate is removed. -/
inductive Emits (val : Backtrace W → Option W) : Option (Backtrace W) → List (W × Backtrace W) → List (Backtrace W × W) → Prop
  | done {last h} : btPop (pushAll h (weighted val (succsOf last))) = none → Emits val last h []
  | step {last h w b rest l} : btPop (pushAll h (weighted val (succsOf last))) = some ((w, b), rest) → Emits val (some b) rest l → Emits val last h ((b, w) :: l)

theorem Emits.det {val : Backtrace W → Option W} {last : Option (Backtrace W)} {h : List (W × Backtrace W)} {l l' : List (Backtrace W × W)}
    (he : Emits val last h l) (he' : Emits val last h l') : l = l' := by
  induction he generalizing l' with
  | done h1 =>
    cases he' with
    | done => rfl
    | step h2 _ => rw [h1] at h2; cases h2
  | step h1 _ ih =>
    cases he' with
    | done h2 => rw [h1] at h2; cases h2
    | step h2 h3 =>
      rw [h1] at h2
      cases h2
      rw [ih h3]

omit [RoundedWeight W] in
theorem pushAll_sub (new : List (Backtrace W × W)) : ∀ {h : List (W × Backtrace W)} {x : W × Backtrace W}, x ∈ h → x ∈ pushAll h new := by
  induction new with
  | nil => intro h x hx; exact hx
  | cons c new ih =>
    intro h x hx
    exact ih (mem_btPush.2 (.inl hx))

omit [RoundedWeight W] in
theorem pushAll_mem (new : List (Backtrace W × W)) : ∀ {h : List (W × Backtrace W)} {x : W × Backtrace W}, x ∈ pushAll h new → x ∈ h ∨ (x.2, x.1) ∈ new := by
  induction new with
  | nil => intro h x hx; exact .inl hx
  | cons c new ih =>
    intro h x hx
    rcases ih hx with hx | hx
    · rw [mem_btPush] at hx
      rcases hx with hx | ⟨rfl, _⟩
      · exact .inl hx
      · exact .inr (List.mem_cons_self ..)
    · exact .inr (List.mem_cons_of_mem _ hx)

omit [RoundedWeight W] in
theorem pushAll_new (new : List (Backtrace W × W)) : ∀ {h : List (W × Backtrace W)} {c : Backtrace W × W}, c ∈ new → ∃ y ∈ pushAll h new, y.2.key = c.1.key := by
  induction new with
  | nil => intro h c hc; cases hc
  | cons c' new ih =>
    intro h c hc
    rw [List.mem_cons] at hc
    rcases hc with rfl | hc
    · by_cases hy : ∃ y ∈ h, y.2.key = c.1.key
      · obtain ⟨y, h1, h2⟩ := hy
        exact ⟨y, pushAll_sub (h := btPush h c.1 c.2) new (mem_btPush.2 (.inl h1)), h2⟩
      · push Not at hy
        exact ⟨(c.2, c.1), pushAll_sub (h := btPush h c.1 c.2) new (mem_btPush.2 (.inr ⟨rfl, hy⟩)), rfl⟩
    · exact ih hc

omit [RoundedWeight W] in
theorem pushAll_sum (f : Backtrace W → Nat) (new : List (Backtrace W × W)) : ∀ h : List (W × Backtrace W),
    ((pushAll h new).map fun x => f x.2).sum ≤ (h.map fun x => f x.2).sum + (new.map fun c => f c.1).sum := by
  induction new with
  | nil => intro h; simp [pushAll]
  | cons c new ih =>
    intro h
    have := ih (btPush h c.1 c.2)
    rw [show pushAll h (c :: new) = pushAll (btPush h c.1 c.2) new from rfl, List.map_cons, List.sum_cons]
    have hb : ((btPush h c.1 c.2).map fun x => f x.2).sum ≤ (h.map fun x => f x.2).sum + f c.1 := by
      unfold btPush
      split
      · omega
      · simp
    omega

/-- A set of backtraces that contains the successors of its elements. -/
def SuccClosed (P : Backtrace W → Prop) : Prop := ∀ b, P b → ∀ b' ∈ b.succs, P b'

omit [RoundedWeight W] in
theorem succsOf_closed {P : Backtrace W → Prop} (hP : SuccClosed P) {last : Option (Backtrace W)} (hl : ∀ b, last = some b → P b) : ∀ b ∈ succsOf last, P b := by
  intro b hb
  cases last with
  | none => cases hb
  | some b₀ => exact hP _ (hl _ rfl) _ hb

omit [RoundedWeight W] in
theorem pushAll_closed {P : Backtrace W → Prop} (hP : SuccClosed P) {val : Backtrace W → Option W} {last : Option (Backtrace W)} {h : List (W × Backtrace W)}
    (hl : ∀ b, last = some b → P b) (hh : ∀ x ∈ h, P x.2) : ∀ x ∈ pushAll h (weighted val (succsOf last)), P x.2 := by
  intro x hx
  rcases pushAll_mem _ hx with hx | hx
  · exact hh x hx
  · exact succsOf_closed hP hl _ (mem_weighted.1 hx).1

theorem Emits.congr {P : Backtrace W → Prop} (hP : SuccClosed P) {val val' : Backtrace W → Option W} (hv : ∀ b, P b → val b = val' b) {last : Option (Backtrace W)}
    {h : List (W × Backtrace W)} {l : List (Backtrace W × W)} (he : Emits val last h l) (hl : ∀ b, last = some b → P b) (hh : ∀ x ∈ h, P x.2) : Emits val' last h l := by
  have hw : ∀ last : Option (Backtrace W), (∀ b, last = some b → P b) → weighted val (succsOf last) = weighted val' (succsOf last) := by
    intro last hl
    unfold weighted
    refine List.filterMap_congr fun b hb => ?_
    rw [hv b (succsOf_closed hP hl b hb)]
  induction he with
  | @done last h h1 =>
    rw [hw _ hl] at h1
    exact .done h1
  | @step last h w b rest l h1 _ ih =>
    have hc := pushAll_closed (val := val) hP hl hh
    obtain ⟨hperm, _⟩ := btPop_some h1
    rw [hw _ hl] at h1
    refine .step h1 (ih ?_ ?_)
    · rintro b' ⟨⟩
      exact hc (w, b) (hperm.mem_iff.2 (List.mem_cons_self ..))
    · intro x hx
      exact hc x (hperm.mem_iff.2 (List.mem_cons_of_mem _ hx))

/-- The process ends, if the depth of the backtraces with a weight is bounded. -/
theorem emits_exists {P : Backtrace W → Prop} (hP : SuccClosed P) {val : Backtrace W → Option W} {D : Nat} (hD : ∀ b w, P b → val b = some w → b.depth < D)
    (last : Option (Backtrace W)) (h : List (W × Backtrace W)) (hl : ∀ b, last = some b → P b) (hh : ∀ x ∈ h, P x.2) : ∃ l, Emits val last h l := by
  generalize hμ : (h.map fun x => 3 ^ (D - x.2.depth)).sum + ((weighted val (succsOf last)).map fun c => 3 ^ (D - c.1.depth)).sum = μ
  induction μ using Nat.strong_induction_on generalizing last h with
  | _ μ ih =>
    cases hp : btPop (pushAll h (weighted val (succsOf last))) with
    | none => exact ⟨[], .done hp⟩
    | some x =>
      obtain ⟨⟨w, b⟩, rest⟩ := x
      have hc := pushAll_closed (val := val) hP hl hh
      obtain ⟨hperm, _⟩ := btPop_some hp
      have hPb : P b := hc (w, b) (hperm.mem_iff.2 (List.mem_cons_self ..))
      have hsum := pushAll_sum (fun b => 3 ^ (D - b.depth)) (weighted val (succsOf last)) h
      have heq := (hperm.map fun x => 3 ^ (D - x.2.depth)).sum_eq
      rw [List.map_cons, List.sum_cons] at heq
      simp only at heq
      have hlt : ((weighted val b.succs).map fun c => 3 ^ (D - c.1.depth)).sum < 3 ^ (D - b.depth) := by
        have hone : ∀ b' ∈ b.succs, ∀ w', val b' = some w' → 3 * 3 ^ (D - b'.depth) = 3 ^ (D - b.depth) := by
          intro b' hb' w' hw'
          have h1 := hD b' w' (hP _ hPb _ hb') hw'
          have h2 := Backtrace.depth_succs hb'
          rw [show D - b.depth = (D - b'.depth) + 1 by omega, pow_succ]
          omega
        have hpos : ∀ k, 0 < 3 ^ k := fun k => Nat.pos_of_ne_zero (by positivity)
        cases b with
        | nullary => simp [Backtrace.succs, weighted]
        | unary r q v k =>
          simp only [Backtrace.succs, List.mem_singleton, forall_eq] at hone
          simp only [Backtrace.succs, weighted, List.filterMap_cons, List.filterMap_nil]
          cases hv : val (.unary r q v (k + 1)) with
          | none => simp
          | some v' =>
            have := hone v' hv
            have := hpos (D - (Backtrace.unary r q v (k + 1)).depth)
            simp only [Option.map_some, List.map_cons, List.map_nil, List.sum_cons, List.sum_nil]
            omega
        | binary r q₁ m q₂ v k₁ k₂ =>
          simp only [Backtrace.succs, List.mem_cons, List.not_mem_nil, or_false, forall_eq_or_imp, forall_eq] at hone
          simp only [Backtrace.succs, weighted, List.filterMap_cons, List.filterMap_nil]
          have p0 := hpos (D - (Backtrace.binary r q₁ m q₂ v k₁ k₂).depth)
          have p1 := hpos (D - (Backtrace.binary r q₁ m q₂ v k₁ (k₂ + 1)).depth)
          have p2 := hpos (D - (Backtrace.binary r q₁ m q₂ v (k₁ + 1) k₂).depth)
          cases hv₁ : val (.binary r q₁ m q₂ v k₁ (k₂ + 1)) with
          | none =>
            cases hv₂ : val (.binary r q₁ m q₂ v (k₁ + 1) k₂) with
            | none => simp
            | some v₂ =>
              have := hone.2 v₂ hv₂
              simp only [Option.map_some, Option.map_none, List.map_cons, List.map_nil, List.sum_cons, List.sum_nil]
              omega
          | some v₁ =>
            have := hone.1 v₁ hv₁
            cases hv₂ : val (.binary r q₁ m q₂ v (k₁ + 1) k₂) with
            | none =>
              simp only [Option.map_some, Option.map_none, List.map_cons, List.map_nil, List.sum_cons, List.sum_nil]
              omega
            | some v₂ =>
              have := hone.2 v₂ hv₂
              simp only [Option.map_some, List.map_cons, List.map_nil, List.sum_cons, List.sum_nil]
              omega
      obtain ⟨l, hl'⟩ := ih _ (by rw [← hμ, show succsOf (some b) = b.succs from rfl]; omega) (some b) rest (by rintro b' ⟨⟩; exact hPb)
        (fun x hx => hc x (hperm.mem_iff.2 (List.mem_cons_of_mem _ hx))) rfl
      exact ⟨_, .step hp hl'⟩

theorem Emits.mem {P : Backtrace W → Prop} (hP : SuccClosed P) {val : Backtrace W → Option W} {last : Option (Backtrace W)} {h : List (W × Backtrace W)}
    {l : List (Backtrace W × W)} (he : Emits val last h l) (hl : ∀ b, last = some b → P b) (hh : ∀ x ∈ h, P x.2) :
    ∀ b w, (b, w) ∈ l → P b ∧ ((w, b) ∈ h ∨ val b = some w) := by
  induction he with
  | done => intro b w hb; cases hb
  | @step last h w b rest l h1 _ ih =>
    have hc := pushAll_closed (val := val) hP hl hh
    obtain ⟨hperm, _⟩ := btPop_some h1
    have hm : ∀ x ∈ (w, b) :: rest, P x.2 ∧ (x ∈ h ∨ val x.2 = some x.1) := by
      intro x hx
      have hx := hperm.mem_iff.2 hx
      refine ⟨hc x hx, ?_⟩
      rcases pushAll_mem _ hx with hx | hx
      · exact .inl hx
      · exact .inr (mem_weighted.1 hx).2
    intro b' w' hb'
    rw [List.mem_cons] at hb'
    rcases hb' with hb' | hb'
    · cases hb'
      exact hm _ (List.mem_cons_self ..)
    · obtain ⟨g1, g2⟩ := ih (by rintro b₀ ⟨⟩; exact (hm _ (List.mem_cons_self ..)).1) (fun x hx => (hm x (List.mem_cons_of_mem _ hx)).1) b' w' hb'
      rcases g2 with g2 | g2
      · exact hm _ (List.mem_cons_of_mem _ g2)
      · exact ⟨g1, .inr g2⟩

/-- All candidates are removed at some time. -/
theorem Emits.heap {val : Backtrace W → Option W} {last : Option (Backtrace W)} {h : List (W × Backtrace W)}
    {l : List (Backtrace W × W)} (he : Emits val last h l) : ∀ x ∈ h, (x.2, x.1) ∈ l := by
  induction he with
  | @done last h h1 =>
    intro x hx
    have := pushAll_sub (weighted val (succsOf last)) hx
    rw [btPop_none.1 h1] at this
    cases this
  | @step last h w b rest l h1 _ ih =>
    intro x hx
    have := (btPop_some h1).1.mem_iff.1 (pushAll_sub _ hx)
    rw [List.mem_cons] at this
    rcases this with rfl | this
    · exact List.mem_cons_self ..
    · exact List.mem_cons_of_mem _ (ih x this)

/-- The successors that have a weight are listed as well. -/
theorem Emits.succs {P : Backtrace W → Prop} (hP : SuccClosed P) (hinj : ∀ b b', P b → P b' → b.key = b'.key → b = b') {val : Backtrace W → Option W}
    {last : Option (Backtrace W)} {h : List (W × Backtrace W)}
    {l : List (Backtrace W × W)} (he : Emits val last h l) (hl : ∀ b, last = some b → P b) (hh : ∀ x ∈ h, P x.2) :
    ∀ b, (last = some b ∨ ∃ w, (b, w) ∈ l) → ∀ b' ∈ b.succs, ∀ v, val b' = some v → ∃ w, (b', w) ∈ l := by
  have key : ∀ {last : Option (Backtrace W)} {h : List (W × Backtrace W)}, (∀ b, last = some b → P b) → (∀ x ∈ h, P x.2) → ∀ b, last = some b →
      ∀ b' ∈ b.succs, ∀ v, val b' = some v → ∃ w, (w, b') ∈ pushAll h (weighted val (succsOf last)) := by
    intro last h hl hh b hb b' hb' v hv
    subst hb
    obtain ⟨y, h1, h2⟩ := pushAll_new (weighted val (succsOf (some b))) (h := h) (mem_weighted.2 ⟨hb', hv⟩)
    have := hinj _ _ (pushAll_closed hP hl hh y h1) (hP _ (hl _ rfl) _ hb') h2
    subst this
    exact ⟨y.1, h1⟩
  induction he with
  | done h1 =>
    rintro b (hb | ⟨w, hb⟩) b' hb' v hv
    · obtain ⟨w, hw⟩ := key hl hh b hb b' hb' v hv
      rw [btPop_none.1 h1] at hw
      cases hw
    · cases hb
  | @step last h w b rest l h1 he ih =>
    have hc := pushAll_closed (val := val) hP hl hh
    obtain ⟨hperm, _⟩ := btPop_some h1
    have ih := ih (by rintro b₀ ⟨⟩; exact hc (w, b) (hperm.mem_iff.2 (List.mem_cons_self ..))) fun x hx => hc x (hperm.mem_iff.2 (List.mem_cons_of_mem _ hx))
    rintro b₀ (hb₀ | ⟨w₀, hb₀⟩) b' hb' v hv
    · obtain ⟨w', hw'⟩ := key hl hh b₀ hb₀ b' hb' v hv
      have := hperm.mem_iff.1 hw'
      rw [List.mem_cons] at this
      rcases this with hx | hx
      · cases hx
        exact ⟨_, List.mem_cons_self ..⟩
      · exact ⟨w', List.mem_cons_of_mem _ (he.heap _ hx)⟩
    · rw [List.mem_cons] at hb₀
      have : some b = some b₀ ∨ ∃ w, (b₀, w) ∈ l := by
        rcases hb₀ with hb₀ | hb₀
        · cases hb₀; exact .inl rfl
        · exact .inr ⟨w₀, hb₀⟩
      obtain ⟨w', hw'⟩ := ih b₀ this b' hb' v hv
      exact ⟨w', List.mem_cons_of_mem _ hw'⟩

/-! ### The lists of all items -/

/-- Ranked forests with the initial candidates `h0`; each item in the chart has a candidate. -/
structure HeapForest (F : KForest W) (h0 : Nat → Nat → Nat → List (W × Backtrace W)) : Prop where
  map : ∀ {i j q}, (h0 i j q).map Prod.snd = F.I i j q
  base : ∀ {i j q b}, b ∈ F.I i j q → b.base = b
  inj : ∀ {i j q b b'}, F.ok i j q → b ∈ F.I i j q → b' ∈ F.I i j q → b.key = b'.key → b = b'
  kids : ∀ {i j q b}, F.ok i j q → b ∈ F.I i j q → ∀ c ∈ b.kids i j, F.ok c.1 c.2.1 c.2.2 ∧ F.rank c.1 c.2.1 c.2.2 < F.rank i j q ∧ ∃ w, F.cw c.1 c.2.1 c.2.2 = some w
  nonempty : ∀ {i j q w}, F.ok i j q → F.cw i j q = some w → F.I i j q ≠ []

variable {F : KForest W} {h0 : Nat → Nat → Nat → List (W × Backtrace W)}

open Classical in
/-- The lists of the items up to a depth. -/
noncomputable def emitF (h0 : Nat → Nat → Nat → List (W × Backtrace W)) : Nat → Nat → Nat → Nat → List (Backtrace W × W)
  | 0, _, _, _ => []
  | f + 1, i, j, q => if h : ∃ l, Emits (btW (listWt (emitF h0 f)) i j) none (h0 i j q) l then h.choose else []

/-- The list of an item. -/
noncomputable def emitL (F : KForest W) (h0 : Nat → Nat → Nat → List (W × Backtrace W)) (i j q : Nat) : List (Backtrace W × W) := emitF h0 (F.rank i j q + 1) i j q

omit [RoundedWeight W] in
theorem baseClosed (F : KForest W) (i j q : Nat) : SuccClosed fun b => b.base ∈ F.I i j q := by
  intro b hb b' hb'
  show b'.base ∈ F.I i j q
  rw [Backtrace.base_succs hb']
  exact hb

theorem HeapForest.h0_base (hH : HeapForest F h0) {i j q : Nat} : ∀ x ∈ h0 i j q, x.2.base ∈ F.I i j q := by
  intro x hx
  have : x.2 ∈ F.I i j q := by rw [← hH.map]; exact List.mem_map_of_mem hx
  rw [hH.base this]
  exact this

theorem HeapForest.h0_mem (hH : HeapForest F h0) {i j q : Nat} {b : Backtrace W} (hb : b ∈ F.I i j q) : ∃ w, (w, b) ∈ h0 i j q := by
  rw [← hH.map, List.mem_map] at hb
  obtain ⟨x, hx, rfl⟩ := hb
  exact ⟨x.1, hx⟩

theorem depth_bound (L : Nat → Nat → Nat → List (Backtrace W × W)) (i j : Nat) (bs : List (Backtrace W)) :
    ∃ D, ∀ b w, b.base ∈ bs → btW (listWt L) i j b = some w → b.depth < D := by
  induction bs with
  | nil => exact ⟨0, fun b w hb => by cases hb⟩
  | cons b₀ bs ih =>
    obtain ⟨D, hD⟩ := ih
    have hlen : ∀ {i j q k : Nat} {w : W}, listWt L i j q k = some w → k < (L i j q).length := by
      intro i j q k w h
      unfold listWt at h
      rw [Option.map_eq_some_iff] at h
      obtain ⟨p, hp, _⟩ := h
      exact (List.getElem?_eq_some_iff.1 hp).1
    have : ∃ D₀, ∀ b w, b.base = b₀ → btW (listWt L) i j b = some w → b.depth < D₀ := by
      cases b₀ with
      | nullary r v =>
        refine ⟨1, fun b w hb _ => ?_⟩
        cases b <;> simp_all [Backtrace.base, Backtrace.depth]
      | unary r q v k =>
        refine ⟨(L i j q).length, fun b w hb h => ?_⟩
        cases b <;> simp only [Backtrace.base, reduceCtorEq, Backtrace.unary.injEq] at hb
        obtain ⟨rfl, rfl, rfl, rfl⟩ := hb
        simp only [btW, Option.map_eq_some_iff] at h
        obtain ⟨_, h, _⟩ := h
        exact hlen h
      | binary r q₁ m q₂ v k₁ k₂ =>
        refine ⟨(L i m q₁).length + (L m j q₂).length, fun b w hb h => ?_⟩
        cases b <;> simp only [Backtrace.base, reduceCtorEq, Backtrace.binary.injEq] at hb
        obtain ⟨rfl, rfl, rfl, rfl, rfl, rfl, rfl⟩ := hb
        simp only [btW, Option.bind_eq_some_iff, Option.map_eq_some_iff] at h
        obtain ⟨_, h1, _, h2, _⟩ := h
        have := hlen h1
        have := hlen h2
        simp only [Backtrace.depth]
        omega
    obtain ⟨D₀, hD₀⟩ := this
    refine ⟨max D D₀, fun b w hb h => ?_⟩
    rw [List.mem_cons] at hb
    rcases hb with hb | hb
    · exact lt_of_lt_of_le (hD₀ b w hb h) (le_max_right _ _)
    · exact lt_of_lt_of_le (hD b w hb h) (le_max_left _ _)

theorem HeapForest.emitF_spec (hH : HeapForest F h0) (f i j q : Nat) : Emits (btW (listWt (emitF h0 f)) i j) none (h0 i j q) (emitF h0 (f + 1) i j q) := by
  obtain ⟨D, hD⟩ := depth_bound (emitF h0 f) i j (F.I i j q)
  have hex := emits_exists (baseClosed F i j q) hD none (h0 i j q) (by rintro b ⟨⟩) hH.h0_base
  rw [emitF, dif_pos hex]
  exact hex.choose_spec

theorem HeapForest.emitF_stable (hH : HeapForest F h0) (r : Nat) : ∀ {i j q f f'}, F.ok i j q → F.rank i j q = r → r < f → r < f' → emitF h0 f i j q = emitF h0 f' i j q := by
  induction r using Nat.strong_induction_on with
  | _ r ih =>
    intro i j q f f' hok hr hf hf'
    cases f with
    | zero => omega
    | succ f =>
      cases f' with
      | zero => omega
      | succ f' =>
        refine ((hH.emitF_spec f i j q).congr (baseClosed F i j q) (fun b hb => ?_) (by rintro b ⟨⟩) hH.h0_base).det (hH.emitF_spec f' i j q)
        refine btW_congr fun c hc k => ?_
        have := hH.kids hok hb c (by rw [Backtrace.kids_base]; exact hc)
        simp only [listWt, ih (F.rank c.1 c.2.1 c.2.2) (by omega) this.1 rfl (by omega : _ < f) (by omega : _ < f')]

/-- The list of an item is given by the process. -/
theorem HeapForest.emitL_emits (hH : HeapForest F h0) {i j q : Nat} (hok : F.ok i j q) : Emits (btW (listWt (emitL F h0)) i j) none (h0 i j q) (emitL F h0 i j q) := by
  refine (hH.emitF_spec (F.rank i j q) i j q).congr (baseClosed F i j q) (fun b hb => ?_) (by rintro b ⟨⟩) hH.h0_base
  refine btW_congr fun c hc k => ?_
  have := hH.kids hok hb c (by rw [Backtrace.kids_base]; exact hc)
  simp only [listWt, emitL, hH.emitF_stable _ this.1 rfl (by omega : _ < F.rank i j q) (Nat.lt_succ_self _)]

theorem HeapForest.emitL_nonempty (hH : HeapForest F h0) {i j q : Nat} {w : W} (hok : F.ok i j q) (hw : F.cw i j q = some w) :
    ∃ w', listWt (emitL F h0) i j q 0 = some w' := by
  obtain ⟨b, hb⟩ := List.exists_mem_of_ne_nil _ (hH.nonempty hok hw)
  obtain ⟨v, hv⟩ := hH.h0_mem hb
  have := (hH.emitL_emits hok).heap _ hv
  cases hL : emitL F h0 i j q with
  | nil => rw [hL] at this; cases this
  | cons p l => exact ⟨p.2, by simp [listWt, hL]⟩

/-- The listed backtraces are those with a weight. -/
theorem HeapForest.emitL_spec (hH : HeapForest F h0) {i j q : Nat} (hok : F.ok i j q) (b : Backtrace W) :
    (∃ w, (b, w) ∈ emitL F h0 i j q) ↔ b.base ∈ F.I i j q ∧ ∃ w, btW (listWt (emitL F h0)) i j b = some w := by
  have he := hH.emitL_emits hok
  have hzero : ∀ b ∈ F.I i j q, ∃ w, btW (listWt (emitL F h0)) i j b = some w := by
    intro b hb
    have hk := hH.kids hok hb
    have hz := hH.base hb
    have hk' : ∀ c ∈ b.kids i j, ∃ w', listWt (emitL F h0) c.1 c.2.1 c.2.2 0 = some w' := fun c hc => by
      obtain ⟨h1, _, w, h3⟩ := hk c hc
      exact hH.emitL_nonempty h1 h3
    cases b with
    | nullary r v => exact ⟨v, rfl⟩
    | unary r q₁ v k =>
      simp only [Backtrace.base, Backtrace.unary.injEq, true_and] at hz
      subst hz
      obtain ⟨w', hw'⟩ := hk' (i, j, q₁) (by simp [Backtrace.kids])
      simp only at hw'
      exact ⟨_, by simp only [btW, hw', Option.map_some]; rfl⟩
    | binary r q₁ m q₂ v k₁ k₂ =>
      simp only [Backtrace.base, Backtrace.binary.injEq, true_and] at hz
      obtain ⟨rfl, rfl⟩ := hz
      obtain ⟨w₁, hw₁⟩ := hk' (i, m, q₁) (by simp [Backtrace.kids])
      obtain ⟨w₂, hw₂⟩ := hk' (m, j, q₂) (by simp [Backtrace.kids])
      simp only at hw₁ hw₂
      exact ⟨_, by simp only [btW, hw₁, hw₂, Option.map_some, Option.bind_some]; rfl⟩
  constructor
  · rintro ⟨w, hw⟩
    obtain ⟨h1, h2⟩ := he.mem (baseClosed F i j q) (by rintro b ⟨⟩) hH.h0_base b w hw
    refine ⟨h1, ?_⟩
    rcases h2 with h2 | h2
    · refine hzero b ?_
      rw [← hH.map]
      exact List.mem_map_of_mem (f := Prod.snd) h2
    · exact ⟨w, h2⟩
  · rintro ⟨hb, w, hw⟩
    have hinit : ∀ b ∈ F.I i j q, ∃ w, (b, w) ∈ emitL F h0 i j q := fun b hb => by
      obtain ⟨v, hv⟩ := hH.h0_mem hb
      exact ⟨v, he.heap _ hv⟩
    have hsucc := he.succs (baseClosed F i j q) (fun b b' hb hb' hk => Backtrace.eq_of_base_key (hH.inj hok hb hb' (Backtrace.base_key hk)) hk)
      (by rintro b ⟨⟩) hH.h0_base
    generalize hd : b.depth = d
    induction d generalizing b w with
    | zero =>
      have : b.base = b := by
        cases b with
        | nullary => rfl
        | unary => simp only [Backtrace.depth] at hd; subst hd; rfl
        | binary => simp only [Backtrace.depth, Nat.add_eq_zero_iff] at hd; obtain ⟨rfl, rfl⟩ := hd; rfl
      rw [this] at hb
      exact hinit b hb
    | succ d ih =>
      have key : ∀ b' : Backtrace W, b'.base = b.base → b ∈ b'.succs → (∃ w', btW (listWt (emitL F h0)) i j b' = some w') → ∃ w, (b, w) ∈ emitL F h0 i j q := by
        rintro b' hb' hs ⟨w', hw'⟩
        have := Backtrace.depth_succs hs
        exact hsucc b' (.inr (ih b' (hb' ▸ hb) w' hw' (by omega))) b hs w hw
      cases b with
      | nullary => simp [Backtrace.depth] at hd
      | unary r q₁ v k =>
        simp only [Backtrace.depth] at hd
        subst hd
        refine key (.unary r q₁ v d) rfl (by simp [Backtrace.succs]) ?_
        simp only [btW, Option.map_eq_some_iff] at hw ⊢
        obtain ⟨a, ha, _⟩ := hw
        obtain ⟨a', ha'⟩ := listWt_of_le ha (Nat.le_succ d)
        exact ⟨_, a', ha', rfl⟩
      | binary r q₁ m q₂ v k₁ k₂ =>
        simp only [btW, Option.map_eq_some_iff, Option.bind_eq_some_iff] at hw
        obtain ⟨a, ha, c, hc, _⟩ := hw
        cases k₂ with
        | succ k₂ =>
          refine key (.binary r q₁ m q₂ v k₁ k₂) rfl (by simp [Backtrace.succs]) ?_
          obtain ⟨c', hc'⟩ := listWt_of_le hc (Nat.le_succ k₂)
          exact ⟨_, by simp only [btW, ha, hc', Option.bind_some, Option.map_some]; rfl⟩
        | zero =>
          cases k₁ with
          | zero => simp [Backtrace.depth] at hd
          | succ k₁ =>
            refine key (.binary r q₁ m q₂ v k₁ 0) rfl (by simp [Backtrace.succs]) ?_
            obtain ⟨a', ha'⟩ := listWt_of_le ha (Nat.le_succ k₁)
            exact ⟨_, by simp only [btW, ha', hc, Option.bind_some, Option.map_some]; rfl⟩

end

end Rustomata
