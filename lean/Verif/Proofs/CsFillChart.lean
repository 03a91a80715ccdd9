import Verif.Proofs.CsFill

/-!
# Proofs for the chart parser: the whole chart
-/

namespace Rustomata
open Spec

section
variable {T W : Type _} [Zero W] [One W] [Mul W] [LinearOrder W] [DecidableEq T]

/-- The states and rule identifiers in the bottom-up tables are in range. -/
structure CsAutomaton.BuWF (A : CsAutomaton T W) : Prop where
  unaries : A.buUnaries.length = A.states
  initial : ∀ a l, A.buInitials.get a = some l → ∀ b ∈ l, b.lhs < A.states ∧ b.rid < A.brackets.length
  unary : ∀ (q : Nat) l, A.buUnaries[q]? = some l → ∀ b ∈ l, b.lhs < A.states ∧ b.rid < A.brackets.length
  binary : ∀ (q : Nat) l, A.buBinaries[q]? = some l → ∀ b ∈ l, b.lhs < A.states ∧ b.right < A.states ∧ b.rid < A.brackets.length

variable {A : CsAutomaton T W} {outs : SxOutside W} {filter : List Bool} {word : List T}

theorem csInitials_mem {l r : Nat} {init : List (W × Nat)} (h : csInitials A word outs filter l r = some init) (c : W × Nat) :
    c ∈ init ↔ ∃ rid t, word[l]? = some t ∧ (buGrammar A filter).nullary rid c.2 t c.1 ∧ CsAlive outs word.length c.2 l r := by
  unfold csInitials at h
  split at h
  · exact absurd h (by simp)
  rename_i t ht
  split at h
  · rename_i hg
    rw [Option.some.injEq] at h
    subst h
    constructor
    · intro h; simp at h
    · rintro ⟨rid, t', ht', ⟨_, l, hl, _⟩, _⟩
      rw [ht] at ht'
      cases ht'
      rw [hg] at hl
      simp at hl
  · rename_i rs hrs
    rw [filterMapP_mem h]
    constructor
    · rintro ⟨b, hb, h1⟩
      rw [csPropose_some] at h1
      obtain ⟨rfl, h2, h3⟩ := h1
      exact ⟨b.rid, t, ht, ⟨h2, rs, hrs, hb⟩, h3⟩
    · rintro ⟨rid, t', ht', ⟨h2, rs', hrs', hb⟩, h3⟩
      rw [ht] at ht'
      cases ht'
      rw [hrs] at hrs'
      cases hrs'
      exact ⟨_, hb, csPropose_some.2 ⟨rfl, h2, h3⟩⟩

theorem csBinaries_mem {chart : DenseChart W} {a : AbsChart W} {l r n : Nat} {bins : List (W × Nat)} (hA : A.BuWF) (hn : n ≤ 255) (hrn : r ≤ n)
    (hcn : chart.n = n) (hcs : chart.states = A.states) (href : chart.Refines a)
    (h : csBinaries A chart outs filter l r n = some bins) (c : W × Nat) :
    c ∈ bins ↔ ∃ rid m q₁ w₁ q₂ w₂ w, l < m ∧ m < r ∧ (q₁, w₁) ∈ a l m ∧ (buGrammar A filter).binary rid c.2 q₁ q₂ w ∧
      lastWeight q₂ (a m r) = some w₂ ∧ w₂ ≠ 0 ∧ CsAlive outs n c.2 l r ∧ c.1 = w₁ * w * w₂ := by
  unfold csBinaries at h
  have hu : ∀ x, x ≤ n → u8 x = x := fun x hx => Nat.mod_eq_of_lt (by omega)
  have hit : ∀ m, l < m → m < r → chart.iterateNont (u8 l) (u8 m) = some (a l m) := by
    intro m hm hmr
    rw [hu l (by omega), hu m (by omega)]
    exact href.iterateNont hm (by omega)
  have hgw : ∀ m q, m < r → q < A.states → chart.getWeight (u8 m) (u8 r) q = some ((lastWeight q (a m r)).filter fun w => w ≠ 0) := by
    intro m q hmr hq
    rw [hu m (by omega), hu r hrn]
    exact href.getWeight hmr (by omega) (by omega)
  have hbin : ∀ (m q₁ : Nat) w₁ bs, m < r → A.buBinaries[q₁]? = some bs → ∀ b ∈ bs, ∀ c,
      csBinary chart outs filter l m r n w₁ b = some (some c) ↔
        filter[b.rid]? = some true ∧ c.2 = b.lhs ∧ ∃ w₂, lastWeight b.right (a m r) = some w₂ ∧ w₂ ≠ 0 ∧ CsAlive outs n b.lhs l r ∧
          c.1 = w₁ * b.weight * w₂ := by
    intro m q₁ w₁ bs hmr hbs b hb c
    unfold csBinary
    rw [hgw m b.right hmr (hA.binary q₁ bs hbs b hb).2.1]
    split
    · simp_all
    · simp_all
    rename_i hf
    split
    · simp_all
    · rename_i hg
      simp only [Option.some.injEq, Option.filter_eq_none_iff] at hg
      constructor
      · simp
      · rintro ⟨_, _, w₂, h1, h2, _⟩
        exact absurd (by simpa using h2) (hg w₂ h1)
    · rename_i riw hg
      simp only [Option.some.injEq, Option.filter_eq_some_iff, decide_eq_true_eq] at hg
      unfold CsAlive
      split
      · simp_all
      · simp_all
      · rename_i o ho
        obtain ⟨c1, c2⟩ := c
        simp only [Option.some.injEq, Prod.mk.injEq, ho, exists_eq']
        constructor
        · rintro ⟨rfl, rfl⟩
          exact ⟨hf, rfl, riw, hg.1, hg.2, trivial, rfl⟩
        · rintro ⟨_, rfl, w₂, h1, _, _, rfl⟩
          rw [hg.1] at h1
          cases h1
          exact ⟨rfl, rfl⟩
  rw [flatMapP_mem h]
  constructor
  · rintro ⟨m, hm, ys, h1, h2⟩
    obtain ⟨h3, h4⟩ : l < m ∧ m < r := by
      rw [List.mem_range'_1] at hm
      omega
    rw [hit m h3 h4] at h1
    obtain ⟨⟨q₁, w₁⟩, h5, zs, h6, h7⟩ := (flatMapP_mem h1 c).1 h2
    split at h6
    · exact absurd h6 (by simp)
    rename_i bs hbs
    obtain ⟨b, hb, h8⟩ := (filterMapP_mem h6 c).1 h7
    obtain ⟨h9, h10, w₂, h11, h12, h13, h14⟩ := (hbin m q₁ w₁ bs h4 hbs b hb c).1 h8
    refine ⟨b.rid, m, q₁, w₁, b.right, w₂, b.weight, h3, h4, h5, ⟨h9, bs, hbs, ?_⟩, h11, h12, h10 ▸ h13, h14⟩
    rw [h10]
    exact hb
  · rintro ⟨rid, m, q₁, w₁, q₂, w₂, w, h1, h2, h3, ⟨h4, bs, hbs, hb⟩, h5, h6, h7, h8⟩
    have hm : m ∈ List.range' (l + 1) (r - (l + 1)) := by
      rw [List.mem_range'_1]
      omega
    obtain ⟨ys, hys⟩ := flatMapP_some h m hm
    refine ⟨m, hm, ys, hys, ?_⟩
    simp only [hit m h1 h2] at hys
    rw [flatMapP_mem hys]
    obtain ⟨zs, hzs⟩ := flatMapP_some hys (q₁, w₁) h3
    refine ⟨(q₁, w₁), h3, zs, hzs, ?_⟩
    simp only [hbs] at hzs
    rw [filterMapP_mem hzs]
    exact ⟨_, hb, (hbin m q₁ w₁ bs h2 hbs _ hb c).2 ⟨h4, rfl, w₂, h5, h6, h7, h8⟩⟩

/-- What is known about a cell of the final chart. -/
def CsCellOk (A : CsAutomaton T W) (word : List T) (beam : Nat) (delta : W) (outs : SxOutside W) (filter : List Bool) (a : AbsChart W) (l r : Nat) : Prop :=
  ∃ H, CsCloseInv (buGrammar A filter) (fun q => CsAlive outs word.length q l r)
      (CsBase (buGrammar A filter) word (CsAlive outs word.length) a l r) (a l r) H ∧
    (∀ e ∈ a l r, e.1 < A.states) ∧
    (H = [] ∨ (a l r).length = beam ∨ ∃ e ∈ a l r, ∃ top, e.2 < delta * top ∧
      (top = 0 ∨ ∃ q, CsBase (buGrammar A filter) word (CsAlive outs word.length) a l r (top, q)))

omit [DecidableEq T] in
theorem CsBase.congr {G : BinGrammar T W} {ok : Nat → Nat → Nat → Prop} {a a' : AbsChart W} {l r : Nat}
    (h : ∀ i j, j - i < r - l → l ≤ i → i < j → j ≤ r → a' i j = a i j) : CsBase G word ok a' l r = CsBase G word ok a l r := by
  funext c
  refine propext (or_congr Iff.rfl ?_)
  constructor
  · rintro ⟨rid, m, q₁, w₁, q₂, w₂, w, h1, h2, h3, h4, h5, h6⟩
    rw [h l m (by omega) (by omega) (by omega) (by omega)] at h3
    rw [h m r (by omega) (by omega) (by omega) (by omega)] at h5
    exact ⟨rid, m, q₁, w₁, q₂, w₂, w, h1, h2, h3, h4, h5, h6⟩
  · rintro ⟨rid, m, q₁, w₁, q₂, w₂, w, h1, h2, h3, h4, h5, h6⟩
    rw [← h l m (by omega) (by omega) (by omega) (by omega)] at h3
    rw [← h m r (by omega) (by omega) (by omega) (by omega)] at h5
    exact ⟨rid, m, q₁, w₁, q₂, w₂, w, h1, h2, h3, h4, h5, h6⟩

theorem csCell_spec {beam : Nat} {delta : W} {chart chart' : DenseChart W} {a : AbsChart W} {l r : Nat} (hA : A.BuWF) (hn : word.length ≤ 255)
    (hlr : l < r) (hr : r ≤ word.length) (hcn : chart.n = word.length) (hcs : chart.states = A.states) (hcb : chart.beam = beam) (href : chart.Refines a)
    (ha : a l r = []) (h : csCell A word beam delta outs filter chart (l, r) = some chart') :
    ∃ a', chart'.n = word.length ∧ chart'.states = A.states ∧ chart'.beam = beam ∧ chart'.Refines a' ∧
      (∀ i j, ¬ (i = l ∧ j = r) → a' i j = a i j) ∧ CsCellOk A word beam delta outs filter a' l r := by
  unfold csCell at h
  split at h
  swap
  · exact absurd h (by simp)
  rename_i init bins hinit hbins
  simp only at hinit hbins
  have hB : ∀ c, CsBase (buGrammar A filter) word (CsAlive outs word.length) a l r c ↔ c ∈ init ++ bins := by
    intro c
    rw [List.mem_append]
    refine or_congr ?_ (csBinaries_mem hA hn hr hcn hcs href hbins c).symm
    split at hinit
    · rename_i h1
      rw [csInitials_mem hinit]
      constructor
      · rintro ⟨rid, t, rfl, h2⟩
        exact ⟨rid, t, h2⟩
      · rintro ⟨rid, t, h2⟩
        exact ⟨rid, t, by omega, h2⟩
    · rename_i h1
      rw [Option.some.injEq] at hinit
      subst hinit
      constructor
      · rintro ⟨rid, t, h2, _⟩
        exact absurd (by omega) h1
      · intro h; simp at h
  obtain ⟨a', H, h1, h2, h3, h4, h5, h6, h7, h8⟩ := csClose_spec
    (B := CsBase (buGrammar A filter) word (CsAlive outs word.length) a l r) hn hlr hr _ chart chart' _ beam _ a h hcn hcs hcb href
    (by simp) (by intro q hq; simp [hq, ha]) (by simp [ha])
    (by
      rw [ha]
      refine ⟨fun c hc => .inl ((hB c).2 hc), by simp, by simp, fun _ c hc => ?_, by simp⟩
      rcases hc with hc | ⟨_, _, _, _, hc, _⟩
      · exact .inl ((hB c).1 hc)
      · simp at hc)
  have hcong : CsBase (buGrammar A filter) word (CsAlive outs word.length) a' l r =
      CsBase (buGrammar A filter) word (CsAlive outs word.length) a l r :=
    CsBase.congr fun i j hij _ _ _ => h5 i j (by rintro ⟨rfl, rfl⟩; omega)
  refine ⟨a', h1, h2, h3, h4, h5, H, ?_, ?_, ?_⟩
  · rw [hcong]
    exact h6
  · intro e he
    rcases h7 e he with h | h
    · exact h
    · rw [ha] at h
      simp at h
  · rcases h8 with h | h | ⟨e, he, h⟩
    · exact .inl h
    · exact .inr (.inl h)
    · refine .inr (.inr ⟨e, he, _, h, ?_⟩)
      cases hp : csPop (init ++ bins) with
      | none => exact .inl (by simp)
      | some p =>
        obtain ⟨⟨w, q⟩, rest⟩ := p
        refine .inr ⟨q, ?_⟩
        rw [hcong, hB]
        exact (csPop_mem hp _).2 (.inl rfl)

theorem mem_csSpans {n : Nat} {p : Nat × Nat} : p ∈ csSpans n ↔ p.1 < p.2 ∧ p.2 ≤ n := by
  unfold csSpans
  simp only [List.mem_flatMap, List.mem_range'_1, List.mem_map, List.mem_range]
  constructor
  · rintro ⟨k, hk, l, hl, rfl⟩
    simp only
    omega
  · rintro ⟨h1, h2⟩
    exact ⟨p.2 - p.1, by omega, p.1, by omega, by ext <;> simp; omega⟩

theorem csSpans_sorted (n : Nat) : (csSpans n).Pairwise fun p p' => p ≠ p' ∧ p.2 - p.1 ≤ p'.2 - p'.1 := by
  unfold csSpans
  rw [List.pairwise_flatMap]
  constructor
  · intro k _
    rw [List.pairwise_map]
    refine List.Pairwise.imp ?_ (List.pairwise_lt_range (n := n - k + 1))
    intro x y hxy
    refine ⟨?_, by simp⟩
    intro h
    rw [Prod.mk.injEq] at h
    omega
  · refine List.Pairwise.imp ?_ List.pairwise_lt_range'
    intro x y hxy p hp p' hp'
    simp only [List.mem_map] at hp hp'
    obtain ⟨l, _, rfl⟩ := hp
    obtain ⟨l', _, rfl⟩ := hp'
    refine ⟨?_, by simp; omega⟩
    intro h
    rw [Prod.mk.injEq] at h
    omega

theorem csSpans_split {n : Nat} {pre post : List (Nat × Nat)} {p : Nat × Nat} (h : csSpans n = pre ++ p :: post) :
    (∀ p' : Nat × Nat, p'.1 < p'.2 → p'.2 ≤ n → p'.2 - p'.1 < p.2 - p.1 → p' ∈ pre) ∧ p ∉ pre := by
  have hs := csSpans_sorted n
  rw [h, List.pairwise_append, List.pairwise_cons] at hs
  constructor
  · intro p' h1 h2 h3
    have hm : p' ∈ csSpans n := mem_csSpans.2 ⟨h1, h2⟩
    rw [h, List.mem_append, List.mem_cons] at hm
    rcases hm with hm | rfl | hm
    · exact hm
    · omega
    · have := (hs.2.1.1 p' hm).2
      omega
  · intro hp
    exact (hs.2.2 p hp p (.head _)).1 rfl

theorem csSpans_fold {beam : Nat} {delta : W} (hA : A.BuWF) (hn : word.length ≤ 255) (post : List (Nat × Nat)) :
    ∀ (pre : List (Nat × Nat)) (chart chart' : DenseChart W) (a : AbsChart W), csSpans word.length = pre ++ post →
      chart.n = word.length → chart.states = A.states → chart.beam = beam → chart.Refines a →
      (∀ p ∈ pre, CsCellOk A word beam delta outs filter a p.1 p.2) → (∀ l r, (l, r) ∉ pre → a l r = []) →
      post.foldlM (csCell A word beam delta outs filter) chart = some chart' →
      ∃ a', chart'.n = word.length ∧ chart'.states = A.states ∧ chart'.beam = beam ∧ chart'.Refines a' ∧
        (∀ p ∈ csSpans word.length, CsCellOk A word beam delta outs filter a' p.1 p.2) ∧ (∀ l r, (l, r) ∉ csSpans word.length → a' l r = []) := by
  induction post with
  | nil =>
    intro pre chart chart' a hs hcn hcs hcb href hok hemp h
    rw [List.foldlM_nil] at h
    cases h
    rw [List.append_nil] at hs
    exact ⟨a, hcn, hcs, hcb, href, hs ▸ hok, hs ▸ hemp⟩
  | cons p post ih =>
    intro pre chart chart' a hs hcn hcs hcb href hok hemp h
    rw [List.foldlM_cons] at h
    cases hc : csCell A word beam delta outs filter chart p with
    | none => rw [hc] at h; exact absurd h (by simp)
    | some c₁ =>
      rw [hc] at h
      obtain ⟨h1, h2⟩ := csSpans_split hs
      have hp : p ∈ csSpans word.length := by rw [hs]; simp
      rw [mem_csSpans] at hp
      obtain ⟨l, r⟩ := p
      obtain ⟨a₁, g1, g2, g3, g4, g5, g6⟩ := csCell_spec hA hn hp.1 hp.2 hcn hcs hcb href (hemp l r h2) hc
      refine ih (pre ++ [(l, r)]) c₁ chart' a₁ (by simp [hs]) g1 g2 g3 g4 ?_ ?_ h
      · intro p' hp'
        rcases List.mem_append.1 hp' with hp₁ | hp₁
        · have hne : p' ≠ (l, r) := fun h => h2 (h ▸ hp₁)
          obtain ⟨H, k1, k2⟩ := hok p' hp₁
          have heq : a₁ p'.1 p'.2 = a p'.1 p'.2 := g5 _ _ (by rintro ⟨h, h'⟩; exact hne (Prod.ext h h'))
          have hb : CsBase (buGrammar A filter) word (CsAlive outs word.length) a₁ p'.1 p'.2 =
              CsBase (buGrammar A filter) word (CsAlive outs word.length) a p'.1 p'.2 := by
            refine CsBase.congr fun i j hij _ _ _ => g5 i j ?_
            rintro ⟨rfl, rfl⟩
            have hs' := csSpans_sorted word.length
            rw [hs, List.pairwise_append] at hs'
            have := (hs'.2.2 p' hp₁ (i, j) (.head _)).2
            simp only at this
            omega
          refine ⟨H, ?_, ?_⟩
          · rw [hb, heq]
            exact k1
          · rw [hb, heq]
            exact k2
        · rw [List.mem_singleton] at hp₁
          subst hp₁
          exact g6
      · intro l' r' hlr'
        rw [List.mem_append, List.mem_singleton, not_or] at hlr'
        rw [g5 l' r' (by rintro ⟨rfl, rfl⟩; exact hlr'.2 rfl)]
        exact hemp l' r' hlr'.1

/-- The final chart. -/
theorem fillChart_spec {beam : Nat} {delta : W} {chart : DenseChart W} (hA : A.BuWF) (hn : word.length ≤ 255)
    (h : fillChart A word beam delta outs filter = some chart) :
    ∃ a, chart.n = word.length ∧ chart.states = A.states ∧ chart.beam = beam ∧ chart.Refines a ∧
      (∀ l r, l < r → r ≤ word.length → CsCellOk A word beam delta outs filter a l r) ∧ (∀ l r, ¬ (l < r ∧ r ≤ word.length) → a l r = []) := by
  unfold fillChart at h
  split at h
  · exact absurd h (by simp)
  rename_i c hc
  have hb : beam ≤ 65535 := by
    unfold DenseChart.new at hc
    split at hc
    · assumption
    · exact absurd hc (by simp)
  obtain ⟨c', h1, h2, h3, h4, h5⟩ := DenseChart.refines_new (W := W) (n := word.length) (states := A.states) hb
  rw [hc] at h1
  cases h1
  obtain ⟨a, g1, g2, g3, g4, g5, g6⟩ := csSpans_fold hA hn (csSpans word.length) [] c chart _ (by simp) h2 h3 h4 h5 (by simp) (by simp) h
  exact ⟨a, g1, g2, g3, g4, fun l r h1 h2 => g5 (l, r) (mem_csSpans.2 ⟨h1, h2⟩), fun l r hlr => g6 l r fun hm => hlr (mem_csSpans.1 hm)⟩

end

end Rustomata
