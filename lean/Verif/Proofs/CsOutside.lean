import Verif.Proofs.CsEstimates

/-!
# Proofs for the estimates of the Chomsky-Schützenberger parser: outside weights
-/

namespace Rustomata
open Spec

/-- The top-down tables contain the same rules as the bottom-up tables. -/
structure CsAutomaton.TdWF {T W : Type _} [DecidableEq T] (A : CsAutomaton T W) : Prop where
  unaries : A.tdUnaries.length = A.states
  binaries : A.tdBinaries.length = A.states
  unary : ∀ (q : Nat) l, A.tdUnaries[q]? = some l → ∀ b ∈ l, b.succ < A.states
  binary : ∀ (q : Nat) l, A.tdBinaries[q]? = some l → ∀ b ∈ l, b.left < A.states ∧ b.right < A.states
  unary_iff : ∀ (rid q q₁ : Nat) (w : W), (∃ l, A.tdUnaries[q]? = some l ∧ ⟨rid, q₁, w⟩ ∈ l) ↔ ∃ l, A.buUnaries[q₁]? = some l ∧ ⟨rid, w, q⟩ ∈ l
  binary_iff : ∀ (rid q q₁ q₂ : Nat) (w : W), (∃ l, A.tdBinaries[q]? = some l ∧ ⟨rid, q₁, q₂, w⟩ ∈ l) ↔
    ∃ l, A.buBinaries[q₁]? = some l ∧ ⟨rid, q₂, w, q⟩ ∈ l

theorem CsAutomaton.Rep.tdWF {N T W : Type _} [DecidableEq N] [DecidableEq T] {A : CsAutomaton T W} {st : List (CsState N)}
    {ps : List (CsProd N T W × TdBrackets)} (h : A.Rep st ps) : A.TdWF := by
  have hs : A.states = st.length := h.len.1
  have hlt : ∀ {k : Nat} {s}, st[k]? = some s → k < A.states := fun h => hs ▸ (List.getElem?_eq_some_iff.1 h).1
  refine ⟨h.len.2.2.2.1.trans hs.symm, h.len.2.2.1.trans hs.symm, ?_, ?_, ?_, ?_⟩
  · intro q l hl b hb
    obtain ⟨Q, S, h1, h2, h3⟩ := (h.tdUn q b).1 ⟨l, hl, hb⟩
    exact hlt h3
  · intro q l hl b hb
    obtain ⟨Q, L, R, h1, h2, h3, h4⟩ := (h.tdBin q b).1 ⟨l, hl, hb⟩
    exact ⟨hlt h3, hlt h4⟩
  · intro rid q q₁ w
    rw [h.tdUn, h.buUn]
  · intro rid q q₁ q₂ w
    rw [h.tdBin, h.buBin]

namespace SxOutside
variable {T W : Type _} [RoundedWeight W] [DecidableEq T] {n : Nat}

/-- The entry for a state and a span. -/
def val (s : SxOutside W) (q i j : Nat) : W := ((s.index q i j).bind fun k => s.table[k]?).getD 0

theorem index_eq {s : SxOutside W} {q i j : Nat} (hm : s.maxrange = n) (hl : s.table.length = chartSize n * s.states) (hq : q < s.states) (hij : i < j)
    (hj : j ≤ n) : ∃ k c, chartIndex i j n = some c ∧ k = c * s.states + q ∧ s.index q i j = some k ∧ k < s.table.length ∧
      s.table[k]? = some (s.val q i j) := by
  have hc := chartIndex_eq hij hj
  have hlt := chartIndex_lt hij hj hc
  have hidx : s.index q i j = some ((chartSize n - chartSize (n - (j - i) + 1) + i) * s.states + q) := by
    unfold index chartIndexWithState
    rw [hm, hc]
    rfl
  have hk := mul_add_lt hq hlt
  rw [← hl] at hk
  refine ⟨_, _, hc, rfl, hidx, hk, ?_⟩
  unfold val
  rw [hidx, Option.bind_some, List.getElem?_eq_getElem hk]
  rfl

theorem val_of_index {s : SxOutside W} {q i j k : Nat} (h : s.index q i j = some k) : s.val q i j = (s.table[k]?).getD 0 := by
  unfold val
  rw [h]
  rfl

theorem insert_eq {s : SxOutside W} {q i j : Nat} (hm : s.maxrange = n) (hl : s.table.length = chartSize n * s.states) (hq : q < s.states) (hij : i < j)
    (hj : j ≤ n) (w : W) : ∃ s', s.insert q i j w = some s' ∧ s'.states = s.states ∧ s'.maxrange = n ∧ s'.table.length = chartSize n * s.states ∧
      ∀ q' i' j', q' < s.states → i' < j' → j' ≤ n →
        s'.val q' i' j' = if q' = q ∧ i' = i ∧ j' = j ∧ s.val q i j = 0 then w else s.val q' i' j' := by
  obtain ⟨k, c, hc, hk, h1, h2, h3⟩ := index_eq hm hl hq hij hj
  unfold insert
  simp only [h1, h3]
  by_cases h0 : s.val q i j = 0
  · rw [if_pos h0]
    refine ⟨_, rfl, rfl, hm, by simpa using hl, ?_⟩
    intro q' i' j' hq' hij' hj'
    obtain ⟨k', c', hc', hk', h1', h2', h3'⟩ := index_eq hm hl hq' hij' hj'
    have hv : ({ s with table := s.table.set k w } : SxOutside W).val q' i' j' = ((s.table.set k w)[k']?).getD 0 := val_of_index h1'
    rw [hv]
    by_cases heq : q' = q ∧ i' = i ∧ j' = j
    · obtain ⟨rfl, rfl, rfl⟩ := heq
      rw [hc] at hc'
      cases hc'
      rw [← hk] at hk'
      subst hk'
      rw [if_pos ⟨rfl, rfl, rfl, h0⟩, List.getElem?_set_self h2]
      rfl
    · rw [if_neg (fun h => heq ⟨h.1, h.2.1, h.2.2.1⟩), List.getElem?_set_ne, h3']
      · rfl
      · intro hkk
        rw [hk, hk'] at hkk
        obtain ⟨rfl, rfl⟩ := mul_add_inj hq hq' hkk
        obtain ⟨rfl, rfl⟩ := chartIndex_inj hij hj hij' hj' hc hc'
        exact heq ⟨rfl, rfl, rfl⟩
  · rw [if_neg h0]
    refine ⟨s, rfl, rfl, hm, hl, ?_⟩
    intro q' i' j' _ _ _
    rw [if_neg (fun h => h0 h.2.2.2)]

theorem iterateStates_eq {s : SxOutside W} {i j : Nat} (hm : s.maxrange = n) (hl : s.table.length = chartSize n * s.states) (hij : i < j) (hj : j ≤ n) :
    ∃ l, s.iterateStates i j = some l ∧ ∀ q w, (q, w) ∈ l ↔ q < s.states ∧ w = s.val q i j ∧ w ≠ 0 := by
  have hc := chartIndex_eq hij hj
  have hlt := chartIndex_lt hij hj hc
  have hidx : ∀ q, s.index q i j = some ((chartSize n - chartSize (n - (j - i) + 1) + i) * s.states + q) := by
    intro q
    unfold index chartIndexWithState
    rw [hm, hc]
    rfl
  have hle : (chartSize n - chartSize (n - (j - i) + 1) + i) * s.states + 0 + s.states ≤ s.table.length := by
    rw [hl]
    have : (chartSize n - chartSize (n - (j - i) + 1) + i + 1) * s.states ≤ chartSize n * s.states := Nat.mul_le_mul_right _ hlt
    rw [Nat.add_mul, Nat.one_mul] at this
    omega
  refine ⟨_, by unfold iterateStates; rw [hidx 0]; simp only; rw [if_pos hle], ?_⟩
  intro q w
  simp only [List.mem_map, List.mem_filter, List.mem_zipIdx_iff_getElem?, Prod.mk.injEq, decide_eq_true_eq, ne_eq]
  constructor
  · rintro ⟨⟨w', q'⟩, ⟨h2, h3⟩, rfl, rfl⟩
    simp only at h2 h3
    have hq : q' < s.states := by
      have := (List.getElem?_eq_some_iff.1 h2).1
      rw [List.length_take] at this
      omega
    rw [List.getElem?_take_of_lt hq, List.getElem?_drop, Nat.add_zero] at h2
    refine ⟨hq, ?_, h3⟩
    rw [val_of_index (hidx q'), h2]
    rfl
  · rintro ⟨hq, rfl, h3⟩
    obtain ⟨k, c, hc', hk, h1, h2, h4⟩ := index_eq hm hl hq hij hj
    rw [hidx q, Option.some.injEq] at h1
    refine ⟨(s.val q i j, q), ⟨?_, h3⟩, rfl, rfl⟩
    simp only
    rw [List.getElem?_take_of_lt hq, List.getElem?_drop, Nat.add_zero, h1]
    exact h4

variable {A : CsAutomaton T W}

/-- The chain rules of an automaton, read from the left-hand side to the successor. -/
def chain (A : CsAutomaton T W) (q₁ q : Nat) (u : W) : Prop := ∃ rid us, A.tdUnaries[q₁]? = some us ∧ ⟨rid, q, u⟩ ∈ us

/-- The loop that empties the queue. -/
theorem close_spec {i j : Nat} {B : W × Nat → Prop} (hA : A.TdWF) (hU : ∀ q₁ q u, chain A q₁ q u → u ≤ 1) (h1 : i < j) (hr : j ≤ n) :
    ∀ (fuel : Nat) (s : SxOutside W) (filter : List Bool) (queue : List (W × Nat)),
      s.states = A.states → s.maxrange = n → s.table.length = chartSize n * s.states → filter.length = A.states → (∀ c ∈ queue, c.2 < A.states) →
      queue.length + pendingRules A.tdUnaries filter < fuel →
      (∀ c ∈ queue, c.1 ≤ 1) → (∀ q, q < A.states → s.val q i j ≤ 1) →
      (∀ q, q < A.states → filter[q]? = some false → s.val q i j = 0) →
      (∀ c, B c → filter[c.2]? ≠ some true → c ∈ queue) →
      (∀ q₁ q u, filter[q₁]? = some true → chain A q₁ q u → filter[q]? ≠ some true → ∃ w', (w', q) ∈ queue ∧ u * s.val q₁ i j ≤ w') →
      (∀ q w, filter[q]? = some true → ChainReal (chain A) B w q → w ≤ s.val q i j) →
      ∃ s', close A i j fuel s filter queue = some s' ∧ s'.states = A.states ∧ s'.maxrange = n ∧ s'.table.length = chartSize n * s'.states ∧
        (∀ q i' j', q < A.states → i' < j' → j' ≤ n → ¬ (i' = i ∧ j' = j) → s'.val q i' j' = s.val q i' j') ∧
        (∀ q, q < A.states → s'.val q i j ≤ 1) ∧
        (∀ q w, ChainReal (chain A) B w q → w ≤ s'.val q i j) := by
  intro fuel
  induction fuel with
  | zero => intros; omega
  | succ fuel ih =>
    intro s filter queue hs hm0 hl hfl hq hfuel hq1' hv1 h0 hB hC hD
    simp only [close]
    split
    · rename_i hp
      rw [csPop_none] at hp
      subst hp
      refine ⟨s, rfl, hs, hm0, hl, fun _ _ _ _ _ _ _ => rfl, hv1, fun q w h => ?_⟩
      by_cases hm : filter[q]? = some true
      · exact hD q w hm h
      · obtain ⟨e, he, _⟩ := ChainReal.pending (mark := fun q => filter[q]? = some true) (val := fun q => s.val q i j) hU hB hC hD h hm
        simp at he
    rename_i w1 q1 queue' hp
    have hlen := csPop_length hp
    have hq1 : q1 < A.states := hq _ ((csPop_mem hp _).2 (.inl rfl))
    have hq' : ∀ c ∈ queue', c.2 < A.states := fun c hc => hq c ((csPop_mem hp c).2 (.inr hc))
    split
    · rename_i hf
      rw [List.getElem?_eq_none_iff] at hf
      omega
    · rename_i hf
      refine ih s filter queue' hs hm0 hl hfl hq' (by omega) (fun c hc => hq1' c ((csPop_mem hp c).2 (.inr hc))) hv1 h0 ?_ ?_ hD
      · intro c hc hm
        rcases (csPop_mem hp c).1 (hB c hc hm) with rfl | h
        · exact absurd hf hm
        · exact h
      · intro q₁ q u hm hu hm'
        obtain ⟨w', h2, h3⟩ := hC q₁ q u hm hu hm'
        rcases (csPop_mem hp _).1 h2 with heq | h
        · rw [Prod.mk.injEq] at heq
          rw [heq.2] at hm'
          exact absurd hf hm'
        · exact ⟨w', h, h3⟩
    rename_i hf
    obtain ⟨us, hus⟩ : ∃ us, A.tdUnaries[q1]? = some us := ⟨_, List.getElem?_eq_getElem (by rw [hA.unaries]; exact hq1)⟩
    obtain ⟨s', hs', g1, gm, g2, g3⟩ := insert_eq hm0 hl (hs ▸ hq1 : q1 < s.states) h1 hr w1
    rw [hs', hus]
    simp only
    have hpend := pendingRules_set hf hus
    have hv0 : s.val q1 i j = 0 := h0 q1 hq1 hf
    have hval : ∀ q, q < A.states → s'.val q i j = if q = q1 then w1 else s.val q i j := by
      intro q hqs
      rw [g3 q i j (hs ▸ hqs) h1 hr]
      simp [hv0]
    have hlf : q1 < filter.length := by omega
    have hset : ∀ q : Nat, (filter.set q1 true)[q]? = some true ↔ q = q1 ∨ filter[q]? = some true := by
      intro q
      by_cases h : q = q1
      · subst h
        rw [List.getElem?_set_self hlf]
        simp
      · rw [List.getElem?_set_ne (Ne.symm h)]
        simp [h]
    obtain ⟨new, hnew⟩ := filterMapP_isSome (f := fun u : TdUnary W => SxInside.follow (filter.set q1 true) (u.weight * w1) u.succ) (l := us)
      fun u hu => by
        have := hA.unary q1 us hus u hu
        rw [Ne, SxInside.follow_eq_none]
        simp
        omega
    rw [hnew]
    simp only
    have hnl := filterMapP_length hnew
    have hmem : ∀ c, c ∈ new ↔ ∃ u ∈ us, (filter.set q1 true)[u.succ]? ≠ some true ∧ c = (u.weight * w1, u.succ) := by
      intro c
      rw [filterMapP_mem hnew]
      refine exists_congr fun u => and_congr_right fun hu => ?_
      have := hA.unary q1 us hus u hu
      rw [SxInside.follow_eq_some]
      refine and_congr_left fun _ => ?_
      rw [List.getElem?_eq_getElem (by simp; omega)]
      simp
    have hnew' : ∀ c : W × Nat, ChainReal (chain A) B c.1 c.2 → c.2 = q1 → c.1 ≤ w1 := by
      intro c hc hcq
      obtain ⟨e, he, h2⟩ := ChainReal.pending (mark := fun q => filter[q]? = some true) (val := fun q => s.val q i j) hU hB hC hD hc
        (by rw [hcq, hf]; simp)
      refine h2.trans ?_
      rcases (csPop_mem hp e).1 he with rfl | h
      · exact le_refl _
      · exact csPop_max hp h
    have hne : ∀ q, q < A.states → filter[q]? = some true → s'.val q i j = s.val q i j := by
      intro q hqs hm
      rw [hval q hqs, if_neg]
      rintro rfl
      rw [hf] at hm
      simp at hm
    have hlt : ∀ q : Nat, filter[q]? = some true → q < A.states := fun q h => hfl ▸ (List.getElem?_eq_some_iff.1 h).1
    obtain ⟨s'', k1, k2, km, k3, k4, k5, k6⟩ := ih s' (filter.set q1 true) (queue' ++ new) (g1.trans hs) gm (by rw [g1]; exact g2) (by simpa using hfl) (by
        intro c hc
        rcases List.mem_append.1 hc with hc | hc
        · exact hq' c hc
        · obtain ⟨u, hu, _, rfl⟩ := (hmem c).1 hc
          exact hA.unary q1 us hus u hu) (by
        rw [List.length_append]
        omega) (by
        intro c hc
        rcases List.mem_append.1 hc with hc | hc
        · exact hq1' c ((csPop_mem hp c).2 (.inr hc))
        · obtain ⟨u, hu, _, rfl⟩ := (hmem c).1 hc
          exact mul_le_one' (hU q1 u.succ u.weight ⟨u.rid, us, hus, hu⟩) (hq1' _ ((csPop_mem hp _).2 (.inl rfl)))) (by
        intro q hqs
        rw [hval q hqs]
        split
        · exact hq1' _ ((csPop_mem hp _).2 (.inl rfl))
        · exact hv1 q hqs) (by
        intro q hqs hm
        have hqne : q ≠ q1 := by
          rintro rfl
          rw [List.getElem?_set_self hlf] at hm
          simp at hm
        rw [List.getElem?_set_ne (Ne.symm hqne)] at hm
        rw [hval q hqs, if_neg hqne]
        exact h0 q hqs hm) (by
        intro c hc hm
        rw [Ne, hset, not_or] at hm
        rcases (csPop_mem hp c).1 (hB c hc hm.2) with rfl | h
        · exact absurd rfl hm.1
        · exact List.mem_append_left _ h) (by
        intro q₁ q u hm hu hm'
        have hm'' := hm'
        rw [Ne, hset, not_or] at hm''
        rw [hset] at hm
        rcases hm with rfl | hm
        · obtain ⟨rid, us', hus', hu'⟩ := hu
          rw [hus] at hus'
          cases hus'
          refine ⟨u * w1, List.mem_append_right _ ((hmem _).2 ⟨_, hu', hm', rfl⟩), ?_⟩
          rw [hval _ hq1, if_pos rfl]
        · obtain ⟨w', h2, h3⟩ := hC q₁ q u hm hu hm''.2
          rw [hne q₁ (hlt _ hm) hm]
          rcases (csPop_mem hp _).1 h2 with heq | h
          · rw [Prod.mk.injEq] at heq
            exact absurd heq.2 hm''.1
          · exact ⟨w', List.mem_append_left _ h, h3⟩) (by
        intro q w hm hcr
        rw [hset] at hm
        rcases hm with rfl | hm
        · rw [hval _ hq1, if_pos rfl]
          exact hnew' (w, q) hcr rfl
        · rw [hne q (hlt _ hm) hm]
          exact hD q w hm hcr)
    refine ⟨s'', k1, k2, km, k3, ?_, k5, k6⟩
    intro q i' j' hqs h1' hr' hne'
    rw [k4 q i' j' hqs h1' hr' hne', g3 q i' j' (hs ▸ hqs) h1' hr', if_neg (fun h => hne' ⟨h.2.1, h.2.2.1⟩)]

/-- The items in the queue before the loop. -/
def QueueItem (A : CsAutomaton T W) (ins : SxInside W) (s : SxOutside W) (n i j : Nat) (c : W × Nat) : Prop :=
  (j - i = n ∧ c = (1, A.initial)) ∨
  (∃ i' q, i' < i ∧ q < A.states ∧ s.val q i' j ≠ 0 ∧ ∃ bs, A.tdBinaries[q]? = some bs ∧ ∃ b ∈ bs,
    ins.val b.left (i - i') ≠ 0 ∧ c = (ins.val b.left (i - i') * b.weight * s.val q i' j, b.right)) ∨
  (∃ j' q, j < j' ∧ j' ≤ n ∧ q < A.states ∧ s.val q i j' ≠ 0 ∧ ∃ bs, A.tdBinaries[q]? = some bs ∧ ∃ b ∈ bs,
    ins.val b.right (j' - j) ≠ 0 ∧ c = (b.weight * ins.val b.right (j' - j) * s.val q i j', b.left))

theorem useLeft_eq {ins : SxInside W} {size : Nat} {b : TdBinary W} {w : W} (hi : ins.table.length = ins.states * n) (hb : b.left < ins.states)
    (h1 : 1 ≤ size) (hr : size ≤ n) :
    useLeft ins size w b = some (if ins.val b.left size = 0 then none else some (ins.val b.left size * b.weight * w, b.right)) := by
  unfold useLeft
  rw [SxInside.get_eq hi hb h1 hr]
  by_cases h0 : ins.val b.left size = 0 <;> simp [h0]

theorem useRight_eq {ins : SxInside W} {size : Nat} {b : TdBinary W} {w : W} (hi : ins.table.length = ins.states * n) (hb : b.right < ins.states)
    (h1 : 1 ≤ size) (hr : size ≤ n) :
    useRight ins size w b = some (if ins.val b.right size = 0 then none else some (b.weight * ins.val b.right size * w, b.left)) := by
  unfold useRight
  rw [SxInside.get_eq hi hb h1 hr]
  by_cases h0 : ins.val b.right size = 0 <;> simp [h0]

theorem useState_eq {f : W → TdBinary W → Option (Option (W × Nat))} {v : TdBinary W → W} {g : W → TdBinary W → W × Nat} (hA : A.TdWF)
    (hf : ∀ w (b : TdBinary W), b.left < A.states → b.right < A.states → f w b = some (if v b = 0 then none else some (g w b))) {q : Nat} {w : W}
    (hq : q < A.states) : ∃ new, useState A f (q, w) = some new ∧ ∀ c, c ∈ new ↔ ∃ bs, A.tdBinaries[q]? = some bs ∧ ∃ b ∈ bs, v b ≠ 0 ∧ c = g w b := by
  have hbs : A.tdBinaries[q]? = some (A.tdBinaries[q]'(hA.binaries ▸ hq)) := List.getElem?_eq_getElem _
  have hf' : ∀ b ∈ A.tdBinaries[q]'(hA.binaries ▸ hq), f w b = some (if v b = 0 then none else some (g w b)) :=
    fun b hb => hf w b (hA.binary q _ hbs b hb).1 (hA.binary q _ hbs b hb).2
  unfold useState
  rw [hbs]
  simp only [Option.some.injEq, exists_eq_left']
  obtain ⟨new, hnew⟩ := filterMapP_isSome (f := f w) (l := A.tdBinaries[q]'(hA.binaries ▸ hq)) fun b hb => by rw [hf' b hb]; simp
  refine ⟨new, hnew, fun c => ?_⟩
  rw [filterMapP_mem hnew]
  refine exists_congr fun b => and_congr_right fun hb => ?_
  rw [hf' b hb]
  by_cases h0 : v b = 0 <;> simp [h0, eq_comm]

theorem useSpan_eq {s : SxOutside W} {f : W → TdBinary W → Option (Option (W × Nat))} {v : TdBinary W → W} {g : W → TdBinary W → W × Nat} (hA : A.TdWF)
    (hs : s.states = A.states) (hm : s.maxrange = n) (hl : s.table.length = chartSize n * s.states)
    (hf : ∀ w (b : TdBinary W), b.left < A.states → b.right < A.states → f w b = some (if v b = 0 then none else some (g w b))) {i j : Nat}
    (hij : i < j) (hj : j ≤ n) :
    ∃ new, useSpan A s f i j = some new ∧ ∀ c, c ∈ new ↔ ∃ q, q < A.states ∧ s.val q i j ≠ 0 ∧ ∃ bs, A.tdBinaries[q]? = some bs ∧ ∃ b ∈ bs,
      v b ≠ 0 ∧ c = g (s.val q i j) b := by
  obtain ⟨ls, hls, hmem⟩ := iterateStates_eq hm hl hij hj
  unfold useSpan
  rw [hls]
  simp only
  obtain ⟨new, hnew⟩ := flatMapP_isSome (f := useState A f) (l := ls) fun l hl' => by
    obtain ⟨hq, _⟩ := (hmem l.1 l.2).1 hl'
    obtain ⟨new, hn, _⟩ := useState_eq (w := l.2) hA hf (hs ▸ hq)
    exact Option.ne_none_iff_exists'.2 ⟨new, hn⟩
  refine ⟨new, hnew, fun c => ?_⟩
  rw [flatMapP_mem hnew]
  constructor
  · rintro ⟨⟨q, w⟩, hl', ys, hys, hc⟩
    obtain ⟨hq, rfl, h0⟩ := (hmem q w).1 hl'
    obtain ⟨new', hn, hn'⟩ := useState_eq (w := s.val q i j) hA hf (hs ▸ hq)
    rw [hn] at hys
    cases hys
    exact ⟨q, hs ▸ hq, h0, (hn' c).1 hc⟩
  · rintro ⟨q, hq, h0, hc⟩
    obtain ⟨new', hn, hn'⟩ := useState_eq (w := s.val q i j) hA hf hq
    exact ⟨(q, s.val q i j), (hmem _ _).2 ⟨hs ▸ hq, rfl, h0⟩, new', hn, (hn' c).2 hc⟩

theorem queue_spec {ins : SxInside W} {s : SxOutside W} {i j : Nat} (hA : A.TdWF) (his : ins.states = A.states) (hi : ins.table.length = ins.states * n)
    (hs : s.states = A.states) (hm : s.maxrange = n) (hl : s.table.length = chartSize n * s.states) (hij : i < j) (hj : j ≤ n) :
    ∃ queue, s.queue A ins n i j = some queue ∧ ∀ c, c ∈ queue ↔ QueueItem A ins s n i j c := by
  have hL : ∀ i', i' < i → ∃ new, useSpan A s (useLeft ins (i - i')) i' j = some new ∧ ∀ c, c ∈ new ↔ ∃ q, q < A.states ∧ s.val q i' j ≠ 0 ∧
      ∃ bs, A.tdBinaries[q]? = some bs ∧ ∃ b ∈ bs, ins.val b.left (i - i') ≠ 0 ∧ c = (ins.val b.left (i - i') * b.weight * s.val q i' j, b.right) := by
    intro i' hi'
    exact useSpan_eq (v := fun b => ins.val b.left (i - i')) (g := fun w b => (ins.val b.left (i - i') * b.weight * w, b.right)) hA hs hm hl
      (fun w b hb _ => useLeft_eq hi (his ▸ hb) (by omega) (by omega)) (by omega) hj
  have hR : ∀ j', j < j' → j' ≤ n → ∃ new, useSpan A s (useRight ins (j' - j)) i j' = some new ∧ ∀ c, c ∈ new ↔ ∃ q, q < A.states ∧ s.val q i j' ≠ 0 ∧
      ∃ bs, A.tdBinaries[q]? = some bs ∧ ∃ b ∈ bs, ins.val b.right (j' - j) ≠ 0 ∧ c = (b.weight * ins.val b.right (j' - j) * s.val q i j', b.left) := by
    intro j' hj' hjn
    exact useSpan_eq (v := fun b => ins.val b.right (j' - j)) (g := fun w b => (b.weight * ins.val b.right (j' - j) * w, b.left)) hA hs hm hl
      (fun w b _ hb => useRight_eq hi (his ▸ hb) (by omega) (by omega)) (by omega) hjn
  obtain ⟨ls, hls⟩ := flatMapP_isSome (l := List.range i) (f := fun i' : Nat => useSpan A s (useLeft ins (i - i')) i' j) fun i' hi' => by
    obtain ⟨new, hn, _⟩ := hL i' (List.mem_range.1 hi')
    exact Option.ne_none_iff_exists'.2 ⟨new, hn⟩
  obtain ⟨rs, hrs⟩ := flatMapP_isSome (l := List.range' (j + 1) (n - j)) (f := fun j' : Nat => useSpan A s (useRight ins (j' - j)) i j') fun j' hj' => by
    rw [List.mem_range'_1] at hj'
    obtain ⟨new, hn, _⟩ := hR j' (by omega) (by omega)
    exact Option.ne_none_iff_exists'.2 ⟨new, hn⟩
  refine ⟨_, by unfold queue; simp only; rw [hls, hrs], fun c => ?_⟩
  rw [List.mem_append, List.mem_append, or_assoc]
  refine or_congr ?_ (or_congr ?_ ?_)
  · by_cases h : j - i = n <;> simp [h]
  · rw [flatMapP_mem hls]
    constructor
    · rintro ⟨i', hi', ys, hys, hc⟩
      obtain ⟨new, hn, hn'⟩ := hL i' (List.mem_range.1 hi')
      rw [hn] at hys
      cases hys
      obtain ⟨q, h⟩ := (hn' c).1 hc
      exact ⟨i', q, List.mem_range.1 hi', h⟩
    · rintro ⟨i', q, h1, h⟩
      obtain ⟨new, hn, hn'⟩ := hL i' h1
      exact ⟨i', List.mem_range.2 h1, new, hn, (hn' c).2 ⟨q, h⟩⟩
  · rw [flatMapP_mem hrs]
    constructor
    · rintro ⟨j', hj', ys, hys, hc⟩
      rw [List.mem_range'_1] at hj'
      obtain ⟨new, hn, hn'⟩ := hR j' (by omega) (by omega)
      rw [hn] at hys
      cases hys
      obtain ⟨q, h⟩ := (hn' c).1 hc
      exact ⟨j', q, by omega, by omega, h⟩
    · rintro ⟨j', q, h1, h2, h⟩
      obtain ⟨new, hn, hn'⟩ := hR j' h1 h2
      exact ⟨j', by rw [List.mem_range'_1]; omega, new, hn, (hn' c).2 ⟨q, h⟩⟩

theorem mem_spans {p : Nat × Nat} : p ∈ spans n ↔ p.1 < p.2 ∧ p.2 ≤ n := by
  unfold spans
  simp only [List.mem_flatMap, List.mem_reverse, List.mem_range'_1, List.mem_map, List.mem_range]
  constructor
  · rintro ⟨k, hk, l, hl, rfl⟩
    simp only
    omega
  · rintro ⟨h1, h2⟩
    exact ⟨p.2 - p.1, by omega, p.1, by omega, by ext <;> simp; omega⟩

theorem spans_sorted (n : Nat) : (spans n).Pairwise fun p p' => p ≠ p' ∧ p'.2 - p'.1 ≤ p.2 - p.1 := by
  unfold spans
  rw [List.pairwise_flatMap]
  constructor
  · intro k _
    rw [List.pairwise_map]
    refine List.Pairwise.imp ?_ (List.pairwise_lt_range (n := n - k + 1))
    intro x y hxy
    refine ⟨?_, by simp⟩
    intro h
    rw [Prod.mk.injEq] at h
    omega
  · rw [List.pairwise_reverse]
    refine List.Pairwise.imp ?_ List.pairwise_lt_range'
    intro x y hxy p hp p' hp'
    simp only [List.mem_map] at hp hp'
    obtain ⟨l, _, rfl⟩ := hp
    obtain ⟨l', _, rfl⟩ := hp'
    refine ⟨?_, by simp; omega⟩
    intro h
    rw [Prod.mk.injEq] at h
    omega

/-- The spans in `pre` are complete. -/
structure OutInv (A : CsAutomaton T W) (ins : SxInside W) (n : Nat) (pre : List (Nat × Nat)) (s : SxOutside W) : Prop where
  states : s.states = A.states
  maxrange : s.maxrange = n
  len : s.table.length = chartSize n * s.states
  zero : ∀ q i j, q < A.states → i < j → j ≤ n → (i, j) ∉ pre → s.val q i j = 0
  one : ∀ q i j, q < A.states → i < j → j ≤ n → s.val q i j ≤ 1
  item : ∀ i j, (i, j) ∈ pre → ∀ q w, ChainReal (chain A) (QueueItem A ins s n i j) w q → w ≤ s.val q i j

theorem chainReal_lt {ins : SxInside W} {s : SxOutside W} {i j q : Nat} {w : W} (hA : A.TdWF) (hin : A.initial < A.states)
    (h : ChainReal (chain A) (QueueItem A ins s n i j) w q) : q < A.states := by
  cases h with
  | base h =>
    rcases h with ⟨_, h⟩ | ⟨i', q', _, _, _, bs, hbs, b, hb, _, h⟩ | ⟨i', q', _, _, _, _, bs, hbs, b, hb, _, h⟩
    · rw [Prod.mk.injEq] at h
      rw [h.2]
      exact hin
    · rw [Prod.mk.injEq] at h
      rw [h.2]
      exact (hA.binary q' bs hbs b hb).2
    · rw [Prod.mk.injEq] at h
      rw [h.2]
      exact (hA.binary q' bs hbs b hb).1
  | step _ h =>
    obtain ⟨rid, us, hus, hu⟩ := h
    exact hA.unary _ us hus _ hu

theorem step_spec {ins : SxInside W} {s : SxOutside W} {pre : List (Nat × Nat)} {i j : Nat} (hB : A.BuWF) (hA : A.TdWF) (h1 : A.LeOne)
    (hin : A.initial < A.states) (hi : SxInside.InsInv A n n ins) (hij : i < j) (hj : j ≤ n) (hs : OutInv A ins n pre s) (hpre : (i, j) ∉ pre)
    (hbig : ∀ p ∈ pre, j - i ≤ p.2 - p.1) (hval : ∀ p ∈ pre, p.1 < p.2 ∧ p.2 ≤ n) :
    ∃ s', step A ins n s (i, j) = some s' ∧ OutInv A ins n (pre ++ [(i, j)]) s' := by
  obtain ⟨queue, hq, hmem⟩ := queue_spec hA hi.states hi.len hs.states hs.maxrange hs.len hij hj
  have hU : ∀ q₁ q u, chain A q₁ q u → u ≤ 1 := by
    rintro q₁ q u ⟨rid, us, hus, hu⟩
    obtain ⟨l, hl, hb⟩ := (hA.unary_iff rid q₁ q u).1 ⟨us, hus, hu⟩
    exact h1.unary _ l hl _ hb
  have hBle : ∀ (q : Nat) bs, A.tdBinaries[q]? = some bs → ∀ b ∈ bs, b.weight ≤ 1 := by
    intro q bs hbs b hb
    obtain ⟨l, hl, hb'⟩ := (hA.binary_iff b.rid q b.left b.right b.weight).1 ⟨bs, hbs, hb⟩
    exact h1.binary _ l hl _ hb'
  have hle : ∀ c, QueueItem A ins s n i j c → c.1 ≤ 1 := by
    rintro c (⟨_, rfl⟩ | ⟨i', q, h2, h3, h4, bs, hbs, b, hb, h5, rfl⟩ | ⟨j', q, h2, h2', h3, h4, bs, hbs, b, hb, h5, rfl⟩)
    · exact le_refl _
    · exact mul_le_one' (mul_le_one' (hi.one _ _ (hA.binary q bs hbs b hb).1 (by omega) (by omega)) (hBle q bs hbs b hb))
        (hs.one q i' j h3 (by omega) hj)
    · exact mul_le_one' (mul_le_one' (hBle q bs hbs b hb) (hi.one _ _ (hA.binary q bs hbs b hb).2 (by omega) (by omega)))
        (hs.one q i j' h3 (by omega) h2')
  obtain ⟨s', g1, g2, gm, g3, g4, g5, g6⟩ := close_spec (n := n) (B := QueueItem A ins s n i j) hA hU hij hj
    (queue.length + chainRules A + 1) s (List.replicate s.states false) queue hs.states hs.maxrange hs.len (by simp [hs.states])
    (fun c hc => chainReal_lt hA hin (.base ((hmem c).1 hc)))
    (by
      have := pendingRules_le A.tdUnaries (List.replicate s.states false)
      unfold chainRules
      omega)
    (fun c hc => hle c ((hmem c).1 hc))
    (fun q hq' => hs.one q i j hq' hij hj)
    (fun q hq' _ => hs.zero q i j hq' hij hj hpre)
    (fun c hc _ => (hmem c).2 hc)
    (by
      intro q₁ q u hm
      rw [List.getElem?_replicate] at hm
      split at hm <;> simp at hm)
    (by
      intro q u hm
      rw [List.getElem?_replicate] at hm
      split at hm <;> simp at hm)
  refine ⟨s', by unfold step; simp only; rw [hq]; exact g1, g2, gm, g3, ?_, ?_, ?_⟩
  · intro q i' j' hqs h2 h3 hn
    rw [List.mem_append, List.mem_singleton, not_or] at hn
    rw [g4 q i' j' hqs h2 h3 (by rintro ⟨rfl, rfl⟩; exact hn.2 rfl)]
    exact hs.zero q i' j' hqs h2 h3 hn.1
  · intro q i' j' hqs h2 h3
    by_cases heq : i' = i ∧ j' = j
    · obtain ⟨rfl, rfl⟩ := heq
      exact g5 q hqs
    · rw [g4 q i' j' hqs h2 h3 heq]
      exact hs.one q i' j' hqs h2 h3
  · intro i' j' hm q w hw
    have hsize : j - i ≤ j' - i' ∧ i' < j' ∧ j' ≤ n := by
      rcases List.mem_append.1 hm with hm | hm
      · exact ⟨hbig _ hm, hval _ hm⟩
      · rw [List.mem_singleton, Prod.mk.injEq] at hm
        obtain ⟨rfl, rfl⟩ := hm
        exact ⟨le_refl _, hij, hj⟩
    have hitem : ∀ c, QueueItem A ins s' n i' j' c → QueueItem A ins s n i' j' c := by
      rintro c (h | ⟨i₁, q, h2, h3, h4, bs, hbs, b, hb, h5, h6⟩ | ⟨j₁, q, h2, h2', h3, h4, bs, hbs, b, hb, h5, h6⟩)
      · exact .inl h
      · rw [g4 q i₁ j' h3 (by omega) (by omega) (by rintro ⟨rfl, rfl⟩; omega)] at h4 h6
        exact .inr (.inl ⟨i₁, q, h2, h3, h4, bs, hbs, b, hb, h5, h6⟩)
      · rw [g4 q i' j₁ h3 (by omega) (by omega) (by rintro ⟨rfl, rfl⟩; omega)] at h4 h6
        exact .inr (.inr ⟨j₁, q, h2, h2', h3, h4, bs, hbs, b, hb, h5, h6⟩)
    have hw' : ChainReal (chain A) (QueueItem A ins s n i' j') w q := by
      clear hs
      induction hw with
      | base h => exact .base (hitem _ h)
      | step _ h ih => exact .step ih h
    have hqs := chainReal_lt hA hin hw'
    by_cases heq : i' = i ∧ j' = j
    · obtain ⟨rfl, rfl⟩ := heq
      exact g6 q w hw'
    · rw [g4 q i' j' hqs hsize.2.1 hsize.2.2 heq]
      rcases List.mem_append.1 hm with hm | hm
      · exact hs.item i' j' hm q w hw'
      · rw [List.mem_singleton, Prod.mk.injEq] at hm
        exact absurd hm heq

theorem fromAutomaton_spec (hB : A.BuWF) (hA : A.TdWF) (hk : (A.buInitials.map Prod.fst).Nodup) (h1 : A.LeOne) (hin : A.initial < A.states) :
    ∃ ins s, fromAutomaton A n = some s ∧ SxInside.InsInv A n n ins ∧ OutInv A ins n (spans n) s := by
  obtain ⟨ins, hins, hi⟩ := SxInside.fromAutomaton_spec (maxrange := n) hB hk h1
  have key : ∀ (post pre : List (Nat × Nat)) (s : SxOutside W), spans n = pre ++ post → OutInv A ins n pre s →
      ∃ s', post.foldlM (step A ins n) s = some s' ∧ OutInv A ins n (spans n) s' := by
    intro post
    induction post with
    | nil =>
      intro pre s hp hs
      rw [List.append_nil] at hp
      exact ⟨s, rfl, hp ▸ hs⟩
    | cons p post ih =>
      intro pre s hp hs
      obtain ⟨i, j⟩ := p
      have hsort := spans_sorted n
      rw [hp, List.pairwise_append] at hsort
      have hmem : (i, j) ∈ spans n := by rw [hp]; simp
      rw [mem_spans] at hmem
      obtain ⟨s', h2, h3⟩ := step_spec hB hA h1 hin hi hmem.1 hmem.2 hs (fun h => (hsort.2.2 _ h _ (.head _)).1 rfl)
        (fun p hp' => (hsort.2.2 p hp' _ (.head _)).2) (fun p hp' => mem_spans.1 (by rw [hp]; exact List.mem_append_left _ hp'))
      rw [List.foldlM_cons, h2]
      exact ih (pre ++ [(i, j)]) s' (by simp [hp]) h3
  have hlen : A.states * n * (n + 1) / 2 = chartSize n * A.states := by
    have := chartSizeWithStates_eq n A.states
    rw [← this]
    unfold chartSizeWithStates
    congr 1
    ring
  obtain ⟨s, h2, h3⟩ := key (spans n) [] (withCapacity A.states n) (by simp) (by
    have hz : ∀ q i j, (withCapacity A.states n : SxOutside W).val q i j = 0 := by
      intro q i j
      unfold val withCapacity
      simp only
      cases index _ q i j with
      | none => rfl
      | some k =>
        simp only [Option.bind_some]
        rw [List.getElem?_replicate]
        split <;> rfl
    refine ⟨rfl, rfl, by simp [withCapacity, hlen], fun q i j _ _ _ _ => hz q i j, fun q i j _ _ _ => by rw [hz]; exact zero_le, by simp⟩)
  exact ⟨ins, s, by unfold fromAutomaton; rw [hins]; exact h2, hi, h3⟩

/-- The estimate for an item of a word of length `m`. -/
def est (s : SxOutside W) (q i j m : Nat) : W := if s.maxrange ≤ i + m - j then 1 else s.val q i (j + s.maxrange - m)

theorem get_eq_est {s : SxOutside W} {q i j m : Nat} (hm : s.maxrange = n) (hl : s.table.length = chartSize n * s.states) (hq : q < s.states) (hij : i < j)
    (hj : j ≤ m) (hne : (1 : W) ≠ 0) : s.get q i j m = some (if s.est q i j m = 0 then none else some (s.est q i j m)) := by
  unfold get est
  rw [if_neg (by omega)]
  by_cases h : s.maxrange ≤ i + m - j
  · simp only [if_pos h]
    rw [if_neg hne]
  · simp only [if_neg h]
    rw [if_neg (by omega)]
    obtain ⟨k, c, hc, hk, h1, h2, h3⟩ := index_eq hm hl hq (by omega : i < j + s.maxrange - m) (by omega)
    simp only [h1, h3]

theorem derives_le_one {filter : List Bool} {word : List T} {ok : Nat → Nat → Nat → Prop} {i j q : Nat} {t : BinTree} {w : W} (h1 : A.LeOne)
    (hd : (buGrammar A filter).Derives word ok i j q t w) : w ≤ 1 := by
  induction hd with
  | nullary ha hr ho =>
    obtain ⟨_, l, hl, hb⟩ := hr
    exact h1.initial _ l hl _ hb
  | unary hr ho hd ih =>
    obtain ⟨_, l, hl, hb⟩ := hr
    exact mul_le_one' (h1.unary _ l hl _ hb) ih
  | binary hr ho hd₁ hd₂ ih₁ ih₂ =>
    obtain ⟨_, l, hl, hb⟩ := hr
    exact mul_le_one' (mul_le_one' (h1.binary _ l hl _ hb) ih₁) ih₂

section contains
variable {ins : SxInside W} {s : SxOutside W} {filter : List Bool} {word : List T} {ok : Nat → Nat → Nat → Prop}

theorem est_le_one (hs : OutInv A ins n (spans n) s) {q i j m : Nat} (hq : q < A.states) (hij : i < j) (hj : j ≤ m) : s.est q i j m ≤ 1 := by
  unfold est
  split
  · exact le_refl _
  · rename_i h
    have := hs.maxrange
    exact hs.one q i _ hq (by omega) (by omega)

/-- The weight `v` of a context for an item is bounded by the estimate. -/
def CtxOk (A : CsAutomaton T W) (ins : SxInside W) (s : SxOutside W) (n m q i j : Nat) (v : W) : Prop :=
  v = 0 ∨ (v ≤ 1 ∧ (n ≤ i + m - j ∨ ∃ v', v ≤ v' ∧ ChainReal (chain A) (QueueItem A ins s n i (j + n - m)) v' q))

theorem CtxOk.root {m : Nat} (hm : 0 < m) : CtxOk A ins s n m A.initial 0 m 1 := by
  refine .inr ⟨le_refl _, ?_⟩
  by_cases h : n ≤ 0 + m - m
  · exact .inl h
  · exact .inr ⟨1, le_refl _, .base (.inl ⟨by omega, rfl⟩)⟩

theorem CtxOk.le_est (hs : OutInv A ins n (spans n) s) {m q i j : Nat} {v : W} (h : CtxOk A ins s n m q i j v) (hij : i < j) (hj : j ≤ m) :
    v ≤ s.est q i j m := by
  rcases h with rfl | ⟨h1, h⟩
  · exact zero_le
  · unfold est
    rw [hs.maxrange]
    split
    · exact h1
    · rename_i hn
      rcases h with h | ⟨v', h2, h3⟩
      · exact absurd h hn
      · exact h2.trans (hs.item i (j + n - m) (mem_spans.2 ⟨by simp only; omega, by simp only; omega⟩) q v' h3)

theorem CtxOk.unary (hA : A.TdWF) (h1 : A.LeOne) {m q q₁ i j rid : Nat} {v w : W} (h : CtxOk A ins s n m q i j v)
    (hr : (buGrammar A filter).unary rid q q₁ w) : CtxOk A ins s n m q₁ i j (w * v) := by
  obtain ⟨_, l, hl, hb⟩ := hr
  rcases h with rfl | ⟨h2, h⟩
  · exact .inl (mul_zero _)
  · refine .inr ⟨mul_le_one' (h1.unary _ l hl _ hb) h2, ?_⟩
    rcases h with h | ⟨v', h3, h4⟩
    · exact .inl h
    · exact .inr ⟨w * v', mul_le_mul_right h3 w, .step h4 ⟨rid, (hA.unary_iff rid q q₁ w).2 ⟨l, hl, hb⟩⟩⟩

theorem CtxOk.left (hB : A.BuWF) (hA : A.TdWF) (h1 : A.LeOne) (hi : SxInside.InsInv A n n ins) (hs : OutInv A ins n (spans n) s)
    {m q q₁ q₂ i k j rid : Nat} {v w w₂ : W} {t₂ : BinTree} (h : CtxOk A ins s n m q i j v)
    (hr : (buGrammar A filter).binary rid q q₁ q₂ w) (hd : (buGrammar A filter).Derives word ok k j q₂ t₂ w₂) (hik : i < k) (hj : j ≤ m) :
    CtxOk A ins s n m q₁ i k (w * w₂ * v) := by
  obtain ⟨_, l, hl, hb⟩ := hr
  have hkj := hd.span.1
  by_cases h0 : w * w₂ * v = 0
  · exact .inl h0
  have hv0 : v ≠ 0 := by rintro rfl; simp at h0
  have hw₂0 : w₂ ≠ 0 := by rintro rfl; simp at h0
  refine .inr ⟨mul_le_one' (mul_le_one' (h1.binary _ l hl _ hb) (derives_le_one h1 hd)) ?_, ?_⟩
  · exact (h.resolve_left hv0).1
  · by_cases hn : n ≤ i + m - k
    · exact .inl hn
    · have hle := h.le_est hs (by omega) hj
      unfold est at hle
      rw [hs.maxrange, if_neg (by omega)] at hle
      have hins := hi.derives hB hd (by omega)
      obtain ⟨bs, hbs, hb'⟩ := (hA.binary_iff rid q q₁ q₂ w).2 ⟨l, hl, hb⟩
      refine .inr ⟨w * ins.val q₂ (j - k) * s.val q i (j + n - m), ?_, .base (.inr (.inr ⟨j + n - m, q, by omega, by omega, ?_, ?_, bs, hbs, _, hb', ?_, ?_⟩))⟩
      · gcongr
      · exact hA.binaries ▸ (List.getElem?_eq_some_iff.1 hbs).1
      · exact fun h => hv0 (le_antisymm (h ▸ hle) zero_le)
      · have : j + n - m - (k + n - m) = j - k := by omega
        simp only [this]
        exact fun h => hw₂0 (le_antisymm (h ▸ hins) zero_le)
      · have : j + n - m - (k + n - m) = j - k := by omega
        simp only [this]

theorem CtxOk.right (hB : A.BuWF) (hA : A.TdWF) (h1 : A.LeOne) (hi : SxInside.InsInv A n n ins) (hs : OutInv A ins n (spans n) s)
    {m q q₁ q₂ i k j rid : Nat} {v w w₁ : W} {t₁ : BinTree} (h : CtxOk A ins s n m q i j v)
    (hr : (buGrammar A filter).binary rid q q₁ q₂ w) (hd : (buGrammar A filter).Derives word ok i k q₁ t₁ w₁) (hik : k < j) (hj : j ≤ m) :
    CtxOk A ins s n m q₂ k j (w₁ * w * v) := by
  obtain ⟨_, l, hl, hb⟩ := hr
  have hkj := hd.span.1
  by_cases h0 : w₁ * w * v = 0
  · exact .inl h0
  have hv0 : v ≠ 0 := by rintro rfl; simp at h0
  have hw₂0 : w₁ ≠ 0 := by rintro rfl; simp at h0
  refine .inr ⟨mul_le_one' (mul_le_one' (derives_le_one h1 hd) (h1.binary _ l hl _ hb)) ?_, ?_⟩
  · exact (h.resolve_left hv0).1
  · by_cases hn : n ≤ k + m - j
    · exact .inl hn
    · have hle := h.le_est hs (by omega) hj
      unfold est at hle
      rw [hs.maxrange, if_neg (by omega)] at hle
      have hins := hi.derives hB hd (by omega)
      obtain ⟨bs, hbs, hb'⟩ := (hA.binary_iff rid q q₁ q₂ w).2 ⟨l, hl, hb⟩
      refine .inr ⟨ins.val q₁ (k - i) * w * s.val q i (j + n - m), ?_, .base (.inr (.inl ⟨i, q, by omega, ?_, ?_, bs, hbs, _, hb', ?_, rfl⟩))⟩
      · gcongr
      · exact hA.binaries ▸ (List.getElem?_eq_some_iff.1 hbs).1
      · exact fun h => hv0 (le_antisymm (h ▸ hle) zero_le)
      · exact fun h => hw₂0 (le_antisymm (h ▸ hins) zero_le)

theorem _root_.Rustomata.Spec.BinGrammar.Contains.whole {T W : Type _} [Mul W] {G : BinGrammar T W} {word : List T} {ok : Nat → Nat → Nat → Prop}
    {i' j' q' : Nat} {t' : BinTree} {w' : W} {i j q : Nat} {t : BinTree} {w : W}
    (h : G.Contains word ok i' j' q' t' w' i j q t w) : G.Derives word ok i j q t w := by
  induction h with
  | self h => exact h
  | unary hr ho _ ih => exact .unary hr ho ih
  | left hr ho _ hd ih => exact .binary hr ho ih hd
  | right hr ho hd _ ih => exact .binary hr ho hd ih

theorem _root_.Rustomata.Spec.BinGrammar.Contains.part {T W : Type _} [Mul W] {G : BinGrammar T W} {word : List T} {ok : Nat → Nat → Nat → Prop}
    {i' j' q' : Nat} {t' : BinTree} {w' : W} {i j q : Nat} {t : BinTree} {w : W}
    (h : G.Contains word ok i' j' q' t' w' i j q t w) : G.Derives word ok i' j' q' t' w' := by
  induction h with
  | self h => exact h
  | unary _ _ _ ih => exact ih
  | left _ _ _ _ ih => exact ih
  | right _ _ _ _ ih => exact ih

/-- The context of a part has a nonzero weight, also if the multiplication is not associative. -/
theorem contains_ctx_ne_zero [NoZeroDivisors W] (hB : A.BuWF) (hA : A.TdWF) (h1 : A.LeOne) (hi : SxInside.InsInv A n n ins) (hs : OutInv A ins n (spans n) s)
    {i' j' q' i j q m : Nat} {t' t : BinTree} {w' w v : W} (hc : (buGrammar A filter).Contains word ok i' j' q' t' w' i j q t w)
    (hj : j ≤ m) (h : CtxOk A ins s n m q i j v) (hw : w ≠ 0) (hv : v ≠ 0) : ∃ v', v' ≠ 0 ∧ CtxOk A ins s n m q' i' j' v' := by
  induction hc generalizing v with
  | self _ => exact ⟨v, hv, h⟩
  | unary hr ho hc ih => exact ih hj (h.unary hA h1 hr) (right_ne_zero_of_mul hw) (mul_ne_zero (left_ne_zero_of_mul hw) hv)
  | left hr ho hc hd ih =>
    have := hc.whole.span
    have := hd.span
    have h0 := left_ne_zero_of_mul hw
    exact ih (by omega) (h.left hB hA h1 hi hs hr hd (by omega) hj) (right_ne_zero_of_mul h0)
      (mul_ne_zero (mul_ne_zero (left_ne_zero_of_mul h0) (right_ne_zero_of_mul hw)) hv)
  | right hr ho hd hc ih =>
    have := hc.whole.span
    have := hd.span
    have h0 := left_ne_zero_of_mul hw
    exact ih (by omega) (h.right hB hA h1 hi hs hr hd (by omega) hj) (right_ne_zero_of_mul hw)
      (mul_ne_zero (mul_ne_zero (right_ne_zero_of_mul h0) (left_ne_zero_of_mul h0)) hv)

/-- The estimates for the parts of a parse are not zero, also if the multiplication is not associative. -/
theorem contains_ne_zero [NoZeroDivisors W] (hB : A.BuWF) (hA : A.TdWF) (h1 : A.LeOne) (hi : SxInside.InsInv A n n ins) (hs : OutInv A ins n (spans n) s)
    {i j q : Nat} {t' t : BinTree} {w' w : W} (hc : (buGrammar A filter).Contains word ok i j q t' w' 0 word.length A.initial t w) (hw : w ≠ 0) :
    s.est q i j word.length ≠ 0 := by
  have hp := hc.part.span
  have hone : (1 : W) ≠ 0 := fun h => hw (by rw [← one_mul w, h, zero_mul])
  obtain ⟨v', h2, h3⟩ := contains_ctx_ne_zero hB hA h1 hi hs hc (le_refl _) (CtxOk.root (by omega)) hw hone
  exact fun h => h2 (le_antisymm (h ▸ h3.le_est hs hp.1 hp.2.1) zero_le)

end contains

section exact
variable {T W : Type _} [LinearOrderedCommMonoidWithZero W] [DecidableEq T] {n : Nat} {A : CsAutomaton T W} {ins : SxInside W} {s : SxOutside W}
  {filter : List Bool} {word : List T} {ok : Nat → Nat → Nat → Prop}

theorem contains_ctx (hB : A.BuWF) (hA : A.TdWF) (h1 : A.LeOne) (hi : SxInside.InsInv A n n ins) (hs : OutInv A ins n (spans n) s)
    {i' j' q' i j q m : Nat} {t' t : BinTree} {w' w v : W} (hc : (buGrammar A filter).Contains word ok i' j' q' t' w' i j q t w)
    (hj : j ≤ m) (h : CtxOk A ins s n m q i j v) : ∃ v', v * w ≤ w' * v' ∧ CtxOk A ins s n m q' i' j' v' := by
  induction hc generalizing v with
  | self _ => exact ⟨v, by rw [mul_comm], h⟩
  | unary hr ho hc ih =>
    rename_i w₀ w₁
    obtain ⟨v', h2, h3⟩ := ih hj (h.unary hA h1 hr)
    exact ⟨v', le_of_eq_of_le (by ac_rfl) h2, h3⟩
  | left hr ho hc hd ih =>
    have := hc.whole.span
    have := hd.span
    obtain ⟨v', h2, h3⟩ := ih (by omega) (h.left hB hA h1 hi hs hr hd (by omega) hj)
    exact ⟨v', le_of_eq_of_le (by ac_rfl) h2, h3⟩
  | right hr ho hd hc ih =>
    have := hc.whole.span
    have := hd.span
    obtain ⟨v', h2, h3⟩ := ih (by omega) (h.right hB hA h1 hi hs hr hd (by omega) hj)
    exact ⟨v', le_of_eq_of_le (by ac_rfl) h2, h3⟩

/-- The weight of a parse is at most the weight of any part times the estimate. -/
theorem contains_le (hB : A.BuWF) (hA : A.TdWF) (h1 : A.LeOne) (hi : SxInside.InsInv A n n ins) (hs : OutInv A ins n (spans n) s)
    {i j q : Nat} {t' t : BinTree} {w' w : W} (hc : (buGrammar A filter).Contains word ok i j q t' w' 0 word.length A.initial t w) :
    w ≤ w' * s.est q i j word.length := by
  have hp := hc.part.span
  obtain ⟨v', h2, h3⟩ := contains_ctx hB hA h1 hi hs hc (le_refl _) (CtxOk.root (by omega))
  rw [one_mul] at h2
  refine h2.trans ?_
  have := h3.le_est hs hp.1 hp.2.1
  gcongr

end exact

end SxOutside

end Rustomata
