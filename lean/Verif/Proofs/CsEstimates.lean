import Verif.Proofs.CsFillTotal
import Verif.Proofs.CsFillSound
import Verif.Proofs.CsAutomaton

/-!
# Proofs for the estimates of the Chomsky-Schützenberger parser
-/

namespace Rustomata
open Spec

/-! ### the bottom-up tables -/

theorem CsAutomaton.Rep.buWF {N T W : Type _} [DecidableEq N] [DecidableEq T] {A : CsAutomaton T W} {st : List (CsState N)}
    {ps : List (CsProd N T W × TdBrackets)} (h : A.Rep st ps) : A.BuWF := by
  have hs : A.states = st.length := h.len.1
  have hlt : ∀ {k : Nat} {s}, st[k]? = some s → k < A.states := fun h => hs ▸ (List.getElem?_eq_some_iff.1 h).1
  have hr : ∀ {k : Nat} {p}, (ps[k]?).map Prod.fst = some p → k < A.brackets.length := by
    intro k p hp
    rw [Option.map_eq_some_iff] at hp
    obtain ⟨p', hp', _⟩ := hp
    rw [h.brackets, List.length_map]
    exact (List.getElem?_eq_some_iff.1 hp').1
  refine ⟨h.len.2.1.trans hs.symm, ?_, ?_, ?_⟩
  · intro a l hl b hb
    obtain ⟨Q, h1, h2⟩ := (h.buInit a b).1 ⟨l, hl, hb⟩
    exact ⟨hlt h2, hr h1⟩
  · intro q l hl b hb
    obtain ⟨Q, S, h1, h2, h3⟩ := (h.buUn q b).1 ⟨l, hl, hb⟩
    exact ⟨hlt h2, hr h1⟩
  · intro q l hl b hb
    obtain ⟨Q, L, R, h1, h2, h3, h4⟩ := (h.buBin q b).1 ⟨l, hl, hb⟩
    exact ⟨hlt h2, hlt h4, hr h1⟩

/-! ### chains -/

/-- Weights that are obtained from the items of `B` by chain rules `U q₁ q u` from `q₁` to `q` with weight `u`. -/
inductive ChainReal {W : Type _} [Mul W] (U : Nat → Nat → W → Prop) (B : W × Nat → Prop) : W → Nat → Prop
  | base {w : W} {q : Nat} : B (w, q) → ChainReal U B w q
  | step {w u : W} {q₁ q : Nat} : ChainReal U B w q₁ → U q₁ q u → ChainReal U B (u * w) q

section
variable {W : Type _} [RoundedWeight W]

/-- As long as a state is not marked, the queue contains an item that is at least as good as all its weights. -/
theorem ChainReal.pending {U : Nat → Nat → W → Prop} {B : W × Nat → Prop} {mark : Nat → Prop} {val : Nat → W} {Q : List (W × Nat)}
    (hU : ∀ q₁ q u, U q₁ q u → u ≤ 1)
    (hA : ∀ c, B c → ¬ mark c.2 → c ∈ Q)
    (hB : ∀ q₁ q u, mark q₁ → U q₁ q u → ¬ mark q → ∃ w', (w', q) ∈ Q ∧ u * val q₁ ≤ w')
    (hC : ∀ q w, mark q → ChainReal U B w q → w ≤ val q) {w : W} {q : Nat} (h : ChainReal U B w q) (hq : ¬ mark q) : ∃ e ∈ Q, w ≤ e.1 := by
  induction h with
  | base hb => exact ⟨_, hA _ hb hq, le_refl _⟩
  | step h1 h2 ih =>
    rename_i w u q₁ q
    by_cases hm : mark q₁
    · obtain ⟨w', h3, h4⟩ := hB q₁ q u hm h2 hq
      exact ⟨_, h3, (mul_le_mul_right (hC q₁ w hm h1) u).trans h4⟩
    · obtain ⟨e, he, h3⟩ := ih hm
      exact ⟨e, he, (mul_le_of_le_one_left' (hU _ _ _ h2)).trans h3⟩

end

/-! ### inside -/

namespace SxInside
variable {T W : Type _} [RoundedWeight W] [DecidableEq T]

/-- The entry for a state and a size. -/
def val (s : SxInside W) (q range : Nat) : W := (s.table[s.states * (range - 1) + q]?).getD 0

theorem index_lt {states q range rows : Nat} (hq : q < states) (h1 : 1 ≤ range) (hr : range ≤ rows) : states * (range - 1) + q < states * rows := by
  obtain ⟨k, rfl⟩ := Nat.exists_eq_add_of_le h1
  have : states * (1 + k) ≤ states * rows := Nat.mul_le_mul_left _ hr
  rw [Nat.mul_add, Nat.mul_one] at this
  simp only [Nat.add_sub_cancel_left]
  omega

theorem get_eq {s : SxInside W} {q range rows : Nat} (hl : s.table.length = s.states * rows) (hq : q < s.states) (h1 : 1 ≤ range) (hr : range ≤ rows) :
    s.get q range = some (if s.val q range = 0 then none else some (s.val q range)) := by
  unfold get index val
  rw [if_neg (by omega)]
  simp only
  rw [List.getElem?_eq_getElem (by rw [hl]; exact index_lt hq h1 hr)]
  simp

theorem insert_eq {s : SxInside W} {q range rows : Nat} (hl : s.table.length = s.states * rows) (hq : q < s.states) (h1 : 1 ≤ range) (hr : range ≤ rows)
    (w : W) : ∃ s', s.insert q range w = some s' ∧ s'.states = s.states ∧ s'.table.length = s.states * rows ∧
      ∀ q' range', q' < s.states → 1 ≤ range' → s'.val q' range' = if q' = q ∧ range' = range ∧ s.val q range = 0 then w else s.val q' range' := by
  have hlt : s.states * (range - 1) + q < s.table.length := by rw [hl]; exact index_lt hq h1 hr
  have hv : s.table[s.states * (range - 1) + q]? = some (s.val q range) := by
    unfold val
    rw [List.getElem?_eq_getElem hlt]
    rfl
  unfold insert index
  rw [if_neg (by omega)]
  simp only [hv]
  by_cases h0 : s.val q range = 0
  · refine ⟨_, rfl, ?_, ?_, ?_⟩
    · rw [if_pos h0]
    · rw [if_pos h0]
      simpa using hl
    · intro q' range' hq' h1'
      rw [if_pos h0]
      by_cases hqq : q' = q ∧ range' = range
      · obtain ⟨rfl, rfl⟩ := hqq
        rw [if_pos ⟨rfl, rfl, h0⟩]
        unfold val
        rw [List.getElem?_set_self hlt]
        rfl
      · rw [if_neg (fun h => hqq ⟨h.1, h.2.1⟩)]
        unfold val
        rw [List.getElem?_set_ne]
        intro heq
        obtain ⟨k, rfl⟩ := Nat.exists_eq_add_of_le h1
        obtain ⟨k', rfl⟩ := Nat.exists_eq_add_of_le h1'
        simp only [Nat.add_sub_cancel_left] at heq
        obtain ⟨h2, h3⟩ := mul_add_inj (s := s.states) (a := k) (b := k') hq hq' (by rw [Nat.mul_comm k, Nat.mul_comm k']; exact heq)
        exact hqq ⟨h3.symm, by omega⟩
  · refine ⟨_, rfl, ?_, ?_, ?_⟩
    · rw [if_neg h0]
    · rw [if_neg h0]
      exact hl
    · intro q' range' hq' h1'
      rw [if_neg h0, if_neg (fun h => h0 h.2.2)]

theorem iterateStates_eq {s : SxInside W} {range rows : Nat} (hl : s.table.length = s.states * rows) (h1 : 1 ≤ range) (hr : range ≤ rows) :
    ∃ l, s.iterateStates range = some l ∧ ∀ q w, (q, w) ∈ l ↔ q < s.states ∧ w = s.val q range ∧ w ≠ 0 := by
  have hle : (range - 1) * s.states + s.states ≤ s.table.length := by
    rw [hl]
    have : s.states * range ≤ s.states * rows := Nat.mul_le_mul_left _ hr
    obtain ⟨k, rfl⟩ := Nat.exists_eq_add_of_le h1
    simp only [Nat.add_sub_cancel_left]
    rw [Nat.mul_add, Nat.mul_one] at this
    rw [Nat.mul_comm]
    omega
  refine ⟨_, by unfold iterateStates; rw [if_neg (by omega)], ?_⟩
  intro q w
  simp only [List.mem_map, List.mem_filter, List.mem_zipIdx_iff_getElem?, Prod.mk.injEq, decide_eq_true_eq, ne_eq]
  constructor
  · rintro ⟨⟨w', q'⟩, ⟨h2, h3⟩, rfl, rfl⟩
    simp only at h2 h3
    have hq : q' < s.states := by
      have := (List.getElem?_eq_some_iff.1 h2).1
      rw [List.length_take] at this
      omega
    rw [List.getElem?_take_of_lt hq, List.getElem?_drop, Nat.mul_comm] at h2
    refine ⟨hq, ?_, h3⟩
    unfold val
    rw [h2]
    rfl
  · rintro ⟨hq, rfl, h3⟩
    refine ⟨(s.val q range, q), ⟨?_, h3⟩, rfl, rfl⟩
    simp only
    rw [List.getElem?_take_of_lt hq, List.getElem?_drop, Nat.mul_comm]
    unfold val
    have hlt : s.states * (range - 1) + q < s.table.length := by rw [hl]; exact index_lt hq h1 hr
    rw [List.getElem?_eq_getElem hlt]
    rfl

variable {A : CsAutomaton T W}

/-- The chain rules of an automaton. -/
def chain (A : CsAutomaton T W) (q₁ q : Nat) (u : W) : Prop := ∃ rid us, A.buUnaries[q₁]? = some us ∧ ⟨rid, u, q⟩ ∈ us

omit [RoundedWeight W] in
theorem follow_eq_none {filter : List Bool} {w : W} {q : Nat} : follow filter w q = none ↔ filter.length ≤ q := by
  unfold follow
  split
  · rename_i h
    rw [List.getElem?_eq_none_iff] at h
    simp [h]
  · rename_i h
    have := (List.getElem?_eq_some_iff.1 h).1
    simp [this]
  · rename_i h
    have := (List.getElem?_eq_some_iff.1 h).1
    simp [this]

omit [RoundedWeight W] in
theorem follow_eq_some {filter : List Bool} {w : W} {q : Nat} {c : W × Nat} : follow filter w q = some (some c) ↔ filter[q]? = some false ∧ c = (w, q) := by
  unfold follow
  split
  · simp_all
  · simp_all
  · simp_all [eq_comm]

/-- The loop that empties the queue. -/
theorem close_spec {range rows : Nat} {B : W × Nat → Prop} (hA : A.BuWF) (hU : ∀ q₁ q u, chain A q₁ q u → u ≤ 1) (h1 : 1 ≤ range) (hr : range ≤ rows) :
    ∀ (fuel : Nat) (s : SxInside W) (filter : List Bool) (queue : List (W × Nat)),
      s.states = A.states → s.table.length = s.states * rows → filter.length = A.states → (∀ c ∈ queue, c.2 < A.states) →
      queue.length + pendingRules A.buUnaries filter < fuel →
      (∀ c ∈ queue, c.1 ≤ 1) → (∀ q, q < A.states → s.val q range ≤ 1) →
      (∀ q, q < A.states → filter[q]? = some false → s.val q range = 0) →
      (∀ c, B c → filter[c.2]? ≠ some true → c ∈ queue) →
      (∀ q₁ q u, filter[q₁]? = some true → chain A q₁ q u → filter[q]? ≠ some true → ∃ w', (w', q) ∈ queue ∧ u * s.val q₁ range ≤ w') →
      (∀ q w, filter[q]? = some true → ChainReal (chain A) B w q → w ≤ s.val q range) →
      ∃ s', close A range fuel s filter queue = some s' ∧ s'.states = A.states ∧ s'.table.length = s'.states * rows ∧
        (∀ q range', q < A.states → 1 ≤ range' → range' ≠ range → s'.val q range' = s.val q range') ∧
        (∀ q, q < A.states → s'.val q range ≤ 1) ∧
        (∀ q w, ChainReal (chain A) B w q → w ≤ s'.val q range) := by
  intro fuel
  induction fuel with
  | zero => intros; omega
  | succ fuel ih =>
    intro s filter queue hs hl hfl hq hfuel hq1' hv1 h0 hB hC hD
    simp only [close]
    split
    · rename_i hp
      rw [csPop_none] at hp
      subst hp
      refine ⟨s, rfl, hs, hl, fun _ _ _ _ _ => rfl, hv1, fun q w h => ?_⟩
      by_cases hm : filter[q]? = some true
      · exact hD q w hm h
      · obtain ⟨e, he, _⟩ := ChainReal.pending (mark := fun q => filter[q]? = some true) (val := fun q => s.val q range) hU hB hC hD h hm
        simp at he
    rename_i w1 q1 queue' hp
    have hlen := csPop_length hp
    have hq1 : q1 < A.states := hq _ ((csPop_mem hp _).2 (.inl rfl))
    have hq' : ∀ c ∈ queue', c.2 < A.states := fun c hc => hq c ((csPop_mem hp c).2 (.inr hc))
    split
    · rename_i hf
      rw [List.getElem?_eq_none_iff] at hf
      omega
    · rename_i hf
      refine ih s filter queue' hs hl hfl hq' (by omega) (fun c hc => hq1' c ((csPop_mem hp c).2 (.inr hc))) hv1 h0 ?_ ?_ hD
      · intro c hc hm
        rcases (csPop_mem hp c).1 (hB c hc hm) with rfl | h
        · exact absurd hf hm
        · exact h
      · intro q₁ q u hm hu hm'
        obtain ⟨w', h2, h3⟩ := hC q₁ q u hm hu hm'
        rcases (csPop_mem hp _).1 h2 with heq | h
        · rw [Prod.mk.injEq] at heq
          rw [heq.2] at hm'
          exact absurd hf hm'
        · exact ⟨w', h, h3⟩
    rename_i hf
    obtain ⟨us, hus⟩ : ∃ us, A.buUnaries[q1]? = some us := ⟨_, List.getElem?_eq_getElem (by rw [hA.unaries]; exact hq1)⟩
    obtain ⟨s', hs', g1, g2, g3⟩ := insert_eq hl (hs ▸ hq1 : q1 < s.states) h1 hr w1
    rw [hs', hus]
    simp only
    have hpend := pendingRules_set hf hus
    have hv0 : s.val q1 range = 0 := h0 q1 hq1 hf
    have hval : ∀ q, q < A.states → s'.val q range = if q = q1 then w1 else s.val q range := by
      intro q hqs
      rw [g3 q range (hs ▸ hqs) h1]
      simp [hv0]
    have hlf : q1 < filter.length := by omega
    have hset : ∀ q : Nat, (filter.set q1 true)[q]? = some true ↔ q = q1 ∨ filter[q]? = some true := by
      intro q
      by_cases h : q = q1
      · subst h
        rw [List.getElem?_set_self hlf]
        simp
      · rw [List.getElem?_set_ne (Ne.symm h)]
        simp [h]
    obtain ⟨new, hnew⟩ := filterMapP_isSome (f := fun u : BuRule W => follow (filter.set q1 true) u.weight u.lhs) (l := us)
      fun u hu => by
        have := (hA.unary q1 us hus u hu).1
        rw [Ne, follow_eq_none]
        simp
        omega
    rw [hnew]
    simp only
    have hnl := filterMapP_length hnew
    have hmem : ∀ c, c ∈ new ↔ ∃ u ∈ us, (filter.set q1 true)[u.lhs]? ≠ some true ∧ c = (u.weight, u.lhs) := by
      intro c
      rw [filterMapP_mem hnew]
      refine exists_congr fun u => and_congr_right fun hu => ?_
      have := (hA.unary q1 us hus u hu).1
      rw [follow_eq_some]
      refine and_congr_left fun _ => ?_
      rw [List.getElem?_eq_getElem (by simp; omega)]
      simp
    have hnew' : ∀ c : W × Nat, ChainReal (chain A) B c.1 c.2 → c.2 = q1 → c.1 ≤ w1 := by
      intro c hc hcq
      obtain ⟨e, he, h2⟩ := ChainReal.pending (mark := fun q => filter[q]? = some true) (val := fun q => s.val q range) hU hB hC hD hc
        (by rw [hcq, hf]; simp)
      refine h2.trans ?_
      rcases (csPop_mem hp e).1 he with rfl | h
      · exact le_refl _
      · exact csPop_max hp h
    have hne : ∀ q, q < A.states → filter[q]? = some true → s'.val q range = s.val q range := by
      intro q hqs hm
      rw [hval q hqs, if_neg]
      rintro rfl
      rw [hf] at hm
      simp at hm
    have hlt : ∀ q : Nat, filter[q]? = some true → q < A.states := fun q h => hfl ▸ (List.getElem?_eq_some_iff.1 h).1
    obtain ⟨s'', k1, k2, k3, k4, k5, k6⟩ := ih s' (filter.set q1 true) (queue' ++ new) (g1.trans hs) (by rw [g1]; exact g2) (by simpa using hfl) (by
        intro c hc
        rcases List.mem_append.1 hc with hc | hc
        · exact hq' c hc
        · obtain ⟨u, hu, _, rfl⟩ := (hmem c).1 hc
          exact (hA.unary q1 us hus u hu).1) (by
        rw [List.length_append]
        omega) (by
        intro c hc
        rcases List.mem_append.1 hc with hc | hc
        · exact hq1' c ((csPop_mem hp c).2 (.inr hc))
        · obtain ⟨u, hu, _, rfl⟩ := (hmem c).1 hc
          exact hU q1 u.lhs u.weight ⟨u.rid, us, hus, hu⟩) (by
        intro q hqs
        rw [hval q hqs]
        split
        · exact hq1' _ ((csPop_mem hp _).2 (.inl rfl))
        · exact hv1 q hqs) (by
        intro q hqs hm
        have hqne : q ≠ q1 := by
          rintro rfl
          rw [List.getElem?_set_self hlf] at hm
          simp at hm
        rw [List.getElem?_set_ne (Ne.symm hqne)] at hm
        rw [hval q hqs, if_neg hqne]
        exact h0 q hqs hm) (by
        intro c hc hm
        rw [Ne, hset, not_or] at hm
        rcases (csPop_mem hp c).1 (hB c hc hm.2) with rfl | h
        · exact absurd rfl hm.1
        · exact List.mem_append_left _ h) (by
        intro q₁ q u hm hu hm'
        have hm'' := hm'
        rw [Ne, hset, not_or] at hm''
        rw [hset] at hm
        rcases hm with rfl | hm
        · obtain ⟨rid, us', hus', hu'⟩ := hu
          rw [hus] at hus'
          cases hus'
          refine ⟨u, List.mem_append_right _ ((hmem _).2 ⟨_, hu', hm', rfl⟩), ?_⟩
          rw [hval _ hq1, if_pos rfl]
          exact mul_le_of_le_one_right' (hq1' _ ((csPop_mem hp _).2 (.inl rfl)))
        · obtain ⟨w', h2, h3⟩ := hC q₁ q u hm hu hm''.2
          rw [hne q₁ (hlt _ hm) hm]
          rcases (csPop_mem hp _).1 h2 with heq | h
          · rw [Prod.mk.injEq] at heq
            exact absurd heq.2 hm''.1
          · exact ⟨w', List.mem_append_left _ h, h3⟩) (by
        intro q w hm hcr
        rw [hset] at hm
        rcases hm with rfl | hm
        · rw [hval _ hq1, if_pos rfl]
          exact hnew' (w, q) hcr rfl
        · rw [hne q (hlt _ hm) hm]
          exact hD q w hm hcr)
    refine ⟨s'', k1, k2, k3, ?_, k5, k6⟩
    intro q range' hqs h1' hne'
    rw [k4 q range' hqs h1' hne', g3 q range' (hs ▸ hqs) h1', if_neg (fun h => hne' h.2.1)]

/-- All weights are at most one. -/
structure _root_.Rustomata.CsAutomaton.LeOne (A : CsAutomaton T W) : Prop where
  initial : ∀ a l, A.buInitials.get a = some l → ∀ b ∈ l, b.weight ≤ 1
  unary : ∀ (q : Nat) l, A.buUnaries[q]? = some l → ∀ b ∈ l, b.weight ≤ 1
  binary : ∀ (q : Nat) l, A.buBinaries[q]? = some l → ∀ b ∈ l, b.weight ≤ 1

/-- The items in the queue before the loop. -/
def QueueItem (A : CsAutomaton T W) (s : SxInside W) (range : Nat) (c : W × Nat) : Prop :=
  (range = 1 ∧ ∃ a l, A.buInitials.get a = some l ∧ ∃ b ∈ l, c = (b.weight, b.lhs)) ∨
  ∃ left q, 1 ≤ left ∧ left < range ∧ q < A.states ∧ s.val q left ≠ 0 ∧ ∃ bs, A.buBinaries[q]? = some bs ∧ ∃ b ∈ bs,
    s.val b.right (range - left) ≠ 0 ∧ c = (s.val q left * b.weight * s.val b.right (range - left), b.lhs)

theorem combine_eq {s : SxInside W} {size rows : Nat} {b : BuBinary W} {w : W} (hl : s.table.length = s.states * rows) (hb : b.right < s.states)
    (h1 : 1 ≤ size) (hr : size ≤ rows) :
    s.combine size w b = some (if s.val b.right size = 0 then none else some (w * b.weight * s.val b.right size, b.lhs)) := by
  unfold combine
  rw [get_eq hl hb h1 hr]
  by_cases h0 : s.val b.right size = 0 <;> simp [h0]

theorem combineState_eq {s : SxInside W} {size rows q : Nat} {w : W} (hA : A.BuWF) (hs : s.states = A.states) (hl : s.table.length = s.states * rows)
    (hq : q < A.states) (h1 : 1 ≤ size) (hr : size ≤ rows) :
    ∃ new, s.combineState A size (q, w) = some new ∧ ∀ c, c ∈ new ↔ ∃ bs, A.buBinaries[q]? = some bs ∧ ∃ b ∈ bs,
      s.val b.right size ≠ 0 ∧ c = (w * b.weight * s.val b.right size, b.lhs) := by
  have hbs : A.buBinaries[q]? = some (A.buBinaries[q]'hq) := List.getElem?_eq_getElem hq
  have hf : ∀ b ∈ A.buBinaries[q]'hq, s.combine size w b =
      some (if s.val b.right size = 0 then none else some (w * b.weight * s.val b.right size, b.lhs)) :=
    fun b hb => combine_eq hl (hs ▸ (hA.binary q _ hbs b hb).2.1) h1 hr
  unfold combineState
  rw [hbs]
  simp only [Option.some.injEq, exists_eq_left']
  obtain ⟨new, hnew⟩ := filterMapP_isSome (f := s.combine size w) (l := A.buBinaries[q]'hq) fun b hb => by rw [hf b hb]; simp
  refine ⟨new, hnew, fun c => ?_⟩
  rw [filterMapP_mem hnew]
  refine exists_congr fun b => and_congr_right fun hb => ?_
  rw [hf b hb]
  by_cases h0 : s.val b.right size = 0 <;> simp [h0, eq_comm]

theorem combineSize_eq {s : SxInside W} {range left rows : Nat} (hA : A.BuWF) (hs : s.states = A.states) (hl : s.table.length = s.states * rows)
    (h1 : 1 ≤ left) (h2 : left < range) (hr : range ≤ rows) :
    ∃ new, s.combineSize A range left = some new ∧ ∀ c, c ∈ new ↔ ∃ q, q < A.states ∧ s.val q left ≠ 0 ∧ ∃ bs, A.buBinaries[q]? = some bs ∧ ∃ b ∈ bs,
      s.val b.right (range - left) ≠ 0 ∧ c = (s.val q left * b.weight * s.val b.right (range - left), b.lhs) := by
  obtain ⟨ls, hls, hmem⟩ := iterateStates_eq hl h1 (by omega : left ≤ rows)
  unfold combineSize
  rw [hls]
  simp only
  obtain ⟨new, hnew⟩ := flatMapP_isSome (f := s.combineState A (range - left)) (l := ls) fun l hl' => by
    obtain ⟨hq, _⟩ := (hmem l.1 l.2).1 hl'
    obtain ⟨new, hn, _⟩ := combineState_eq (w := l.2) hA hs hl (hs ▸ hq) (by omega : 1 ≤ range - left) (by omega)
    exact Option.ne_none_iff_exists'.2 ⟨new, hn⟩
  refine ⟨new, hnew, fun c => ?_⟩
  rw [flatMapP_mem hnew]
  constructor
  · rintro ⟨⟨q, w⟩, hl', ys, hys, hc⟩
    obtain ⟨hq, rfl, h0⟩ := (hmem q w).1 hl'
    obtain ⟨new', hn, hn'⟩ := combineState_eq (w := s.val q left) hA hs hl (hs ▸ hq) (by omega : 1 ≤ range - left) (by omega)
    rw [hn] at hys
    cases hys
    exact ⟨q, hs ▸ hq, h0, (hn' c).1 hc⟩
  · rintro ⟨q, hq, h0, hc⟩
    obtain ⟨new', hn, hn'⟩ := combineState_eq (w := s.val q left) hA hs hl hq (by omega : 1 ≤ range - left) (by omega)
    exact ⟨(q, s.val q left), (hmem _ _).2 ⟨hs ▸ hq, rfl, h0⟩, new', hn, (hn' c).2 hc⟩

theorem queue_spec {s : SxInside W} {range rows : Nat} (hA : A.BuWF) (hk : (A.buInitials.map Prod.fst).Nodup) (hs : s.states = A.states)
    (hl : s.table.length = s.states * rows) (hr : range ≤ rows) :
    ∃ queue, s.queue A range = some queue ∧ ∀ c, c ∈ queue ↔ QueueItem A s range c := by
  obtain ⟨new, hnew⟩ := flatMapP_isSome (l := List.range' 1 (range - 1)) (f := s.combineSize A range) fun left hleft => by
    rw [List.mem_range'_1] at hleft
    obtain ⟨new, hn, _⟩ := combineSize_eq hA hs hl (by omega : 1 ≤ left) (by omega : left < range) hr
    exact Option.ne_none_iff_exists'.2 ⟨new, hn⟩
  refine ⟨_, by unfold queue; simp only; rw [hnew]; rfl, fun c => ?_⟩
  rw [List.mem_append]
  refine or_congr ?_ ?_
  · by_cases h1 : range = 1
    · rw [if_pos h1]
      simp only [h1, true_and, List.mem_flatMap, List.mem_map, Prod.exists]
      refine exists_congr fun a => exists_congr fun l => ?_
      rw [AMap.mem_iff_get hk]
      refine and_congr_right fun _ => exists_congr fun b => and_congr_right fun _ => ?_
      exact eq_comm
    · rw [if_neg h1]
      simp [h1]
  · rw [flatMapP_mem hnew]
    constructor
    · rintro ⟨left, hleft, ys, hys, hc⟩
      rw [List.mem_range'_1] at hleft
      obtain ⟨new', hn, hn'⟩ := combineSize_eq hA hs hl (by omega : 1 ≤ left) (by omega : left < range) hr
      rw [hn] at hys
      cases hys
      obtain ⟨q, h⟩ := (hn' c).1 hc
      exact ⟨left, q, by omega, by omega, h⟩
    · rintro ⟨left, q, h1, h2, h⟩
      obtain ⟨new', hn, hn'⟩ := combineSize_eq hA hs hl h1 h2 hr
      exact ⟨left, by rw [List.mem_range'_1]; omega, new', hn, (hn' c).2 ⟨q, h⟩⟩

/-- The rows up to `k` are complete. -/
structure InsInv (A : CsAutomaton T W) (rows k : Nat) (s : SxInside W) : Prop where
  states : s.states = A.states
  len : s.table.length = s.states * rows
  zero : ∀ q n, q < A.states → k < n → s.val q n = 0
  one : ∀ q n, q < A.states → 1 ≤ n → n ≤ k → s.val q n ≤ 1
  item : ∀ n, 1 ≤ n → n ≤ k → ∀ q w, ChainReal (chain A) (QueueItem A s n) w q → w ≤ s.val q n

theorem step_spec {s : SxInside W} {rows k : Nat} (hA : A.BuWF) (hk : (A.buInitials.map Prod.fst).Nodup) (h1 : A.LeOne) (hr : k + 1 ≤ rows)
    (hs : InsInv A rows k s) : ∃ s', step A s (k + 1) = some s' ∧ InsInv A rows (k + 1) s' := by
  obtain ⟨queue, hq, hmem⟩ := queue_spec hA hk hs.states hs.len hr
  have hU : ∀ q₁ q u, chain A q₁ q u → u ≤ 1 := by
    rintro q₁ q u ⟨rid, us, hus, hu⟩
    exact h1.unary q₁ us hus _ hu
  have hlt : ∀ c, QueueItem A s (k + 1) c → c.2 < A.states := by
    rintro c (⟨_, a, l, hl, b, hb, rfl⟩ | ⟨left, q, _, _, _, _, bs, hbs, b, hb, _, rfl⟩)
    · exact (hA.initial a l hl b hb).1
    · exact (hA.binary q bs hbs b hb).1
  have hle : ∀ c, QueueItem A s (k + 1) c → c.1 ≤ 1 := by
    rintro c (⟨_, a, l, hl, b, hb, rfl⟩ | ⟨left, q, h2, h3, h4, _, bs, hbs, b, hb, _, rfl⟩)
    · exact h1.initial a l hl b hb
    · exact mul_le_one' (mul_le_one' (hs.one q left h4 h2 (by omega)) (h1.binary q bs hbs b hb))
        (hs.one _ _ (hA.binary q bs hbs b hb).2.1 (by omega) (by omega))
  obtain ⟨s', g1, g2, g3, g4, g5, g6⟩ := close_spec (B := QueueItem A s (k + 1)) hA hU (by omega : 1 ≤ k + 1) hr
    (queue.length + chainRules A + 1) s (List.replicate s.states false) queue hs.states hs.len (by simp [hs.states])
    (fun c hc => hlt c ((hmem c).1 hc))
    (by
      have := pendingRules_le A.buUnaries (List.replicate s.states false)
      unfold chainRules
      omega)
    (fun c hc => hle c ((hmem c).1 hc))
    (fun q hq' => by rw [hs.zero q _ hq' (by omega)]; exact zero_le)
    (fun q hq' _ => hs.zero q _ hq' (by omega))
    (fun c hc _ => (hmem c).2 hc)
    (by
      intro q₁ q u hm
      rw [List.getElem?_replicate] at hm
      split at hm <;> simp at hm)
    (by
      intro q u hm
      rw [List.getElem?_replicate] at hm
      split at hm <;> simp at hm)
  refine ⟨s', by unfold step; rw [hq]; exact g1, g2, g3, ?_, ?_, ?_⟩
  · intro q n hqs hn
    rw [g4 q n hqs (by omega) (by omega)]
    exact hs.zero q n hqs (by omega)
  · intro q n hqs hn hnk
    by_cases hnk' : n = k + 1
    · subst hnk'
      exact g5 q hqs
    · rw [g4 q n hqs hn hnk']
      exact hs.one q n hqs hn (by omega)
  · intro n hn hnk q w hw
    have hitem : ∀ c, QueueItem A s' n c → QueueItem A s n c := by
      rintro c (h | ⟨left, q, h2, h3, h4, h5, bs, hbs, b, hb, h6, h7⟩)
      · exact .inl h
      · have hb' := (hA.binary q bs hbs b hb).2.1
        rw [g4 q left h4 h2 (by omega)] at h5 h7
        rw [g4 b.right (n - left) hb' (by omega) (by omega)] at h6 h7
        exact .inr ⟨left, q, h2, h3, h4, h5, bs, hbs, b, hb, h6, h7⟩
    have hw' : ChainReal (chain A) (QueueItem A s n) w q := by
      clear hs
      induction hw with
      | base h => exact .base (hitem _ h)
      | step _ h ih => exact .step ih h
    have hqs : q < A.states := by
      cases hw' with
      | base h =>
        rcases h with ⟨_, a, l, hl, b, hb, heq⟩ | ⟨left, q', _, _, _, _, bs, hbs, b, hb, _, heq⟩
        · rw [Prod.mk.injEq] at heq
          rw [heq.2]
          exact (hA.initial a l hl b hb).1
        · rw [Prod.mk.injEq] at heq
          rw [heq.2]
          exact (hA.binary q' bs hbs b hb).1
      | step _ h =>
        obtain ⟨rid, us, hus, hu⟩ := h
        exact (hA.unary _ us hus _ hu).1
    by_cases hnk' : n = k + 1
    · subst hnk'
      exact g6 q w hw'
    · rw [g4 q n hqs hn hnk']
      exact hs.item n hn (by omega) q w hw'

theorem fromAutomaton_spec {maxrange : Nat} (hA : A.BuWF) (hk : (A.buInitials.map Prod.fst).Nodup) (h1 : A.LeOne) :
    ∃ s, fromAutomaton A maxrange = some s ∧ InsInv A maxrange maxrange s := by
  have key : ∀ (m k : Nat) (s : SxInside W), k + m = maxrange → InsInv A maxrange k s →
      ∃ s', (List.range' (k + 1) m).foldlM (step A) s = some s' ∧ InsInv A maxrange maxrange s' := by
    intro m
    induction m with
    | zero =>
      intro k s hk hs
      obtain rfl : k = maxrange := by omega
      exact ⟨s, rfl, hs⟩
    | succ m ih =>
      intro k s hk' hs
      obtain ⟨s', h2, h3⟩ := step_spec hA hk h1 (by omega : k + 1 ≤ maxrange) hs
      rw [List.range'_succ, List.foldlM_cons, h2]
      exact ih (k + 1) s' (by omega) h3
  refine key maxrange 0 _ (by omega) ⟨rfl, by simp [withCapacity], ?_, by intros; omega, by intros; omega⟩
  intro q n _ _
  unfold val withCapacity
  simp only
  rw [List.getElem?_replicate]
  split <;> rfl

/-- The inside estimate of a state and a size is at least the weight of each derivation. -/
theorem InsInv.derives {s : SxInside W} {maxrange : Nat} (hs : InsInv A maxrange maxrange s) (hA : A.BuWF) {filter : List Bool} {word : List T}
    {ok : Nat → Nat → Nat → Prop} {i j q : Nat} {t : BinTree} {w : W} (hd : (buGrammar A filter).Derives word ok i j q t w) (hij : j - i ≤ maxrange) :
    w ≤ s.val q (j - i) := by
  suffices h : w = 0 ∨ ∃ w', ChainReal (chain A) (QueueItem A s (j - i)) w' q ∧ w ≤ w' by
    rcases h with rfl | ⟨w', h2, h3⟩
    · exact zero_le
    · have := hd.span
      exact h3.trans (hs.item _ (by omega) hij q w' h2)
  induction hd with
  | nullary ha hr ho =>
    rename_i i q rid a w
    obtain ⟨_, l, hl, hb⟩ := hr
    exact .inr ⟨w, .base (.inl ⟨by omega, a, l, hl, _, hb, rfl⟩), le_refl _⟩
  | unary hr ho hd ih =>
    rename_i i j q q₁ rid t w w₁
    obtain ⟨_, l, hl, hb⟩ := hr
    rcases ih hij with rfl | ⟨w', h2, h3⟩
    · exact .inl (mul_zero _)
    · exact .inr ⟨w * w', .step h2 ⟨rid, l, hl, hb⟩, mul_le_mul_right h3 w⟩
  | binary hr ho hd₁ hd₂ ih₁ ih₂ =>
    rename_i i m j q q₁ q₂ rid t₁ t₂ w w₁ w₂
    obtain ⟨_, l, hl, hb⟩ := hr
    have hs₁ := hd₁.span
    have hs₂ := hd₂.span
    have hv₁ : w₁ ≤ s.val q₁ (m - i) := by
      rcases ih₁ (by omega) with rfl | ⟨w', h2, h3⟩
      · exact zero_le
      · exact h3.trans (hs.item _ (by omega) (by omega) _ _ h2)
    have hv₂ : w₂ ≤ s.val q₂ (j - m) := by
      rcases ih₂ (by omega) with rfl | ⟨w', h2, h3⟩
      · exact zero_le
      · exact h3.trans (hs.item _ (by omega) (by omega) _ _ h2)
    by_cases h0 : s.val q₁ (m - i) = 0
    · left
      rw [h0] at hv₁
      rw [le_antisymm hv₁ zero_le]
      simp
    by_cases h0' : s.val q₂ (j - m) = 0
    · left
      rw [h0'] at hv₂
      rw [le_antisymm hv₂ zero_le]
      simp
    have hq₁ : q₁ < A.states := (List.getElem?_eq_some_iff.1 hl).1
    have heq : j - i - (m - i) = j - m := by omega
    refine .inr ⟨_, .base (.inr ⟨m - i, q₁, by omega, by omega, hq₁, h0, l, hl, _, hb, by rw [heq]; exact h0', rfl⟩), ?_⟩
    simp only
    rw [heq, mul_comm w w₁]
    gcongr

end SxInside

end Rustomata
