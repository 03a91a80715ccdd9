import Verif.Proofs.CsKBestRead
import Verif.Proofs.CsAlive

/-!
# The forest of a chart
-/

namespace Rustomata
open Spec KForest

section
variable {N T W : Type _}

/-- The identifier of a rule determines the rule. -/
structure GrammarDet (G : BinGrammar T W) : Prop where
  nullary : ∀ {rid q q' a a' w w'}, G.nullary rid q a w → G.nullary rid q' a' w' → w = w'
  unary : ∀ {rid q q' q₁ q₁' w w'}, G.unary rid q q₁ w → G.unary rid q' q₁' w' → q₁ = q₁' ∧ w = w'
  binary : ∀ {rid q q' q₁ q₁' q₂ q₂' w w'}, G.binary rid q q₁ q₂ w → G.binary rid q' q₁' q₂' w' → q₁ = q₁' ∧ q₂ = q₂' ∧ w = w'

theorem numGrammar_det {st : List (CsState N)} {ps : List (CsProd N T W × TdBrackets)} (filter : List Bool) (hn : st.Nodup) : GrammarDet (numGrammar st ps filter) := by
  refine ⟨?_, ?_, ?_⟩
  · rintro rid q q' a a' w w' ⟨_, Q, h1, h2⟩ ⟨_, Q', h1', h2'⟩
    rw [h1] at h1'
    cases h1'
    rfl
  · rintro rid q q' q₁ q₁' w w' ⟨_, Q, S, h1, h2, h3⟩ ⟨_, Q', S', h1', h2', h3'⟩
    rw [h1] at h1'
    cases h1'
    exact ⟨nodup_index hn h3 h3', rfl⟩
  · rintro rid q q' q₁ q₁' q₂ q₂' w w' ⟨_, Q, L, R, h1, h2, h3, h4⟩ ⟨_, Q', L', R', h1', h2', h3', h4'⟩
    rw [h1] at h1'
    cases h1'
    exact ⟨nodup_index hn h3 h3', nodup_index hn h4 h4', rfl⟩

end

section
variable {N T W : Type _} [DecidableEq N] [DecidableEq T] [RoundedWeight W]

/-- The weights in a chart. -/
def chartWeight (chart : DenseChart W) (i j q : Nat) : Option W := (chart.getWeight i j q).getD none

/-- Candidates of an item. -/
def BtCand (G : BinGrammar T W) (cw : Nat → Nat → Nat → Option W) (i j q : Nat) (w : W) : Backtrace W → Prop
  | .nullary rid v => w = v ∧ j = i + 1 ∧ ∃ a, G.nullary rid q a v
  | .unary rid q₁ v k => k = 0 ∧ G.unary rid q q₁ v ∧ ∃ w₁, cw i j q₁ = some w₁ ∧ w = v * w₁
  | .binary rid q₁ m q₂ v k₁ k₂ => k₁ = 0 ∧ k₂ = 0 ∧ i < m ∧ m < j ∧ G.binary rid q q₁ q₂ v ∧ ∃ w₁ w₂, cw i m q₁ = some w₁ ∧ cw m j q₂ = some w₂ ∧ w = v * (w₁ * w₂)

omit [DecidableEq T] in
theorem BtCand.det {G : BinGrammar T W} {cw : Nat → Nat → Nat → Option W} (hG : GrammarDet G) {i j q : Nat} {w w' : W} {b b' : Backtrace W} (h : BtCand G cw i j q w b)
    (h' : BtCand G cw i j q w' b') (hk : b.key = b'.key) : w = w' ∧ b = b' := by
  cases b <;> cases b' <;> simp [Backtrace.key] at hk
  · rename_i rid q₁ m q₂ v k₁ k₂ rid' q₁' m' q₂' v' k₁' k₂'
    obtain ⟨rfl, rfl, rfl, rfl⟩ := hk
    obtain ⟨_, _, _, _, h1, w₁, w₂, h2, h3, rfl⟩ := h
    obtain ⟨_, _, _, _, h1', w₁', w₂', h2', h3', rfl⟩ := h'
    obtain ⟨rfl, rfl, rfl⟩ := hG.binary h1 h1'
    rw [h2] at h2'
    rw [h3] at h3'
    cases h2'
    cases h3'
    exact ⟨rfl, rfl⟩
  · rename_i rid q₁ v k rid' q₁' v' k'
    obtain ⟨rfl, rfl⟩ := hk
    obtain ⟨_, h1, w₁, h2, rfl⟩ := h
    obtain ⟨_, h1', w₁', h2', rfl⟩ := h'
    obtain ⟨rfl, rfl⟩ := hG.unary h1 h1'
    rw [h2] at h2'
    cases h2'
    exact ⟨rfl, rfl⟩
  · subst hk
    obtain ⟨rfl, _, a, h1⟩ := h
    obtain ⟨rfl, _, a', h1'⟩ := h'
    rw [hG.nullary h1 h1']
    exact ⟨rfl, rfl⟩

theorem btBinary_eq {chart : DenseChart W} {i j m : Nat} {b : TdBinary W} {o₁ o₂ : Option W} (h₁ : chart.getWeight i m b.left = some o₁)
    (h₂ : chart.getWeight m j b.right = some o₂) :
    btBinary chart i j b m = some (o₁.bind fun w₁ => o₂.map fun w₂ => (b.weight * (w₁ * w₂), .binary b.rid b.left m b.right b.weight 0 0)) := by
  unfold btBinary
  rw [h₁]
  cases o₁ with
  | none => rfl
  | some w₁ =>
    simp only [h₂]
    cases o₂ <;> rfl

variable {A : CsAutomaton T W} {st : List (CsState N)} {ps : List (CsProd N T W × TdBrackets)} {filter : List Bool} {chart : DenseChart W} {n : Nat}

theorem backtraces_spec (hA : A.Rep st ps) (hf : filter.length = A.brackets.length)
    (hget : ∀ i j q, i < j → j ≤ n → q < A.states → ∃ o, chart.getWeight i j q = some o) {i j q : Nat} (hij : i < j) (hj : j ≤ n) (hq : q < A.states) :
    ∃ h, backtraces A chart filter i j q = some h ∧ BtDistinct h ∧ ∀ w b, (w, b) ∈ h ↔ BtCand (buGrammar A filter) (chartWeight chart) i j q w b := by
  have hs : A.states = st.length := hA.len.1
  rw [hA.grammar]
  have hps : A.brackets.length = ps.length := by rw [hA.brackets, List.length_map]
  have hfil : ∀ rid p, (ps[rid]?).map Prod.fst = some p → ∃ b, filter[rid]? = some b := fun rid p h => by
    rw [Option.map_eq_some_iff] at h
    obtain ⟨x, hx, _⟩ := h
    have := (List.getElem?_eq_some_iff.1 hx).1
    exact ⟨_, List.getElem?_eq_getElem (by omega)⟩
  have hst : ∀ (q : Nat) Q, st[q]? = some Q → q < A.states := fun q Q h => hs ▸ (List.getElem?_eq_some_iff.1 h).1
  obtain ⟨bs, hbs⟩ : ∃ l, A.tdBinaries[q]? = some l := ⟨_, List.getElem?_eq_getElem (by rw [hA.len.2.2.1]; omega)⟩
  obtain ⟨us, hus⟩ : ∃ l, A.tdUnaries[q]? = some l := ⟨_, List.getElem?_eq_getElem (by rw [hA.len.2.2.2.1]; omega)⟩
  obtain ⟨ns, hns⟩ : ∃ l, A.tdNullaries[q]? = some l := ⟨_, List.getElem?_eq_getElem (by rw [hA.len.2.2.2.2]; omega)⟩
  obtain ⟨ns', hns'⟩ : ∃ l, (if j - i = 1 then A.tdNullaries[q]? else some []) = some l := by
    split
    · exact ⟨ns, hns⟩
    · exact ⟨[], rfl⟩
  have hbin := fun x => hA.tdBin q x
  have hun := fun x => hA.tdUn q x
  have hnu := fun x => hA.tdInit q x
  simp only [hbs, Option.some.injEq, exists_eq_left'] at hbin
  simp only [hus, Option.some.injEq, exists_eq_left'] at hun
  simp only [hns, Option.some.injEq, exists_eq_left'] at hnu
  have hns2 : ∀ x, x ∈ ns' ↔ j = i + 1 ∧ x ∈ ns := by
    intro x
    split at hns'
    · rw [hns] at hns'
      cases hns'
      exact ⟨fun h => ⟨by omega, h⟩, fun h => h.2⟩
    · cases hns'
      simp
      omega
  -- binary rules
  have hb0 : ∀ b ∈ bs, ∀ m, i < m → m < j → ∃ o₁ o₂, chart.getWeight i m b.left = some o₁ ∧ chart.getWeight m j b.right = some o₂ := by
    intro b hb m h1 h2
    obtain ⟨Q, L, R, hp, hQ, hL, hR⟩ := (hbin b).1 hb
    obtain ⟨o₁, ho₁⟩ := hget i m b.left h1 (by omega) (hst _ _ hL)
    obtain ⟨o₂, ho₂⟩ := hget m j b.right h2 (by omega) (hst _ _ hR)
    exact ⟨o₁, o₂, ho₁, ho₂⟩
  have hb1 : ∀ b ∈ bs, ∃ l, btBinaries chart filter i j b = some l ∧ ∀ c, c ∈ l ↔ filter[b.rid]? = some true ∧ ∃ m, i < m ∧ m < j ∧ btBinary chart i j b m = some (some c) := by
    intro b hb
    obtain ⟨Q, L, R, hp, hQ, hL, hR⟩ := (hbin b).1 hb
    obtain ⟨f, hf'⟩ := hfil _ _ hp
    unfold btBinaries
    rw [hf']
    cases f with
    | false => exact ⟨[], rfl, by simp⟩
    | true =>
      obtain ⟨r, hr⟩ := filterMapP_isSome (f := btBinary chart i j b) (l := List.range' (i + 1) (j - (i + 1))) fun m hm => by
        rw [List.mem_range'_1] at hm
        obtain ⟨o₁, o₂, h1, h2⟩ := hb0 b hb m (by omega) (by omega)
        rw [btBinary_eq h1 h2]
        simp
      refine ⟨r, hr, fun c => ?_⟩
      rw [filterMapP_mem hr]
      constructor
      · rintro ⟨m, hm, h⟩
        rw [List.mem_range'_1] at hm
        exact ⟨rfl, m, by omega, by omega, h⟩
      · rintro ⟨_, m, h1, h2, h⟩
        exact ⟨m, List.mem_range'_1.2 ⟨by omega, by omega⟩, h⟩
  obtain ⟨l₁, hl₁⟩ := flatMapP_isSome (f := btBinaries chart filter i j) (l := bs) fun b hb => by
    obtain ⟨l, h, _⟩ := hb1 b hb
    rw [h]; simp
  -- chain rules
  have hu1 : ∀ b ∈ us, ∃ f o, filter[b.rid]? = some f ∧ chart.getWeight i j b.succ = some o := by
    intro b hb
    obtain ⟨Q, S, hp, hQ, hS⟩ := (hun b).1 hb
    obtain ⟨f, hf'⟩ := hfil _ _ hp
    obtain ⟨o, ho⟩ := hget i j b.succ hij hj (hst _ _ hS)
    exact ⟨f, o, hf', ho⟩
  obtain ⟨l₂, hl₂⟩ := filterMapP_isSome (f := btUnary chart filter i j) (l := us) fun b hb => by
    obtain ⟨f, o, h1, h2⟩ := hu1 b hb
    unfold btUnary
    rw [h1, h2]
    cases f <;> cases o <;> simp
  -- terminal rules
  obtain ⟨l₃, hl₃⟩ := filterMapP_isSome (f := btNullary filter) (l := ns') fun b hb => by
    obtain ⟨Q, a, hp, hQ⟩ := (hnu b).1 ((hns2 b).1 hb).2
    obtain ⟨f, hf'⟩ := hfil _ _ hp
    unfold btNullary
    rw [hf']
    cases f <;> simp
  have hmem : ∀ w b, (w, b) ∈ l₁ ++ l₂ ++ l₃ ↔ BtCand (numGrammar st ps filter) (chartWeight chart) i j q w b := by
    intro w b
    rw [List.mem_append, List.mem_append, flatMapP_mem hl₁, filterMapP_mem hl₂, filterMapP_mem hl₃]
    constructor
    · rintro ((⟨x, hx, l, hl, hm⟩ | ⟨x, hx, hm⟩) | ⟨x, hx, hm⟩)
      · obtain ⟨l', hl', hspec⟩ := hb1 x hx
        rw [hl] at hl'
        cases hl'
        obtain ⟨hf', m, h1, h2, h3⟩ := (hspec _).1 hm
        obtain ⟨o₁, o₂, g1, g2⟩ := hb0 x hx m h1 h2
        rw [btBinary_eq g1 g2, Option.some.injEq, Option.bind_eq_some_iff] at h3
        obtain ⟨w₁, rfl, h3⟩ := h3
        rw [Option.map_eq_some_iff] at h3
        obtain ⟨w₂, rfl, h3⟩ := h3
        cases h3
        refine ⟨rfl, rfl, h1, h2, ⟨hf', (hbin x).1 hx⟩, w₁, w₂, ?_, ?_, rfl⟩
        · simp [chartWeight, g1]
        · simp [chartWeight, g2]
      · obtain ⟨f, o, h1, h2⟩ := hu1 x hx
        unfold btUnary at hm
        rw [h1, h2] at hm
        cases f <;> cases o <;> simp only [Option.some.injEq, reduceCtorEq] at hm
        rename_i w₁
        cases hm
        exact ⟨rfl, ⟨h1, (hun x).1 hx⟩, w₁, by simp [chartWeight, h2], mul_comm _ _⟩
      · unfold btNullary at hm
        split at hm <;> simp only [Option.some.injEq, reduceCtorEq] at hm
        rename_i hf'
        cases hm
        obtain ⟨h1, h2⟩ := (hns2 x).1 hx
        obtain ⟨Q, a, h3⟩ := (hnu x).1 h2
        exact ⟨rfl, h1, a, hf', Q, h3⟩
    · intro h
      cases b with
      | nullary rid v =>
        obtain ⟨rfl, rfl, a, hf', Q, h3⟩ := h
        refine .inr ⟨⟨rid, w⟩, (hns2 _).2 ⟨rfl, (hnu ⟨rid, w⟩).2 ⟨Q, a, h3⟩⟩, ?_⟩
        simp [btNullary, hf']
      | unary rid q₁ v k =>
        obtain ⟨rfl, ⟨hf', Q, S, h3, h4, h5⟩, w₁, h6, rfl⟩ := h
        obtain ⟨o, ho⟩ := hget i j q₁ hij hj (hst _ _ h5)
        simp only [chartWeight, ho, Option.getD_some] at h6
        subst h6
        refine .inl (.inr ⟨⟨rid, q₁, v⟩, (hun ⟨rid, q₁, v⟩).2 ⟨Q, S, h3, h4, h5⟩, ?_⟩)
        simp [btUnary, hf', ho, mul_comm]
      | binary rid q₁ m q₂ v k₁ k₂ =>
        obtain ⟨rfl, rfl, h1, h2, ⟨hf', Q, L, R, h3, h4, h5, h6⟩, w₁, w₂, h7, h8, rfl⟩ := h
        obtain ⟨o₁, ho₁⟩ := hget i m q₁ h1 (by omega) (hst _ _ h5)
        obtain ⟨o₂, ho₂⟩ := hget m j q₂ h2 (by omega) (hst _ _ h6)
        simp only [chartWeight, ho₁, Option.getD_some] at h7
        simp only [chartWeight, ho₂, Option.getD_some] at h8
        subst h7 h8
        have hx : (⟨rid, q₁, q₂, v⟩ : TdBinary W) ∈ bs := (hbin ⟨rid, q₁, q₂, v⟩).2 ⟨Q, L, R, h3, h4, h5, h6⟩
        obtain ⟨l, hl, hspec⟩ := hb1 _ hx
        refine .inl (.inl ⟨_, hx, l, hl, (hspec _).2 ⟨hf', m, h1, h2, ?_⟩⟩)
        rw [btBinary_eq ho₁ ho₂]
        simp
  have hpush := mem_btPush_foldl (l₁ ++ l₂ ++ l₃) [] List.Pairwise.nil fun x y hx hy hk => by
    obtain ⟨w, b⟩ := x
    obtain ⟨w', b'⟩ := y
    simp only [List.not_mem_nil, false_or] at hx hy
    obtain ⟨h1, h2⟩ := BtCand.det (numGrammar_det filter hA.nodup) ((hmem w b).1 hx) ((hmem w' b').1 hy) hk
    rw [h1, h2]
  refine ⟨_, ?_, hpush.1, fun w b => ?_⟩
  · unfold backtraces
    rw [if_neg (by omega), hbs, hus, hns']
    simp only [hl₁, hl₂, hl₃]
  · rw [hpush.2, ← hmem]
    simp

/-- The forest of a chart; `R` bounds the ranks of the states. -/
def chartForest (A : CsAutomaton T W) (chart : DenseChart W) (filter : List Bool) (n R : Nat) (rank : Nat → Nat) : KForest W where
  I i j q := ((backtraces A chart filter i j q).getD []).map Prod.snd
  cw := chartWeight chart
  ok i j q := i < j ∧ j ≤ n ∧ q < A.states
  rank i j q := (j - i) * (R + 1) + rank q

theorem exists_bound (f : Nat → Nat) (n : Nat) : ∃ R, ∀ q < n, f q ≤ R := by
  induction n with
  | zero => exact ⟨0, by omega⟩
  | succ n ih =>
    obtain ⟨R, hR⟩ := ih
    refine ⟨max R (f n), fun q hq => ?_⟩
    rcases Nat.lt_succ_iff_lt_or_eq.1 hq with h | rfl
    · exact (hR q h).trans (le_max_left _ _)
    · exact le_max_right _ _

theorem chartForest_mem (hA : A.Rep st ps) (hf : filter.length = A.brackets.length)
    (hget : ∀ i j q, i < j → j ≤ n → q < A.states → ∃ o, chart.getWeight i j q = some o) (R : Nat) (rank : Nat → Nat) {i j q : Nat}
    (hok : (chartForest A chart filter n R rank).ok i j q) (b : Backtrace W) :
    b ∈ (chartForest A chart filter n R rank).I i j q ↔ ∃ w, BtCand (buGrammar A filter) (chartWeight chart) i j q w b := by
  obtain ⟨h, h1, h2, h3⟩ := backtraces_spec hA hf hget hok.1 hok.2.1 hok.2.2
  simp only [chartForest, h1, Option.getD_some, List.mem_map, Prod.exists, exists_eq_right, h3]

omit [DecidableEq N] in
/-- All candidates have zero indices. -/
theorem chartForest_base (R : Nat) (rank : Nat → Nat) {i j q : Nat} {b : Backtrace W} (hb : b ∈ (chartForest A chart filter n R rank).I i j q) : b.base = b := by
  simp only [chartForest, List.mem_map] at hb
  obtain ⟨⟨w, b'⟩, hb, rfl⟩ := hb
  simp only
  cases hbt : backtraces A chart filter i j q with
  | none => rw [hbt] at hb; simp at hb
  | some h =>
    rw [hbt, Option.getD_some] at hb
    unfold backtraces at hbt
    split at hbt
    · cases hbt
    split at hbt <;> try (cases hbt)
    rename_i bs us ns _ _ _
    split at hbt <;> try (cases hbt)
    rename_i l₁ l₂ l₃ h1 h2 h3
    have hsub : ∀ (l h₀ : List (W × Backtrace W)) x, x ∈ l.foldl (fun h c => btPush h c.2 c.1) h₀ → x ∈ h₀ ∨ x ∈ l := by
      intro l
      induction l with
      | nil => intro h₀ x hx; exact .inl hx
      | cons c l ih =>
        intro h₀ x hx
        rcases ih _ _ hx with h | h
        · rw [mem_btPush] at h
          rcases h with h | h
          · exact .inl h
          · exact .inr (by rw [h.1]; exact List.mem_cons_self)
        · exact .inr (List.mem_cons_of_mem _ h)
    rcases hsub _ _ _ hb with h | h
    · simp at h
    rw [List.mem_append, List.mem_append, flatMapP_mem h1, filterMapP_mem h2, filterMapP_mem h3] at h
    rcases h with (⟨x, hx, l, hl, hm⟩ | ⟨x, hx, hm⟩) | ⟨x, hx, hm⟩
    · unfold btBinaries at hl
      split at hl <;> try (cases hl)
      · simp at hm
      · rw [filterMapP_mem hl] at hm
        obtain ⟨m, _, hm⟩ := hm
        unfold btBinary at hm
        split at hm <;> try (cases hm)
        split at hm <;> try (cases hm)
        rfl
    · unfold btUnary at hm
      split at hm <;> try (cases hm)
      split at hm <;> try (cases hm)
      rfl
    · unfold btNullary at hm
      split at hm <;> try (cases hm)
      rfl

theorem chartForest_inj (hA : A.Rep st ps) (hf : filter.length = A.brackets.length)
    (hget : ∀ i j q, i < j → j ≤ n → q < A.states → ∃ o, chart.getWeight i j q = some o) (R : Nat) (rank : Nat → Nat) {i j q : Nat} {b b' : Backtrace W}
    (hok : (chartForest A chart filter n R rank).ok i j q) (hb : b ∈ (chartForest A chart filter n R rank).I i j q)
    (hb' : b' ∈ (chartForest A chart filter n R rank).I i j q) (hk : b.key = b'.key) : b = b' := by
  have hdet : GrammarDet (buGrammar A filter) := by rw [hA.grammar]; exact numGrammar_det filter hA.nodup
  rw [chartForest_mem hA hf hget R rank hok] at hb hb'
  obtain ⟨w, hb⟩ := hb
  obtain ⟨w', hb'⟩ := hb'
  exact (hb.det hdet hb' hk).2

theorem chartForest_kids (hA : A.Rep st ps) (hf : filter.length = A.brackets.length)
    (hget : ∀ i j q, i < j → j ≤ n → q < A.states → ∃ o, chart.getWeight i j q = some o) {R : Nat} {rank : Nat → Nat} (hR : ∀ q < A.states, rank q ≤ R)
    (hrank : ∀ rid q q₁ w, (buGrammar A filter).unary rid q q₁ w → rank q₁ < rank q) {i j q : Nat} {b : Backtrace W}
    (hok : (chartForest A chart filter n R rank).ok i j q) (hb : b ∈ (chartForest A chart filter n R rank).I i j q) (c : Nat × Nat × Nat) (hc : c ∈ b.kids i j) :
    (chartForest A chart filter n R rank).ok c.1 c.2.1 c.2.2 ∧
      (chartForest A chart filter n R rank).rank c.1 c.2.1 c.2.2 < (chartForest A chart filter n R rank).rank i j q ∧
      ∃ w, (chartForest A chart filter n R rank).cw c.1 c.2.1 c.2.2 = some w := by
  have hs : A.states = st.length := hA.len.1
  have hst : ∀ (q : Nat) Q, st[q]? = some Q → q < A.states := fun q Q h => hs ▸ (List.getElem?_eq_some_iff.1 h).1
  rw [chartForest_mem hA hf hget R rank hok] at hb
  obtain ⟨w, hb⟩ := hb
  obtain ⟨hij, hj, hq⟩ := hok
  cases b with
  | nullary => simp [Backtrace.kids] at hc
  | unary rid q₁ v k =>
    simp only [Backtrace.kids, List.mem_singleton] at hc
    subst hc
    obtain ⟨_, hu, w₁, h1, _⟩ := hb
    have hr := hrank _ _ _ _ hu
    rw [hA.grammar] at hu
    obtain ⟨_, Q, S, _, _, hS⟩ := hu
    refine ⟨⟨hij, hj, hst _ _ hS⟩, ?_, w₁, h1⟩
    simp only [chartForest]
    omega
  | binary rid q₁ m q₂ v k₁ k₂ =>
    obtain ⟨_, _, h1, h2, hu, w₁, w₂, h3, h4, _⟩ := hb
    rw [hA.grammar] at hu
    obtain ⟨_, Q, L, R', _, _, hL, hR'⟩ := hu
    have g1 := hR _ (hst _ _ hL)
    have g2 := hR _ (hst _ _ hR')
    have e : j - i = (j - m) + (m - i) := by omega
    have p1 : R + 1 ≤ (j - m) * (R + 1) := Nat.le_mul_of_pos_left _ (by omega)
    have p2 : R + 1 ≤ (m - i) * (R + 1) := Nat.le_mul_of_pos_left _ (by omega)
    simp only [Backtrace.kids, List.mem_cons, List.not_mem_nil, or_false] at hc
    rcases hc with rfl | rfl
    · refine ⟨⟨h1, (show m ≤ n by omega), hst _ _ hL⟩, ?_, w₁, h3⟩
      simp only [chartForest]
      rw [e, Nat.add_mul]
      omega
    · refine ⟨⟨h2, hj, hst _ _ hR'⟩, ?_, w₂, h4⟩
      simp only [chartForest]
      rw [e, Nat.add_mul]
      omega

theorem chartForest_of (hA : A.Rep st ps) (hf : filter.length = A.brackets.length)
    (hget : ∀ i j q, i < j → j ≤ n → q < A.states → ∃ o, chart.getWeight i j q = some o) (R : Nat) (rank : Nat → Nat) :
    ForestOf (buGrammar A filter) (chartForest A chart filter n R rank) := by
  refine ⟨?_, ?_, ?_⟩
  · intro i j q rid w hok
    rw [chartForest_mem hA hf hget R rank hok]
    constructor
    · rintro ⟨w', rfl, h1, h2⟩
      exact ⟨h1, h2⟩
    · rintro ⟨h1, h2⟩
      exact ⟨w, rfl, h1, h2⟩
  · intro i j q rid q₁ w k hok
    rw [chartForest_mem hA hf hget R rank hok]
    constructor
    · rintro ⟨w', h1, h2, w₁, h3, _⟩
      exact ⟨h1, h2, w₁, h3⟩
    · rintro ⟨h1, h2, w₁, h3⟩
      exact ⟨_, h1, h2, w₁, h3, rfl⟩
  · intro i j q rid q₁ m q₂ w k₁ k₂ hok
    rw [chartForest_mem hA hf hget R rank hok]
    constructor
    · rintro ⟨w', h1, h2, h3, h4, h5, w₁, w₂, h6, h7, _⟩
      exact ⟨h1, h2, h3, h4, h5, ⟨w₁, h6⟩, w₂, h7⟩
    · rintro ⟨h1, h2, h3, h4, h5, ⟨w₁, h6⟩, w₂, h7⟩
      exact ⟨_, h1, h2, h3, h4, h5, w₁, w₂, h6, h7, rfl⟩

omit [DecidableEq T] in
/-- Each way to obtain a weight has a candidate; its weight may be rounded differently. -/
theorem Spec.Way.hasCand {G : BinGrammar T W} {cw : Nat → Nat → Nat → Option W} {i j q : Nat} {w : W} (h : Way G cw i j q w) : ∃ w' b, BtCand G cw i j q w' b := by
  cases h with
  | nullary h =>
    rename_i rid a
    exact ⟨w, .nullary rid w, rfl, rfl, a, h⟩
  | unary h h1 =>
    rename_i q₁ rid v w₁
    exact ⟨v * w₁, .unary rid q₁ v 0, rfl, h, w₁, h1, rfl⟩
  | binary h1 h2 h h3 h4 =>
    rename_i m q₁ q₂ rid v w₁ w₂
    exact ⟨v * (w₁ * w₂), .binary rid q₁ m q₂ v 0 0, rfl, rfl, h1, h2, h, w₁, w₂, h3, h4, rfl⟩

end

section
variable {N T W : Type _} [DecidableEq N] [DecidableEq T] [LinearOrderedCommMonoidWithZero W]

omit [DecidableEq T] in
theorem BtCand.wt {G : BinGrammar T W} {cw : Nat → Nat → Nat → Option W} {i j q : Nat} {w : W} {b : Backtrace W} (h : BtCand G cw i j q w b) :
    btW (fun i j q _ => cw i j q) i j b = some w := by
  cases b with
  | nullary => exact congrArg some h.1.symm
  | unary =>
    obtain ⟨_, _, w₁, h1, rfl⟩ := h
    simp [btW, h1]
  | binary =>
    obtain ⟨_, _, _, _, _, w₁, w₂, h1, h2, rfl⟩ := h
    simp [btW, h1, h2, mul_assoc]

omit [DecidableEq T] in
theorem BtCand.way {G : BinGrammar T W} {cw : Nat → Nat → Nat → Option W} {i j q : Nat} {w : W} {b : Backtrace W} (h : BtCand G cw i j q w b) : Way G cw i j q w := by
  cases b with
  | nullary =>
    obtain ⟨rfl, rfl, a, h⟩ := h
    exact .nullary h
  | unary =>
    obtain ⟨_, h, w₁, h1, rfl⟩ := h
    exact .unary h h1
  | binary =>
    obtain ⟨_, _, h1, h2, h, w₁, w₂, h3, h4, rfl⟩ := h
    rw [← mul_assoc]
    exact .binary h1 h2 h h3 h4

omit [DecidableEq T] in
theorem Spec.Way.cand {G : BinGrammar T W} {cw : Nat → Nat → Nat → Option W} {i j q : Nat} {w : W} (h : Way G cw i j q w) : ∃ b, BtCand G cw i j q w b := by
  cases h with
  | nullary h =>
    rename_i rid a
    exact ⟨.nullary rid w, rfl, rfl, a, h⟩
  | unary h h1 =>
    rename_i q₁ rid v w₁
    exact ⟨.unary rid q₁ v 0, rfl, h, w₁, h1, rfl⟩
  | binary h1 h2 h h3 h4 =>
    rename_i m q₁ q₂ rid v w₁ w₂
    exact ⟨.binary rid q₁ m q₂ v 0 0, rfl, rfl, h1, h2, h, w₁, w₂, h3, h4, mul_assoc _ _ _⟩

variable {A : CsAutomaton T W} {st : List (CsState N)} {ps : List (CsProd N T W × TdBrackets)} {filter : List Bool} {chart : DenseChart W} {n : Nat}

theorem chartForest_ok (hA : A.Rep st ps) (hf : filter.length = A.brackets.length)
    (hget : ∀ i j q, i < j → j ≤ n → q < A.states → ∃ o, chart.getWeight i j q = some o) {R : Nat} {rank : Nat → Nat} (hR : ∀ q < A.states, rank q ≤ R)
    (hrank : ∀ rid q q₁ w, (buGrammar A filter).unary rid q q₁ w → rank q₁ < rank q) (hbest : ChartBest (buGrammar A filter) (chartWeight chart) n A.states) :
    (chartForest A chart filter n R rank).Ok := by
  refine ⟨chartForest_base R rank, chartForest_inj hA hf hget R rank, chartForest_kids hA hf hget hR hrank, ?_⟩
  · intro i j q w hok hw
    obtain ⟨h1, h2⟩ := hbest i j q w hok.1 hok.2.1 hok.2.2 hw
    constructor
    · obtain ⟨b, hb⟩ := h1.cand
      exact ⟨b, (chartForest_mem hA hf hget R rank hok b).2 ⟨w, hb⟩, hb.wt⟩
    · intro b hb w' hw'
      obtain ⟨w'', hb⟩ := (chartForest_mem hA hf hget R rank hok b).1 hb
      have := hb.wt
      simp only [wt0] at hw'
      have he : (chartForest A chart filter n R rank).cw = chartWeight chart := rfl
      rw [he, this] at hw'
      cases hw'
      exact h2 _ hb.way

theorem chartForest_bt (hA : A.Rep st ps) (hf : filter.length = A.brackets.length)
    (hget : ∀ i j q, i < j → j ≤ n → q < A.states → ∃ o, chart.getWeight i j q = some o) (R : Nat) (rank : Nat → Nat) :
    BtSpec A chart filter (chartForest A chart filter n R rank) := by
  intro i j q hok
  obtain ⟨h, h1, h2, h3⟩ := backtraces_spec hA hf hget hok.1 hok.2.1 hok.2.2
  refine ⟨h, h1, h2, fun w b => ?_⟩
  rw [chartForest_mem hA hf hget R rank hok, h3]
  constructor
  · exact fun hb => ⟨⟨w, hb⟩, hb.wt⟩
  · rintro ⟨⟨w', hb⟩, hw⟩
    have he : (chartForest A chart filter n R rank).wt0 i j b = some w' := hb.wt
    rw [he] at hw
    cases hw
    exact hb

end

end Rustomata
