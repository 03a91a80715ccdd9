import Verif.Proofs.CfgAutomaton
import Verif.Spec.Relabel

/-!
# Lemmas: relabelled automata of context-free grammars
-/

namespace Rustomata
open Spec

/-! ### Totals of totals -/

section
variable {K W X : Type _} [DecidableEq K] [AddCommMonoid W]

omit [DecidableEq K] in
theorem sum_map_add' (l : List K) (f g : K → W) : (l.map fun k => f k + g k).sum = (l.map f).sum + (l.map g).sum := by
  induction l with
  | nil => simp
  | cons a l ih => simp only [List.map_cons, List.sum_cons, ih]; exact add_add_add_comm _ _ _ _

theorem sum_indicator {l : List K} (hl : l.Nodup) (k : K) (w : W) : (l.map fun k' => if k = k' then w else 0).sum = if k ∈ l then w else 0 := by
  induction l with
  | nil => simp
  | cons a l ih =>
    rw [List.nodup_cons] at hl
    rw [List.map_cons, List.sum_cons, ih hl.2]
    by_cases h : k = a
    · subst h
      rw [if_pos rfl, if_neg hl.1, if_pos (by simp), add_zero]
    · rw [if_neg h, zero_add]
      simp [h]

theorem sum_totals {ks : List K} (hks : ks.Nodup) (q : K → Bool) (key : X → K) (weight : X → W) (ts : List X) (h : ∀ t ∈ ts, key t ∈ ks) :
    ((ks.filter q).map fun k => ((ts.filter fun t => key t = k).map weight).sum).sum = ((ts.filter fun t => q (key t)).map weight).sum := by
  induction ts with
  | nil => simp
  | cons t ts ih =>
    have ih := ih fun t ht => h t (by simp [ht])
    have h1 : ∀ k, (((t :: ts).filter fun t => key t = k).map weight).sum = (if key t = k then weight t else 0) + ((ts.filter fun t => key t = k).map weight).sum := by
      intro k
      rw [List.filter_cons]
      by_cases hk : key t = k
      · simp [hk]
      · simp [hk]
    simp only [h1]
    rw [sum_map_add', ih, sum_indicator (hks.filter q), List.filter_cons]
    by_cases hq : q (key t) = true
    · rw [if_pos (List.mem_filter.2 ⟨h t (by simp), hq⟩), if_pos hq, List.map_cons, List.sum_cons]
    · rw [if_neg (fun h => hq (List.mem_filter.1 h).2), if_neg hq, zero_add]

end

section
variable {A S₁ T W : Type _} [DecidableEq A] [DecidableEq T] [AddCommMonoid W]

/-- Merging, approximating and merging again is the same as approximating and merging once. -/
theorem PDA.Built.approximate {A₁ : Type _} [DecidableEq A₁] {Z : ApproximationStrategy (PushDown A₁) (PdInstr A₁) (PushDown A) (PdInstr A)}
    {P : PDA A₁ T W} {ts L : List (Transition (PdInstr A₁) T W)} {initial : PushDown A₁} (h : PDA.Built P ts initial L) {Q : PDA A T W}
    {L2 : List (Transition (PdInstr A) T W)} {initial2 : PushDown A} (h2 : PDA.Built Q (L.map Z.transition) initial2 L2) : PDA.Built Q (ts.map Z.transition) initial2 L2 := by
  let zk : List T × PdInstr A₁ → List T × PdInstr A := fun k => (k.1, Z.instruction k.2)
  have hk : ∀ t : Transition (PdInstr A₁) T W, PDA.keyOf (Z.transition t) = zk (PDA.keyOf t) := fun _ => rfl
  have hkm : ∀ l : List (Transition (PdInstr A₁) T W), (l.map Z.transition).map PDA.keyOf = (l.map PDA.keyOf).map zk := by
    intro l
    rw [List.map_map, List.map_map]
    rfl
  have htot : ∀ l : List (Transition (PdInstr A₁) T W), ∀ k, PDA.total (l.map Z.transition) k = ((l.filter fun t => zk (PDA.keyOf t) = k).map Transition.weight).sum := by
    intro l k
    rw [PDA.total_sum, List.filter_map, List.map_map]
    rfl
  refine { h2 with mem := fun k => ?_, weight := fun t ht => ?_ }
  · rw [h2.mem, hkm, hkm]
    simp only [List.mem_map]
    constructor
    · rintro ⟨k', hk', rfl⟩
      exact ⟨k', List.mem_map.1 ((h.mem k').1 (List.mem_map.2 hk')), rfl⟩
    · rintro ⟨k', hk', rfl⟩
      exact ⟨k', List.mem_map.1 ((h.mem k').2 (List.mem_map.2 hk')), rfl⟩
  · rw [h2.weight t ht, htot, htot]
    generalize PDA.keyOf t = k
    have := sum_totals h.nodup (fun k' => zk k' = k) PDA.keyOf Transition.weight ts (fun t ht => (h.mem _).2 (List.mem_map.2 ⟨t, ht, rfl⟩))
    rw [← this, List.filter_map, List.map_map]
    congr 1
    refine List.map_congr_left fun t ht => ?_
    exact (h.weight t (List.mem_of_mem_filter ht)).trans (PDA.total_sum ..)

end

/-! ### The transitions for the relabelled grammar -/

section
variable {N N' T W : Type _} [DecidableEq N] [DecidableEq N'] [DecidableEq T] (f : N → N')

omit [DecidableEq N] [DecidableEq N'] in
theorem bufferTerminals_relabel (buf : List T) (c : List (LetterT N T)) : CFG.bufferTerminals buf (c.map (relabelLetter f)) = CFG.bufferTerminals buf c := by
  unfold CFG.bufferTerminals
  rw [List.foldl_map]
  congr 1
  funext b v
  cases v <;> rfl

omit [DecidableEq N] [DecidableEq N'] in
theorem terminals_relabel (G : CFG N T W) : (relabelCfg f G).terminals = G.terminals := by
  unfold CFG.terminals relabelCfg
  simp only
  rw [List.foldl_map]
  congr 1
  funext b r
  exact bufferTerminals_relabel f b r.composition

omit [DecidableEq N] [DecidableEq N'] [DecidableEq T] in
theorem pushString_relabel (c : List (LetterT N T)) : CFG.pushString (c.map (relabelLetter f)) = (CFG.pushString c).map (PushState.map f) := by
  unfold CFG.pushString
  rw [List.foldl_map]
  suffices ∀ st : List (PushState N T), List.foldl (fun x y => CFG.pushState (relabelLetter f y) :: x) (st.map (PushState.map f)) c =
      (List.foldl (fun st v => CFG.pushState v :: st) st c).map (PushState.map f) from this []
  induction c with
  | nil => intro st; rfl
  | cons a c ih =>
    intro st
    rw [List.foldl_cons, List.foldl_cons, ← ih]
    cases a <;> rfl

omit [DecidableEq N] [DecidableEq N'] in
theorem pdaTransitions_relabel [One W] (G : CFG N T W) :
    (relabelCfg f G).pdaTransitions = G.pdaTransitions.map (relabel (PushState.map f)).transition := by
  unfold CFG.pdaTransitions
  rw [terminals_relabel]
  simp only [relabelCfg, List.map_append, List.map_map]
  congr 1
  congr 1
  refine List.map_congr_left fun r _ => ?_
  simp only [Function.comp, CFG.ruleTransition, relabelRule, ApproximationStrategy.transition, relabel, pushString_relabel]
  rfl

/-- The relabelled automaton exists and represents the transitions for the relabelled grammar. -/
theorem relabel_built [One W] [AddCommMonoid W] [DecidableEq W] {G : CFG N T W} {P : PDA (PushState N T) T W} (hP : G.toPda = some P) :
    ∃ L b m L2, P.listTransitions = some L ∧ P.initialStore = some cfgStart ∧ approximateAutomaton (relabel (PushState.map f)) L cfgStart = some (b, m) ∧
      b.listTransitions = some L2 ∧ PDA.Built b (relabelCfg f G).pdaTransitions cfgStart L2 := by
  obtain ⟨L, hL, hB⟩ := PDA.new_built hP
  obtain ⟨b, m, hb⟩ := approximateAutomaton_isSome (Z := relabel (PushState.map f)) L (by
    intro t ht
    obtain ⟨a, ha, _⟩ := cfg_current hB t ht
    simp [relabel, ha]) cfgStart
  obtain ⟨L2, h1, h2, _⟩ := approximateAutomaton_built hb
  refine ⟨L, b, m, L2, hL, PushDown.integLaws.unInteg.2 hB.init, hb, h1, ?_⟩
  rw [pdaTransitions_relabel]
  exact hB.approximate h2

omit [DecidableEq N] [DecidableEq N'] [DecidableEq T] in
/-- A word of the grammar is a word of the relabelled grammar. -/
theorem generates_relabel {G : CFG N T W} {w : List T} (h : Generates G w) : Generates (relabelCfg f G) w := by
  obtain ⟨S, hS, h⟩ := h
  refine ⟨f S, List.mem_map.2 ⟨S, hS, rfl⟩, ?_⟩
  have := h.lift (r := Rewrites G) (p := Rewrites (relabelCfg f G)) (List.map (relabelLetter f)) (by
    rintro u v ⟨pre, post, r, hr, rfl, rfl⟩
    exact ⟨pre.map (relabelLetter f), post.map (relabelLetter f), relabelRule f r, List.mem_map.2 ⟨r, hr, rfl⟩, by simp [relabelLetter, relabelRule], by simp [relabelRule]⟩)
  simpa [relabelLetter, Function.comp_def, Function.onFun] using this

end

end Rustomata
