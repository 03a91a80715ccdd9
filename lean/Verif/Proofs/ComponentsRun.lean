import Verif.Proofs.Components

/-!
# Lemmas: the runs of the automaton of a PMCFG with a pushdown instead of the tree stack, and the context-free grammar of the components
-/

namespace Rustomata
open Spec
variable {N T W : Type _}

/-- The part of a component that remains at a symbol, without its first `d` variables. -/
def symAfter (d : Nat) : TsaSymbol N T → List (LetterT (Option N × Nat) T)
  | .position r j k => (afterVars (k + d) ((cutTrails r.composition)[j]?.getD [])).map (componentLetter r.tail)
  | _ => []

/-- The sentential form of a pushdown; the list begins with the topmost symbol. -/
def stackForm : List (TsaSymbol N T) → List (LetterT (Option N × Nat) T)
  | [] => []
  | x :: xs => symAfter 0 x ++ xs.flatMap (symAfter 1)

/-- The rule without weight occurs in the grammar. -/
def IsKey (g : PMCFG N T W) (q : PMCFGRule N T Unit) : Prop := ∃ r ∈ g.rules, r.key = q

/-- The pushdowns of the runs, except for those at the beginning and at the end. -/
inductive PdFrames (g : PMCFG N T W) : List (TsaSymbol N T) → Prop
  | root {q : PMCFGRule N T Unit} {c k} : IsKey g q → q.head ∈ g.initial → (cutTrails q.composition)[0]? = some c → k ≤ (segs c []).length → PdFrames g [.position q 0 k, .initial]
  | cons {q : PMCFGRule N T Unit} {j k c b i j₁} {qi : PMCFGRule N T Unit} {c₁ k₁ rest} : PdFrames g (.position q j k :: rest) → (cutTrails q.composition)[j]? = some c →
      (segs c [])[k]? = some (b, i, j₁) → IsKey g qi → q.tail[i]? = some qi.head → (cutTrails qi.composition)[j₁]? = some c₁ → k₁ ≤ (segs c₁ []).length →
      PdFrames g (.position qi j₁ k₁ :: .position q j k :: rest)

theorem PdFrames.top {g : PMCFG N T W} {xs : List (TsaSymbol N T)} (h : PdFrames g xs) :
    ∃ q j k rest c, xs = .position q j k :: rest ∧ rest ≠ [] ∧ IsKey g q ∧ (cutTrails q.composition)[j]? = some c ∧ k ≤ (segs c []).length := by
  cases h with
  | root h1 _ h3 h4 => exact ⟨_, _, _, _, _, rfl, by simp, h1, h3, h4⟩
  | cons _ _ _ h1 _ h3 h4 => exact ⟨_, _, _, _, _, rfl, by simp, h1, h3, h4⟩

theorem PdFrames.next {g : PMCFG N T W} {q : PMCFGRule N T Unit} {j k : Nat} {rest : List (TsaSymbol N T)} (h : PdFrames g (.position q j k :: rest)) {c : List (VarT T)}
    (hc : (cutTrails q.composition)[j]? = some c) {x : List T × Nat × Nat} (hk : (segs c [])[k]? = some x) : PdFrames g (.position q j (k + 1) :: rest) := by
  have hlt : k + 1 ≤ (segs c []).length := by
    by_contra hn
    rw [List.getElem?_eq_none (by omega)] at hk
    cases hk
  cases h with
  | root h1 h2 h3 h4 => exact .root h1 h2 hc hlt
  | cons h1 h2 h3 h4 h5 h6 h7 => exact .cons h1 h2 h3 h4 h5 hc hlt

theorem symAfter_position {q : PMCFGRule N T Unit} {j k d : Nat} {c : List (VarT T)} (hc : (cutTrails q.composition)[j]? = some c) :
    symAfter d (.position q j k) = (afterVars (k + d) c).map (componentLetter q.tail) := by
  simp [symAfter, hc]

theorem map_letter_t (tail : List N) (b : List T) : (b.map VarT.t).map (componentLetter tail) = b.map LetterT.value := by
  rw [List.map_map]
  rfl

theorem symAfter_seg {q : PMCFGRule N T Unit} {j k : Nat} {c : List (VarT T)} (hc : (cutTrails q.composition)[j]? = some c) {b : List T} {i j₁ : Nat}
    (hk : (segs c [])[k]? = some (b, i, j₁)) :
    symAfter 0 (.position q j k) = b.map LetterT.value ++ .label (q.tail[i]?, j₁) :: symAfter 1 (.position q j k) := by
  rw [symAfter_position hc, symAfter_position hc, Nat.add_zero, afterVars_segs c k b i j₁ hk, List.map_append, map_letter_t]
  rfl

theorem symAfter_end {q : PMCFGRule N T Unit} {j : Nat} {c : List (VarT T)} (hc : (cutTrails q.composition)[j]? = some c) :
    symAfter 0 (.position q j (segs c []).length) = (trail c []).map LetterT.value := by
  rw [symAfter_position hc, Nat.add_zero, afterVars_trail, map_letter_t]

theorem symAfter_start {q : PMCFGRule N T Unit} {j : Nat} {c : List (VarT T)} (hc : (cutTrails q.composition)[j]? = some c) :
    symAfter 0 (.position q j 0) = c.map (componentLetter q.tail) := by
  rw [symAfter_position hc]
  simp only [Nat.add_zero, afterVars]

theorem symAfter_succ (q : PMCFGRule N T Unit) (j k : Nat) : symAfter 1 (.position q j k) = symAfter 0 (.position q j (k + 1)) := rfl

/-- The grammar of the components, as the automaton has it. -/
abbrev cutCfg (g : PMCFG N T W) : CFG (Option N × Nat) T W := componentCfgWith cutTrails g

theorem mem_cutCfg {cut : Composition T → Composition T} {g : PMCFG N T W} {x : CFGRule (Option N × Nat) T W} :
    x ∈ (componentCfgWith cut g).rules ↔ ∃ r ∈ g.rules, ∃ (j : Nat) (c : List (VarT T)), (cut r.composition)[j]? = some c ∧
      x = ⟨(some r.head, j), c.map (componentLetter r.tail), r.weight⟩ := by
  unfold componentCfgWith
  simp only [List.mem_flatMap, List.mem_map, Prod.exists, List.mk_mem_zipIdx_iff_getElem?]
  constructor
  · rintro ⟨r, hr, c, j, h1, rfl⟩; exact ⟨r, hr, j, c, h1, rfl⟩
  · rintro ⟨r, hr, j, c, h1, rfl⟩; exact ⟨r, hr, c, j, h1, rfl⟩

theorem isTts_symbols {g : PMCFG N T W} {word : List T} {i : PdInstr (TsaSymbol N T)} (h : IsTts g (word, i)) : ∀ a ∈ word, ∃ r ∈ (cutCfg g).rules, .value a ∈ r.composition := by
  have key : ∀ (r : PMCFGRule N T W), r ∈ g.rules → ∀ (j : Nat) c, (cutTrails r.composition)[j]? = some c → ∀ a, .t a ∈ c → ∃ r ∈ (cutCfg g).rules, .value a ∈ r.composition :=
    fun r hr j c hc a ha => ⟨_, mem_cutCfg.2 ⟨r, hr, j, c, hc, rfl⟩, List.mem_map.2 ⟨_, ha, rfl⟩⟩
  intro a ha
  cases h with
  | init => simp at ha
  | fin hr _ hc => exact key _ hr _ _ hc a (mem_of_trail ha)
  | push hr hc hs _ _ => exact key _ hr _ _ hc a (mem_of_segs hs ha)
  | down _ _ _ hr _ hc => exact key _ hr _ _ hc a (mem_of_trail ha)

/-! ### From runs to derivations -/

/-- A step of the approximated automaton. -/
theorem tts_step {g : PMCFG N T W}
    (hcomp : ∀ r ∈ g.rules, ∀ (j : Nat) c (k : Nat) b i j₁, (cutTrails r.composition)[j]? = some c → (segs c [])[k]? = some (b, i, j₁) → ∀ ri ∈ g.rules,
      r.tail[i]? = some ri.head → ∃ c₁, (cutTrails ri.composition)[j₁]? = some c₁)
    {word : List T} {i : PdInstr (TsaSymbol N T)} (h : IsTts g (word, i)) {xs : List (TsaSymbol N T)} (hx : PdFrames g xs) [DecidableEq N] [DecidableEq T] {q : PushDown (TsaSymbol N T)}
    (hq : q ∈ i.apply xs.reverse) :
    (∃ xs', q = xs'.reverse ∧ PdFrames g xs' ∧
      ((∃ r ∈ (cutCfg g).rules, ∃ γ, stackForm xs = word.map .value ++ .label r.head :: γ ∧ stackForm xs' = r.composition ++ γ ∧ xs'.length = xs.length + 1) ∨
        (stackForm xs = word.map .value ++ stackForm xs' ∧ xs'.length + 1 = xs.length))) ∨
    (q = [.designated] ∧ stackForm xs = word.map .value ∧ xs.length = 2) := by
  obtain ⟨below, h1, h2⟩ := PdInstr.mem_apply.1 hq
  have h3 : xs = i.current ++ below.reverse := by
    rw [← List.reverse_reverse xs, h1]
    simp
  cases h with
  | @init r hr hin =>
    obtain ⟨q, j, k, rest, c, rfl, _⟩ := hx.top
    simp at h3
  | @fin r c hr hin hc =>
    right
    subst h3
    have hb : below = [] := by
      generalize hl : below.reverse = l at hx
      cases hx with
      | root _ _ _ _ => simpa using hl
    refine ⟨by rw [h2, hb]; rfl, ?_, by rw [hb]; rfl⟩
    rw [hb]
    simp only [List.reverse_nil, List.append_nil, stackForm]
    rw [symAfter_end (by exact hc)]
    simp [symAfter]
  | @push r j k c b i j₁ ri hr hc hs hri hA =>
    left
    subst h3
    obtain ⟨c₁, hc₁⟩ := hcomp r hr j c k _ i j₁ hc hs ri hri hA
    refine ⟨.position ri.key j₁ 0 :: .position r.key j k :: below.reverse, ?_, ?_, .inl ?_⟩
    · rw [h2]; simp
    · exact .cons hx hc hs ⟨ri, hri, rfl⟩ hA hc₁ (Nat.zero_le _)
    · refine ⟨_, mem_cutCfg.2 ⟨ri, hri, j₁, c₁, hc₁, rfl⟩, symAfter 1 (.position r.key j k) ++ below.reverse.flatMap (symAfter 1), ?_, ?_, by simp⟩
      · simp only [List.cons_append, List.nil_append, stackForm]
        rw [symAfter_seg (by exact hc) hs]
        simp only [List.append_assoc, List.cons_append]
        rw [show r.key.tail[i]? = some ri.head from hA]
      · simp only [stackForm, List.flatMap_cons]
        rw [symAfter_start (by exact hc₁)]
        rfl
  | @down r j k c b i j₁ ri c₁ hr hc hs hri hA hc₁ =>
    left
    subst h3
    have hbelow : PdFrames g (.position r.key j k :: below.reverse) := by
      cases hx with
      | cons h4 _ _ _ _ _ _ => exact h4
    refine ⟨.position r.key j (k + 1) :: below.reverse, ?_, hbelow.next hc hs, .inr ⟨?_, by simp⟩⟩
    · rw [h2]; simp
    · simp only [List.cons_append, List.nil_append, stackForm, List.flatMap_cons]
      rw [symAfter_end (by exact hc₁), symAfter_succ]

/-- The first step of the approximated automaton. -/
theorem tts_first {g : PMCFG N T W} (hinit : ∀ r ∈ g.rules, r.head ∈ g.initial → ∃ c, (cutTrails r.composition)[0]? = some c)
    {word : List T} {i : PdInstr (TsaSymbol N T)} (h : IsTts g (word, i)) [DecidableEq N] [DecidableEq T] {q : PushDown (TsaSymbol N T)}
    (hq : q ∈ i.apply [.initial]) :
    word = [] ∧ ∃ xs r, q = xs.reverse ∧ PdFrames g xs ∧ r ∈ (cutCfg g).rules ∧ r.head ∈ (cutCfg g).initial ∧ stackForm xs = r.composition ∧ xs.length = 2 := by
  obtain ⟨below, h1, h2⟩ := PdInstr.mem_apply.1 hq
  have hlen := congrArg List.length h1
  cases h with
  | @init r hr hin =>
    simp only [List.length_cons, List.length_nil, List.length_append, List.length_reverse] at hlen
    have hb : below = [] := List.length_eq_zero_iff.1 (by omega)
    subst hb
    obtain ⟨c, hc⟩ := hinit r hr hin
    refine ⟨rfl, [.position r.key 0 0, .initial], _, by rw [h2]; rfl, .root ⟨r, hr, rfl⟩ hin hc (Nat.zero_le _), mem_cutCfg.2 ⟨r, hr, 0, c, hc, rfl⟩,
      List.mem_map.2 ⟨_, hin, rfl⟩, ?_, rfl⟩
    simp only [stackForm]
    rw [symAfter_start (by exact hc)]
    simp [symAfter, PMCFGRule.key]
  | fin => simp at hlen
  | @push r j k c b i j₁ ri =>
    simp only [List.length_cons, List.length_nil, List.length_append, List.length_reverse] at hlen
    have hb : below = [] := List.length_eq_zero_iff.1 (by omega)
    rw [hb] at h1
    simp at h1
  | down => simp at hlen

theorem tts_last {g : PMCFG N T W} {word : List T} {i : PdInstr (TsaSymbol N T)} (h : IsTts g (word, i)) [DecidableEq N] [DecidableEq T] : i.apply [.designated] = [] := by
  rw [List.eq_nil_iff_forall_not_mem]
  intro q hq
  obtain ⟨below, h1, h2⟩ := PdInstr.mem_apply.1 hq
  have hlen := congrArg List.length h1
  cases h with
  | init =>
    simp only [List.length_cons, List.length_nil, List.length_append, List.length_reverse] at hlen
    rw [List.length_eq_zero_iff.1 (show below.length = 0 by omega)] at h1
    simp at h1
  | fin => simp at hlen
  | push =>
    simp only [List.length_cons, List.length_nil, List.length_append, List.length_reverse] at hlen
    rw [List.length_eq_zero_iff.1 (show below.length = 0 by omega)] at h1
    simp at h1
  | down => simp at hlen

section
variable [Monoid W] [DecidableEq N] [DecidableEq T] {g : PMCFG N T W} {L : List (Transition (PdInstr (TsaSymbol N T)) T W)}

/-- Reading the terminals at the beginning of a sentential form. -/
theorem read_exec {K : CFG N T W} (word : List T) (hw : ∀ a ∈ word, ∃ r ∈ K.rules, .value a ∈ r.composition) (w : List T) (γ : List (LetterT N T)) (u : W) :
    ∃ us u', Exec PdInstr.apply ⟨word ++ w, CFG.enc (word.map .value ++ γ), u⟩ us ⟨w, CFG.enc γ, u'⟩ ∧ ∀ t ∈ us, t ∈ K.pdaTransitions :=
  CFG.leftmost_exec_part (Leftmost.values K word) (fun t ht => by
    obtain ⟨a, ha, he⟩ := List.mem_map.1 ht
    cases he
    exact CFG.mem_terminals.2 (hw _ ha)) w γ u

theorem expand_exec {K : CFG N T W} {r : CFGRule N T W} (hr : r ∈ K.rules) (w : List T) (γ : List (LetterT N T)) (u : W) :
    ∃ t ∈ K.pdaTransitions, Step PdInstr.apply t ⟨w, CFG.enc (.label r.head :: γ), u⟩ ⟨w, CFG.enc (r.composition ++ γ), u * r.weight⟩ := by
  refine ⟨CFG.ruleTransition r, by simp only [CFG.pdaTransitions, List.mem_append, List.mem_map]; exact .inl (.inl ⟨r, hr, rfl⟩), by simp [CFG.ruleTransition], ?_, by simp [CFG.ruleTransition]⟩
  rw [PdInstr.mem_apply]
  exact ⟨CFG.enc γ, by simp [CFG.enc_cons, CFG.pushState, CFG.ruleTransition], by simp [CFG.ruleTransition, CFG.enc_append]⟩

/-- A run of the approximated automaton from the middle on, as a run of the automaton of the grammar of the components. -/
theorem tts_exec (hL : ∀ t ∈ L, IsTts g (PDA.keyOf t))
    (hcomp : ∀ r ∈ g.rules, ∀ (j : Nat) c (k : Nat) b i j₁, (cutTrails r.composition)[j]? = some c → (segs c [])[k]? = some (b, i, j₁) → ∀ ri ∈ g.rules,
      r.tail[i]? = some ri.head → ∃ c₁, (cutTrails ri.composition)[j₁]? = some c₁)
    {us : List (Transition (PdInstr (TsaSymbol N T)) T W)} (hus : ∀ t ∈ us, t ∈ L) {c : Configuration (PushDown (TsaSymbol N T)) T W} :
    ∀ {xs : List (TsaSymbol N T)} {w : List T} {u : W}, PdFrames g xs → Exec PdInstr.apply ⟨w, xs.reverse, u⟩ us c → ∀ u₁ : W,
      ∃ us' s u', Exec PdInstr.apply ⟨w, CFG.enc (stackForm xs), u₁⟩ us' ⟨c.word, s, u'⟩ ∧ (∀ t ∈ us', t ∈ (cutCfg g).pdaTransitions) ∧
        us.length + c.storage.length ≤ 2 * us'.length + xs.length ∧ (c.storage.length = 1 → s = [.designated]) := by
  induction us with
  | nil =>
    intro xs w u hx he u₁
    cases he
    refine ⟨[], _, u₁, .nil _, by simp, by simp, fun h => ?_⟩
    obtain ⟨q, j, k, rest, c, rfl, hne, _⟩ := hx.top
    simp only [List.length_reverse, List.length_cons] at h
    exact absurd (List.length_eq_zero_iff.1 (by omega)) hne
  | cons t us ih =>
    intro xs w u hx he u₁
    cases he with
    | @cons _ _ c₁ _ _ hst he =>
      obtain ⟨w₁, s₁, v₁⟩ := c₁
      have hk := hL t (hus t (by simp))
      have h1 := hst.word
      have h2 := hst.storage
      simp only at h1 h2
      subst h1
      have hread := fun γ => read_exec t.word (isTts_symbols hk) w₁ γ u₁
      rcases tts_step hcomp hk hx h2 with ⟨xs', rfl, hx', ⟨r, hr, γ, h3, h4, h5⟩ | ⟨h3, h4⟩⟩ | ⟨rfl, h3, h4⟩
      · obtain ⟨us₁, u₂, h6, h7⟩ := hread (.label r.head :: γ)
        obtain ⟨t', ht', hs'⟩ := expand_exec hr w₁ γ u₂
        obtain ⟨us₂, s, u', h8, h9, h10, h11⟩ := ih (fun t ht => hus t (by simp [ht])) hx' he (u₂ * r.weight)
        rw [h4] at h8
        refine ⟨us₁ ++ t' :: us₂, s, u', by rw [h3]; exact CFG.exec_append h6 (.cons hs' h8), ?_, ?_, h11⟩
        · intro x hxm
          rcases List.mem_append.1 hxm with hxm | hxm
          · exact h7 x hxm
          · rcases List.mem_cons.1 hxm with rfl | hxm
            · exact ht'
            · exact h9 x hxm
        · simp only [List.length_cons, List.length_append]
          omega
      · obtain ⟨us₁, u₂, h6, h7⟩ := hread (stackForm xs')
        obtain ⟨us₂, s, u', h8, h9, h10, h11⟩ := ih (fun t ht => hus t (by simp [ht])) hx' he u₂
        refine ⟨us₁ ++ us₂, s, u', by rw [h3]; exact CFG.exec_append h6 h8, ?_, ?_, h11⟩
        · intro x hxm
          rcases List.mem_append.1 hxm with hxm | hxm
          · exact h7 x hxm
          · exact h9 x hxm
        · simp only [List.length_cons, List.length_append]
          omega
      · obtain ⟨us₁, u₂, h6, h7⟩ := hread []
        cases he with
        | nil =>
          rw [List.append_nil] at h6
          exact ⟨us₁, _, u₂, by rw [h3]; exact h6, h7, by simp; omega, fun _ => rfl⟩
        | @cons _ t' _ _ _ hst' _ =>
          have := hst'.storage
          rw [tts_last (hL t' (hus t' (by simp)))] at this
          simp at this

/-- A run of the approximated automaton, as a run of the automaton of the grammar of the components. -/
theorem tts_run (hL : ∀ t ∈ L, IsTts g (PDA.keyOf t)) (hinit : ∀ r ∈ g.rules, r.head ∈ g.initial → ∃ c, (cutTrails r.composition)[0]? = some c)
    (hcomp : ∀ r ∈ g.rules, ∀ (j : Nat) c (k : Nat) b i j₁, (cutTrails r.composition)[j]? = some c → (segs c [])[k]? = some (b, i, j₁) → ∀ ri ∈ g.rules,
      r.tail[i]? = some ri.head → ∃ c₁, (cutTrails ri.composition)[j₁]? = some c₁)
    {w : List T} {us : List (Transition (PdInstr (TsaSymbol N T)) T W)} {c : Configuration (PushDown (TsaSymbol N T)) T W} (h : IsRun PdInstr.apply L [.initial] w us c) :
    (us = [] ∧ c = ⟨w, [.initial], 1⟩) ∨
    ∃ us' s u', IsRun PdInstr.apply (cutCfg g).pdaTransitions cfgStart w us' ⟨c.word, s, (u' : W)⟩ ∧ us.length ≤ 2 * us'.length ∧ (c.storage.length = 1 → s = [.designated]) := by
  obtain ⟨he, hus⟩ := h
  cases he with
  | nil => exact .inl ⟨rfl, rfl⟩
  | @cons _ t c₁ us _ hst he =>
    right
    obtain ⟨w₁, s₁, v₁⟩ := c₁
    have h1 := hst.word
    have h2 := hst.storage
    simp only at h1 h2
    obtain ⟨h3, xs, r, rfl, hx, hr, hin, hf, hlen⟩ := tts_first hinit (hL t (hus t (by simp))) h2
    rw [h3, List.nil_append] at h1
    subst h1
    obtain ⟨us', s, u', h4, h5, h6, h7⟩ := tts_exec hL hcomp (fun t ht => hus t (by simp [ht])) hx he (1 * r.weight)
    rw [hf, ← List.append_nil r.composition] at h4
    obtain ⟨t', ht', hs'⟩ := expand_exec (W := W) hr w [] 1
    refine ⟨CFG.initialTransition r.head :: t' :: us', s, u', ⟨.cons (c' := ⟨w, CFG.enc [.label r.head], 1⟩) ⟨by simp [CFG.initialTransition], ?_, by simp [CFG.initialTransition]⟩ (.cons hs' h4), ?_⟩, ?_, h7⟩
    · rw [PdInstr.mem_apply]
      exact ⟨[.designated], rfl, by simp [CFG.initialTransition, CFG.enc_cons, CFG.pushState]; rfl⟩
    · intro x hxm
      rcases List.mem_cons.1 hxm with rfl | hxm
      · simp only [CFG.pdaTransitions, List.mem_append, List.mem_map]
        exact .inr ⟨_, hin, rfl⟩
      · rcases List.mem_cons.1 hxm with rfl | hxm
        · exact ht'
        · exact h5 x hxm
    · simp only [List.length_cons]
      omega

end

/-! ### From derivations to runs -/

section
variable [Monoid W] [DecidableEq N] [DecidableEq T] {g : PMCFG N T W} {L : List (Transition (PdInstr (TsaSymbol N T)) T W)}

/-- From the first configuration, at least `n` transitions lead to the second one. -/
def Reach (L : List (Transition (PdInstr (TsaSymbol N T)) T W)) (n : Nat) (w : List T) (s : PushDown (TsaSymbol N T)) (w' : List T) (s' : PushDown (TsaSymbol N T)) : Prop :=
  ∀ u : W, ∃ us u', Exec PdInstr.apply ⟨w, s, u⟩ us ⟨w', s', u'⟩ ∧ (∀ t ∈ us, t ∈ L) ∧ n ≤ us.length

theorem Reach.refl (w : List T) (s : PushDown (TsaSymbol N T)) : Reach L 0 w s w s := fun u => ⟨[], u, .nil _, by simp, by simp⟩

theorem Reach.trans {n m : Nat} {w w' w'' : List T} {s s' s'' : PushDown (TsaSymbol N T)} (h : Reach L n w s w' s') (h' : Reach L m w' s' w'' s'') :
    Reach L (n + m) w s w'' s'' := by
  intro u
  obtain ⟨us, u', h1, h2, h3⟩ := h u
  obtain ⟨us', u'', h4, h5, h6⟩ := h' u'
  refine ⟨us ++ us', u'', CFG.exec_append h1 h4, ?_, by rw [List.length_append]; omega⟩
  intro t ht
  rcases List.mem_append.1 ht with ht | ht
  · exact h2 t ht
  · exact h5 t ht

theorem Reach.mono {n m : Nat} {w w' : List T} {s s' : PushDown (TsaSymbol N T)} (h : Reach L n w s w' s') (hm : m ≤ n) : Reach L m w s w' s' := by
  intro u
  obtain ⟨us, u', h1, h2, h3⟩ := h u
  exact ⟨us, u', h1, h2, by omega⟩

theorem Reach.step (hL : ∀ x, IsTts g x → x ∈ L.map PDA.keyOf) {word : List T} {i : PdInstr (TsaSymbol N T)} (h : IsTts g (word, i)) {s s' : PushDown (TsaSymbol N T)} (hs : s' ∈ i.apply s)
    (w : List T) : Reach L 1 (word ++ w) s w s' := by
  intro u
  obtain ⟨t, ht, he⟩ := List.mem_map.1 (hL _ h)
  obtain ⟨h1, h2⟩ := Prod.mk.inj he
  subst h1 h2
  exact ⟨[t], u * t.weight, .cons ⟨rfl, hs, rfl⟩ (.nil _), by simpa using ht, by simp⟩

omit [Monoid W] [DecidableEq N] [DecidableEq T] in
/-- Terminals at the beginning of a form that begins with other terminals. -/
theorem values_prefix {M : Type _} {b v : List T} {A : M} {Y γ : List (LetterT M T)} (h : b.map .value ++ Y = v.map .value ++ .label A :: γ) :
    ∃ v', v = b ++ v' ∧ Y = v'.map .value ++ .label A :: γ := by
  induction b generalizing v with
  | nil => exact ⟨v, rfl, by simpa using h⟩
  | cons a b ih =>
    cases v with
    | nil => simp at h
    | cons x v =>
      simp only [List.map_cons, List.cons_append, List.cons.injEq, LetterT.value.injEq] at h
      obtain ⟨rfl, h⟩ := h
      obtain ⟨v', rfl, h2⟩ := ih h
      exact ⟨v', rfl, h2⟩

omit [Monoid W] [DecidableEq N] [DecidableEq T] in
theorem values_label {M : Type _} {b v : List T} {A B : M} {Y γ : List (LetterT M T)} (h : b.map .value ++ .label B :: Y = v.map .value ++ .label A :: γ) :
    b = v ∧ B = A ∧ Y = γ := by
  obtain ⟨v', rfl, h2⟩ := values_prefix h
  cases v' with
  | nil =>
    simp only [List.map_nil, List.nil_append, List.cons.injEq, LetterT.label.injEq] at h2
    exact ⟨by simp, h2.1, h2.2⟩
  | cons a v' => simp at h2

omit [Monoid W] [DecidableEq N] [DecidableEq T] in
theorem values_values {M : Type _} {b v : List T} {Y : List (LetterT M T)} (h : b.map .value ++ Y = v.map .value) : ∃ v', v = b ++ v' ∧ Y = v'.map .value := by
  induction b generalizing v with
  | nil => exact ⟨v, rfl, by simpa using h⟩
  | cons a b ih =>
    cases v with
    | nil => simp at h
    | cons x v =>
      simp only [List.map_cons, List.cons_append, List.cons.injEq, LetterT.value.injEq] at h
      obtain ⟨rfl, h⟩ := h
      obtain ⟨v', rfl, h2⟩ := ih h
      exact ⟨v', rfl, h2⟩

/-- Leaving a component. -/
theorem down_reach (hL : ∀ x, IsTts g x → x ∈ L.map PDA.keyOf) {q qi : PMCFGRule N T Unit} {j k j₁ : Nat} {rest : List (TsaSymbol N T)} {c c₁ : List (VarT T)} {b : List T} {i : Nat}
    (hx : PdFrames g (.position q j k :: rest)) (hc : (cutTrails q.composition)[j]? = some c) (hs : (segs c [])[k]? = some (b, i, j₁)) (hqi : IsKey g qi)
    (hA : q.tail[i]? = some qi.head) (hc₁ : (cutTrails qi.composition)[j₁]? = some c₁) (w : List T) :
    PdFrames g (.position q j (k + 1) :: rest) ∧
    stackForm (.position qi j₁ (segs c₁ []).length :: .position q j k :: rest) = (trail c₁ []).map .value ++ stackForm (.position q j (k + 1) :: rest) ∧
    Reach L 1 (trail c₁ [] ++ w) (.position qi j₁ (segs c₁ []).length :: .position q j k :: rest).reverse w (.position q j (k + 1) :: rest).reverse := by
  obtain ⟨r, hr, rfl⟩ : IsKey g q := by
    obtain ⟨q', j', k', rest', c', h1, _, h2, _⟩ := hx.top
    simp only [List.cons.injEq, PosState.position.injEq] at h1
    rw [h1.1.1]
    exact h2
  obtain ⟨ri, hri, rfl⟩ := hqi
  refine ⟨hx.next hc hs, ?_, Reach.step hL (.down (b := b) hr hc hs hri hA hc₁) (PdInstr.mem_apply.2 ⟨rest.reverse, by simp, by simp⟩) w⟩
  simp only [stackForm, List.flatMap_cons]
  rw [symAfter_end hc₁, symAfter_succ]

/-- The leftmost nonterminal of the form can be expanded with each of its rules. -/
theorem expand_reach (hL : ∀ x, IsTts g x → x ∈ L.map PDA.keyOf) {r : CFGRule (Option N × Nat) T W} (hr : r ∈ (cutCfg g).rules) (w : List T) :
    ∀ (n : Nat) {xs : List (TsaSymbol N T)} {v : List T} {γ : List (LetterT (Option N × Nat) T)}, xs.length = n → PdFrames g xs →
      stackForm xs = v.map .value ++ .label r.head :: γ →
      ∃ xs', PdFrames g xs' ∧ stackForm xs' = r.composition ++ γ ∧ Reach L 1 (v ++ w) xs.reverse w xs'.reverse := by
  intro n
  induction n with
  | zero =>
    intro xs v γ hn hx
    obtain ⟨_, _, _, _, _, rfl, _⟩ := hx.top
    simp at hn
  | succ n ih =>
    intro xs v γ hn hx hf
    obtain ⟨q, j, k, rest, c, rfl, _, hq, hc, hk⟩ := hx.top
    rcases Nat.lt_or_eq_of_le hk with hk | rfl
    · obtain ⟨⟨b, i, j₁⟩, hs⟩ : ∃ x, (segs c [])[k]? = some x := ⟨_, List.getElem?_eq_getElem hk⟩
      simp only [stackForm] at hf
      rw [symAfter_seg hc hs, List.append_assoc, List.cons_append] at hf
      obtain ⟨rfl, h2, rfl⟩ := values_label hf
      obtain ⟨ri, hri, j', c₁, hc₁, rfl⟩ := mem_cutCfg.1 hr
      obtain ⟨h3, rfl⟩ := Prod.mk.inj h2
      obtain ⟨r', hr', rfl⟩ := hq
      refine ⟨.position ri.key j₁ 0 :: .position r'.key j k :: rest, .cons hx hc hs ⟨ri, hri, rfl⟩ h3 hc₁ (Nat.zero_le _), ?_, ?_⟩
      · simp only [stackForm, List.flatMap_cons]
        rw [symAfter_start (by exact hc₁)]
        rfl
      · exact Reach.step hL (.push hr' hc hs hri h3) (PdInstr.mem_apply.2 ⟨rest.reverse, by simp, by simp⟩) w
    · cases hx with
      | root h1 h2 h3 h4 =>
        simp only [stackForm] at hf
        rw [symAfter_end hc] at hf
        simp only [List.flatMap_cons, List.flatMap_nil, symAfter, List.append_nil] at hf
        obtain ⟨v', _, h5⟩ := values_prefix (Y := []) (by rw [List.append_nil]; exact hf)
        cases v' <;> simp at h5
      | @cons q' j' k' c' b i _ _ _ _ rest h1 h2 h3 h4 h5 h6 h7 =>
        obtain ⟨g1, g2, g3⟩ := down_reach hL h1 h2 h3 h4 h5 hc ([] : List T)
        rw [g2] at hf
        obtain ⟨v', rfl, hf'⟩ := values_prefix hf
        obtain ⟨xs', g4, g5, g6⟩ := ih (by simpa using hn) g1 hf'
        refine ⟨xs', g4, g5, ?_⟩
        rw [List.append_assoc]
        exact ((down_reach hL h1 h2 h3 h4 h5 hc (v' ++ w)).2.2.trans g6).mono (by omega)

/-- A leftmost derivation of the first part of the form. -/
theorem leftmost_reach (hL : ∀ x, IsTts g x → x ∈ L.map PDA.keyOf) {α : List (LetterT (Option N × Nat) T)} {rs : List (CFGRule (Option N × Nat) T W)} {v : List T}
    (h : Leftmost (cutCfg g) α rs v) (w : List T) : ∀ {xs : List (TsaSymbol N T)} {u : List T} {γ : List (LetterT (Option N × Nat) T)}, PdFrames g xs →
      stackForm xs = u.map .value ++ (α ++ γ) →
      ∃ xs' u', PdFrames g xs' ∧ stackForm xs' = u'.map .value ++ γ ∧ Reach L rs.length (u ++ (v ++ w)) xs.reverse (u' ++ w) xs'.reverse := by
  induction h with
  | nil => intro xs u γ hx hf; exact ⟨xs, u, hx, hf, Reach.refl _ _⟩
  | @read t α rs v h ih =>
    intro xs u γ hx hf
    obtain ⟨xs', u', h1, h2, h3⟩ := ih (u := u ++ [t]) (γ := γ) hx (by rw [hf]; simp)
    exact ⟨xs', u', h1, h2, by simpa using h3⟩
  | @expand r α rs v hr h ih =>
    intro xs u γ hx hf
    obtain ⟨xs₁, h1, h2, h3⟩ := expand_reach hL hr (v ++ w) _ rfl hx (by rw [hf]; rfl)
    obtain ⟨xs', u', h4, h5, h6⟩ := ih (u := []) (γ := γ) h1 (by rw [h2]; simp)
    exact ⟨xs', u', h4, h5, (h3.trans h6).mono (by simp; omega)⟩

/-- The end of a run. -/
theorem finish_reach (hL : ∀ x, IsTts g x → x ∈ L.map PDA.keyOf) (w : List T) : ∀ (n : Nat) {xs : List (TsaSymbol N T)} {v : List T}, xs.length = n → PdFrames g xs →
    stackForm xs = v.map .value → Reach L 1 (v ++ w) xs.reverse w [.designated] := by
  intro n
  induction n with
  | zero =>
    intro xs v hn hx
    obtain ⟨_, _, _, _, _, rfl, _⟩ := hx.top
    simp at hn
  | succ n ih =>
    intro xs v hn hx hf
    obtain ⟨q, j, k, rest, c, rfl, _, hq, hc, hk⟩ := hx.top
    rcases Nat.lt_or_eq_of_le hk with hk | rfl
    · obtain ⟨⟨b, i, j₁⟩, hs⟩ : ∃ x, (segs c [])[k]? = some x := ⟨_, List.getElem?_eq_getElem hk⟩
      simp only [stackForm] at hf
      rw [symAfter_seg hc hs, List.append_assoc, List.cons_append] at hf
      obtain ⟨v', _, h5⟩ := values_values hf
      cases v' <;> simp at h5
    · cases hx with
      | root h1 h2 h3 h4 =>
        simp only [stackForm] at hf
        rw [symAfter_end hc] at hf
        simp only [List.flatMap_cons, List.flatMap_nil, symAfter, List.append_nil] at hf
        have : trail c [] = v := List.map_injective_iff.2 (fun a b h => by cases h; rfl) hf
        subst this
        obtain ⟨r', hr', rfl⟩ := hq
        exact Reach.step hL (.fin hr' h2 hc) (PdInstr.mem_apply.2 ⟨[], by simp, by simp⟩) w
      | @cons q' j' k' c' b i _ _ _ _ rest h1 h2 h3 h4 h5 h6 h7 =>
        obtain ⟨g1, g2, g3⟩ := down_reach hL h1 h2 h3 h4 h5 hc ([] : List T)
        rw [g2] at hf
        obtain ⟨v', rfl, hf'⟩ := values_values hf
        have g6 := ih (by simpa using hn) g1 hf'
        rw [List.append_assoc]
        exact ((down_reach hL h1 h2 h3 h4 h5 hc (v' ++ w)).2.2.trans g6).mono (by omega)

/-- The beginning of a run. -/
theorem start_reach (hL : ∀ x, IsTts g x → x ∈ L.map PDA.keyOf) {r : CFGRule (Option N × Nat) T W} (hr : r ∈ (cutCfg g).rules) (hin : r.head ∈ (cutCfg g).initial) (w : List T) :
    ∃ xs, PdFrames g xs ∧ stackForm xs = r.composition ∧ Reach L 1 w [.initial] w xs.reverse := by
  obtain ⟨r', hr', j, c, hc, rfl⟩ := mem_cutCfg.1 hr
  obtain ⟨S, hS, he⟩ := List.mem_map.1 hin
  simp only [Prod.mk.injEq, Option.some.injEq] at he
  obtain ⟨rfl, rfl⟩ := he
  refine ⟨[.position r'.key 0 0, .initial], .root ⟨r', hr', rfl⟩ hS hc (Nat.zero_le _), ?_, Reach.step hL (.init hr' hS) (PdInstr.mem_apply.2 ⟨[], by simp, by simp⟩) w⟩
  simp only [stackForm]
  rw [symAfter_start (by exact hc)]
  simp [symAfter, PMCFGRule.key]

/-- The runs for derivations. -/
theorem generates_reach (hL : ∀ x, IsTts g x → x ∈ L.map PDA.keyOf) {w : List T} (h : Generates (cutCfg g) w) : Reach L 1 w [.initial] [] [.designated] := by
  obtain ⟨S, hS, rs, h⟩ := generates_iff.1 h
  cases h with
  | @expand r γ rs w hr h =>
    obtain ⟨xs, h1, h2, h3⟩ := start_reach hL hr hS w
    obtain ⟨xs', u', h4, h5, h6⟩ := leftmost_reach hL h [] (xs := xs) (u := []) (γ := []) h1 (by rw [h2]; simp)
    rw [List.append_nil] at h5 h6
    have h7 := finish_reach hL [] _ rfl h4 h5
    rw [List.append_nil] at h7
    rw [List.append_nil, List.nil_append] at h6
    exact ((h3.trans h6).trans h7).mono (by omega)

/-- An exposed nonterminal is expanded in some run. -/
theorem exposed_reach (hL : ∀ x, IsTts g x → x ∈ L.map PDA.keyOf) {v : List T} {A : Option N × Nat} (h : Exposed (cutCfg g) v A) (w : List T) :
    ∀ r ∈ (cutCfg g).rules, r.head = A → ∃ xs γ, PdFrames g xs ∧ stackForm xs = r.composition ++ γ ∧ Reach L 1 (v ++ w) [.initial] w xs.reverse := by
  induction h generalizing w with
  | @initial S hS =>
    rintro r hr rfl
    obtain ⟨xs, h1, h2, h3⟩ := start_reach hL hr hS w
    exact ⟨xs, [], h1, by rw [h2]; simp, h3⟩
  | @step u v A r α β B _ hr hA hc hv ih =>
    rintro r' hr' rfl
    obtain ⟨rs, hv⟩ := yields_iff.1 hv
    obtain ⟨xs, γ, h1, h2, h3⟩ := ih (v ++ w) r hr hA
    obtain ⟨xs', u', h4, h5, h6⟩ := leftmost_reach hL hv w (xs := xs) (u := []) (γ := .label r'.head :: (β ++ γ)) h1 (by rw [h2, hc]; simp)
    obtain ⟨xs'', h7, h8, h9⟩ := expand_reach hL hr' w _ rfl h4 h5
    refine ⟨xs'', _, h7, h8, ?_⟩
    rw [List.append_assoc]
    exact ((h3.trans h6).trans h9).mono (by omega)

/-- Along left corners. -/
theorem leftCorner_reach (hL : ∀ x, IsTts g x → x ∈ L.map PDA.keyOf) {A B : Option N × Nat} (h : Relation.TransGen (CfgLeftCorner (cutCfg g)) A B) (w : List T) :
    ∀ {xs : List (TsaSymbol N T)} {u : List T} {γ : List (LetterT (Option N × Nat) T)}, PdFrames g xs → stackForm xs = u.map .value ++ .label A :: γ →
      ∃ xs' u' γ', PdFrames g xs' ∧ stackForm xs' = u'.map .value ++ .label B :: γ' ∧ Reach L 1 (u ++ w) xs.reverse (u' ++ w) xs'.reverse := by
  have hone : ∀ {A B : Option N × Nat}, CfgLeftCorner (cutCfg g) A B → ∀ {xs : List (TsaSymbol N T)} {u : List T} {γ : List (LetterT (Option N × Nat) T)}, PdFrames g xs →
      stackForm xs = u.map .value ++ .label A :: γ →
      ∃ xs' u' γ', PdFrames g xs' ∧ stackForm xs' = u'.map .value ++ .label B :: γ' ∧ Reach L 1 (u ++ w) xs.reverse (u' ++ w) xs'.reverse := by
    rintro A B ⟨r, hr, rfl, α, β, hc, hv⟩ xs u γ hx hf
    obtain ⟨rs, hv⟩ := yields_iff.1 hv
    obtain ⟨xs₁, h1, h2, h3⟩ := expand_reach hL hr w _ rfl hx hf
    obtain ⟨xs', u', h4, h5, h6⟩ := leftmost_reach hL hv w (xs := xs₁) (u := []) (γ := .label B :: (β ++ γ)) h1 (by rw [h2, hc]; simp)
    exact ⟨xs', u', _, h4, h5, (h3.trans h6).mono (by omega)⟩
  induction h with
  | single h => exact hone h
  | tail _ h ih =>
    intro xs u γ hx hf
    obtain ⟨xs₁, u₁, γ₁, h1, h2, h3⟩ := ih hx hf
    obtain ⟨xs₂, u₂, γ₂, h4, h5, h6⟩ := hone h h1 h2
    exact ⟨xs₂, u₂, γ₂, h4, h5, (h3.trans h6).mono (by omega)⟩

/-- If a left recursive nonterminal is exposed, there are arbitrarily long runs. -/
theorem tts_unbounded (hL : ∀ x, IsTts g x → x ∈ L.map PDA.keyOf) {v w : List T} {A : Option N × Nat} (hv : v <+: w) (hA : Exposed (cutCfg g) v A)
    (hl : CfgLeftRecursive (cutCfg g) A) (n : Nat) : ∃ us c, IsRun PdInstr.apply L [.initial] w us c ∧ n ≤ us.length := by
  obtain ⟨w, rfl⟩ := hv
  obtain ⟨B, hAB, hBA⟩ := Relation.TransGen.head'_iff.1 hl
  have hBB : Relation.TransGen (CfgLeftCorner (cutCfg g)) B B := Relation.TransGen.tail' hBA hAB
  obtain ⟨r, hr, hrA, α, β, hc, hα⟩ := hAB
  obtain ⟨rs, hα⟩ := yields_iff.1 hα
  obtain ⟨xs, γ, h1, h2, h3⟩ := exposed_reach hL hA w r hr hrA
  obtain ⟨xs', u', h4, h5, h6⟩ := leftmost_reach hL hα w (xs := xs) (u := []) (γ := .label B :: (β ++ γ)) h1 (by rw [h2, hc]; simp)
  have h7 : ∀ n, ∃ xs'' u'' γ'', PdFrames g xs'' ∧ stackForm xs'' = u''.map .value ++ .label B :: γ'' ∧ Reach L n (u' ++ w) xs'.reverse (u'' ++ w) xs''.reverse := by
    intro n
    induction n with
    | zero => exact ⟨xs', u', _, h4, h5, Reach.refl _ _⟩
    | succ n ih =>
      obtain ⟨xs₁, u₁, γ₁, g1, g2, g3⟩ := ih
      obtain ⟨xs₂, u₂, γ₂, g4, g5, g6⟩ := leftCorner_reach hL hBB w g1 g2
      exact ⟨xs₂, u₂, γ₂, g4, g5, g3.trans g6⟩
  obtain ⟨xs₁, u₁, γ₁, _, _, h8⟩ := h7 n
  obtain ⟨us, u, h9, h10, h11⟩ := ((h3.trans h6).trans h8) 1
  exact ⟨us, _, ⟨h9, h10⟩, by omega⟩

end

end Rustomata
