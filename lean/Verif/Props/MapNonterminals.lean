import Verif.Model.MapNonterminals
import Verif.Props.Tsa
import Verif.Proofs.FromPmcfgAst

/-!
# C97: renaming the nonterminals of a grammar
-/

namespace Rustomata.Props
open Rustomata Rustomata.Spec
variable {N M T W : Type _}

/-! ### Derivations -/

mutual
/-- The derivation with renamed rules. -/
def mapTree (f : N → M) : DTree (PMCFGRule N T W) → DTree (PMCFGRule M T W)
  | .node r cs => .node (r.mapNonterminals f) (mapTrees f cs)
/-- `mapTree` for a sequence of derivations. -/
def mapTrees (f : N → M) : List (DTree (PMCFGRule N T W)) → List (DTree (PMCFGRule M T W))
  | [] => []
  | d :: ds => mapTree f d :: mapTrees f ds
end

mutual
private theorem mapTree_weight [Monoid W] (f : N → M) : ∀ d : DTree (PMCFGRule N T W), (mapTree f d).weight = d.weight
  | .node r cs => by simp only [mapTree, DTree.weight, mapTrees_weight f cs, PMCFGRule.mapNonterminals]
private theorem mapTrees_weight [Monoid W] (f : N → M) : ∀ ds : List (DTree (PMCFGRule N T W)), weights (mapTrees f ds) = weights ds
  | [] => rfl
  | d :: ds => by simp only [mapTrees, weights, mapTree_weight f d, mapTrees_weight f ds]
end

/-- **C97** Derivations stay derivations of the same words, with the same weight, if nonterminals are renamed. -/
theorem C97_derives (f : N → M) {rules : List (PMCFGRule N T W)} {A : N} {d : DTree (PMCFGRule N T W)} {v : List (List T)} (h : Derives rules A d v) :
    Derives (rules.map (PMCFGRule.mapNonterminals f)) (f A) (mapTree f d) v := by
  refine Derives.rec (motive_1 := fun A d v _ => Derives (rules.map (PMCFGRule.mapNonterminals f)) (f A) (mapTree f d) v)
    (motive_2 := fun As ds vs _ => DerivesAll (rules.map (PMCFGRule.mapNonterminals f)) (As.map f) (mapTrees f ds) vs) ?_ ?_ ?_ h
  · intro r ds args v hr _ hv ih
    exact Derives.node (r := r.mapNonterminals f) (List.mem_map_of_mem hr) ih hv
  · exact .nil
  · intro A As d ds v vs _ _ h1 h2
    exact .cons h1 h2

/-- **C97** A grammar with renamed nonterminals generates at least the words of the grammar, with the same weights. -/
theorem C97_generates [Monoid W] (f : N → M) (g : PMCFG N T W) (w : List T) (u : W) (h : PGenerates g.initial g.rules w u) :
    PGenerates (g.mapNonterminals f).initial (g.mapNonterminals f).rules w u := by
  obtain ⟨S, hS, d, hd, hu⟩ := h
  exact ⟨f S, List.mem_map_of_mem hS, mapTree f d, C97_derives f hd, (mapTree_weight f d).trans hu⟩

/-- **C97** If different nonterminals get different names, then it generates exactly these words, with the same weights. -/
theorem C97_injective [Monoid W] (f : N → M) (hf : Function.Injective f) (g : PMCFG N T W) (w : List T) (u : W) :
    PGenerates (g.mapNonterminals f).initial (g.mapNonterminals f).rules w u ↔ PGenerates g.initial g.rules w u := by
  refine ⟨fun h => ?_, C97_generates f g w u⟩
  obtain ⟨S, hS, -⟩ := id h
  obtain ⟨S', -, -⟩ := List.mem_map.mp hS
  haveI : Nonempty N := ⟨S'⟩
  obtain ⟨k, hk⟩ := hf.hasLeftInverse
  have h2 := C97_generates k (g.mapNonterminals f) w u h
  have hr : ∀ r : PMCFGRule N T W, (r.mapNonterminals f).mapNonterminals k = r := by
    intro r
    simp only [PMCFGRule.mapNonterminals, hk _, List.map_map]
    have : r.tail.map (k ∘ f) = r.tail := by
      conv_rhs => rw [← List.map_id r.tail]
      exact List.map_congr_left fun x _ => hk x
    rw [this]
  have h3 : (g.mapNonterminals f).mapNonterminals k = g := by
    cases g with
    | mk i rs =>
      simp only [PMCFG.mapNonterminals, List.map_map]
      congr 1
      · conv_rhs => rw [← List.map_id i]
        exact List.map_congr_left fun x _ => hk x
      · conv_rhs => rw [← List.map_id rs]
        exact List.map_congr_left fun x _ => hr x
  rwa [h3] at h2

/-! ### Transitions -/

section
variable [One W] (f : N → M)

private theorem tsaInitial_map (r : PMCFGRule N T W) : tsaInitial (r.mapNonterminals f) = (tsaInitial r).map (List.map (TsaTransition.mapNonterminals f)) := by
  unfold tsaInitial
  have : downInfo (r.mapNonterminals f) = downInfo r := rfl
  rw [this]
  split <;> rfl

private theorem tsaVariable_map (r : PMCFGRule N T W) (j k : Nat) (buffer : List T) (i₁ j₁ : Nat) (p : Option Nat) (ri : PMCFGRule N T W) :
    tsaVariable (r.mapNonterminals f) j k buffer i₁ j₁ p (ri.mapNonterminals f) = (tsaVariable r j k buffer i₁ j₁ p ri).map (List.map (TsaTransition.mapNonterminals f)) := by
  unfold tsaVariable
  have : downInfo (ri.mapNonterminals f) = downInfo ri := rfl
  rw [this]
  split
  · rfl
  · split
    · rfl
    · split <;> rfl

private theorem mem_mapM {α β : Type _} {g : α → Option β} {l : List α} {v : List β} (h : l.mapM g = some v) : (∀ b ∈ v, ∃ a ∈ l, g a = some b) ∧ ∀ a ∈ l, ∃ b ∈ v, g a = some b :=
  ⟨fun _ hb => forall₂_mem_right (mapM_some_iff.1 h) hb, fun _ ha => forall₂_mem_left (mapM_some_iff.1 h) ha⟩

/-- The rules for the nonterminals of a right-hand side, before and after renaming. -/
private def Covers (rss : List (List (PMCFGRule N T W))) (rss' : List (List (PMCFGRule M T W))) : Prop :=
  ∀ (i : Nat) (rs : List (PMCFGRule N T W)) (rs' : List (PMCFGRule M T W)), rss[i]? = some rs → rss'[i]? = some rs' → ∀ x ∈ rs, PMCFGRule.mapNonterminals f x ∈ rs'

private theorem tsaTokens_map {rss : List (List (PMCFGRule N T W))} {rss' : List (List (PMCFGRule M T W))} (hc : Covers f rss rss') (r : PMCFGRule N T W) (j : Nat)
    (c : List (VarT T)) (k : Nat) (buffer : List T) (previous : List (Option Nat)) {ts p ts' p'} (h : tsaTokens r rss j c k buffer previous = some (ts, p))
    (h' : tsaTokens (r.mapNonterminals f) rss' j c k buffer previous = some (ts', p')) : p = p' ∧ ∀ t ∈ ts, TsaTransition.mapNonterminals f t ∈ ts' := by
  induction c generalizing k buffer previous ts p ts' p' with
  | nil =>
    simp only [tsaTokens, Option.some.injEq, Prod.mk.injEq] at h h'
    obtain ⟨rfl, rfl⟩ := h
    obtain ⟨rfl, rfl⟩ := h'
    simp
  | cons x c ih =>
    cases x with
    | t a => exact ih _ _ _ h h'
    | var i₁ j₁ =>
      simp only [tsaTokens] at h h'
      split at h
      swap
      · cases h
      rename_i rs q hrs hq
      split at h'
      swap
      · cases h'
      rename_i rs' q' hrs' hq'
      rw [hq] at hq'
      cases hq'
      split at h
      swap
      · cases h
      rename_i tss ts1 p1 htss hts1
      split at h'
      swap
      · cases h'
      rename_i tss' ts1' p1' htss' hts1'
      simp only [Option.some.injEq, Prod.mk.injEq] at h h'
      obtain ⟨rfl, rfl⟩ := h
      obtain ⟨rfl, rfl⟩ := h'
      obtain ⟨hp, hts⟩ := ih _ _ _ hts1 hts1'
      refine ⟨hp, fun t ht => ?_⟩
      rcases List.mem_append.mp ht with ht | ht
      · obtain ⟨l, hl, htl⟩ := List.mem_flatten.mp ht
        obtain ⟨ri, hri, hv⟩ := (mem_mapM htss).1 l hl
        obtain ⟨l', hl', hv'⟩ := (mem_mapM htss').2 _ (hc i₁ rs rs' hrs hrs' ri hri)
        rw [tsaVariable_map, hv] at hv'
        simp only [Option.map_some, Option.some.injEq] at hv'
        subst hv'
        exact List.mem_append_left _ (List.mem_flatten.mpr ⟨_, hl', List.mem_map_of_mem htl⟩)
      · exact List.mem_append_right _ (hts t ht)

private theorem tsaComponents_map {rss : List (List (PMCFGRule N T W))} {rss' : List (List (PMCFGRule M T W))} (hc : Covers f rss rss') (r : PMCFGRule N T W)
    (cs : Composition T) (j : Nat) (previous : List (Option Nat)) {ts ts'} (h : tsaComponents r rss cs j previous = some ts)
    (h' : tsaComponents (r.mapNonterminals f) rss' cs j previous = some ts') : ∀ t ∈ ts, TsaTransition.mapNonterminals f t ∈ ts' := by
  induction cs generalizing j previous ts ts' with
  | nil => simp only [tsaComponents, Option.some.injEq] at h; subst h; simp
  | cons c cs ih =>
    simp only [tsaComponents] at h h'
    split at h
    · cases h
    rename_i ts1 p1 h1
    split at h'
    · cases h'
    rename_i ts1' p1' h1'
    obtain ⟨rfl, ht⟩ := tsaTokens_map f hc r j c 0 [] previous h1 h1'
    obtain ⟨ts2, h2, rfl⟩ := Option.map_eq_some_iff.mp h
    obtain ⟨ts2', h2', rfl⟩ := Option.map_eq_some_iff.mp h'
    intro t htt
    rcases List.mem_append.mp htt with htt | htt
    · exact List.mem_append_left _ (ht t htt)
    · exact List.mem_append_right _ (ih _ _ h2 h2' t htt)

variable [DecidableEq N] [DecidableEq M]

private theorem ruleMapGet_map {rules : List (PMCFGRule N T W)} {n : N} {rs : List (PMCFGRule N T W)} {rs' : List (PMCFGRule M T W)} (h : ruleMapGet rules n = some rs)
    (h' : ruleMapGet (rules.map (PMCFGRule.mapNonterminals f)) (f n) = some rs') : ∀ x ∈ rs, x.mapNonterminals f ∈ rs' := by
  unfold ruleMapGet at h h'
  split at h
  swap
  · cases h
  split at h'
  swap
  · cases h'
  cases h
  cases h'
  intro x hx
  obtain ⟨h1, h2⟩ := List.mem_filter.mp hx
  simp only [decide_eq_true_eq] at h2
  exact List.mem_filter.mpr ⟨List.mem_map_of_mem h1, by simp [PMCFGRule.mapNonterminals, h2]⟩

private theorem tsaRule_map {rules : List (PMCFGRule N T W)} {r : PMCFGRule N T W} {ts ts'} (h : tsaRule rules r = some ts)
    (h' : tsaRule (rules.map (PMCFGRule.mapNonterminals f)) (r.mapNonterminals f) = some ts') : ∀ t ∈ ts, TsaTransition.mapNonterminals f t ∈ ts' := by
  unfold tsaRule at h h'
  split at h
  · cases h
  rename_i rss hrss
  split at h'
  · cases h'
  rename_i rss' hrss'
  have hg := mapM_getElem? hrss
  have hg' := mapM_getElem? hrss'
  have hlen : rss.length = rss'.length := by rw [mapM_length hrss, mapM_length hrss']; simp [PMCFGRule.mapNonterminals]
  have hprev : (rss.map fun _ => (none : Option Nat)) = rss'.map fun _ => none := by rw [List.map_const', List.map_const', hlen]
  rw [hprev] at h
  refine tsaComponents_map f ?_ r r.composition 0 _ h h'
  intro i rs rs' hi hi'
  rw [hg] at hi
  rw [hg'] at hi'
  obtain ⟨n, hn, hi⟩ := Option.bind_eq_some_iff.mp hi
  obtain ⟨n', hn', hi'⟩ := Option.bind_eq_some_iff.mp hi'
  simp only [PMCFGRule.mapNonterminals, List.getElem?_map, hn, Option.map_some, Option.some.injEq] at hn'
  subst hn'
  exact ruleMapGet_map f hi hi'

/-- **C97** The automaton of the grammar with renamed nonterminals has the renamed transitions. -/
theorem C97_transitions (g : PMCFG N T W) {ts : List (TsaTransition N T W)} {ts' : List (TsaTransition M T W)} (h : tsaTransitions g = some ts)
    (h' : tsaTransitions (g.mapNonterminals f) = some ts') : ∀ t ∈ ts, TsaTransition.mapNonterminals f t ∈ ts' := by
  unfold tsaTransitions at h h'
  split at h
  swap
  · cases h
  rename_i a b ha hb
  split at h'
  swap
  · cases h'
  rename_i a' b' ha' hb'
  cases h
  cases h'
  intro t ht
  rcases List.mem_append.mp ht with ht | ht
  · obtain ⟨l, hl, htl⟩ := List.mem_flatten.mp ht
    obtain ⟨r, hr, hrl⟩ := (mem_mapM ha).1 l hl
    obtain ⟨h1, h2⟩ := List.mem_filter.mp hr
    simp only [decide_eq_true_eq] at h2
    obtain ⟨l', hl', hrl'⟩ := (mem_mapM ha').2 (r.mapNonterminals f) (List.mem_filter.mpr ⟨List.mem_map_of_mem h1, by
      simpa [PMCFGRule.mapNonterminals, PMCFG.mapNonterminals] using ⟨_, h2, rfl⟩⟩)
    rw [tsaInitial_map, hrl] at hrl'
    simp only [Option.map_some, Option.some.injEq] at hrl'
    subst hrl'
    exact List.mem_append_left _ (List.mem_flatten.mpr ⟨_, hl', List.mem_map_of_mem htl⟩)
  · obtain ⟨l, hl, htl⟩ := List.mem_flatten.mp ht
    obtain ⟨r, hr, hrl⟩ := (mem_mapM hb).1 l hl
    obtain ⟨l', hl', hrl'⟩ := (mem_mapM hb').2 (r.mapNonterminals f) (List.mem_map_of_mem hr)
    exact List.mem_append_right _ (List.mem_flatten.mpr ⟨_, hl', tsaRule_map f hrl hrl' t htl⟩)

end

/-! ### Runs -/

section
variable {A B : Type _} [DecidableEq A] [DecidableEq B]

/-- Renaming symbols simulates instructions. -/
private theorem map_apply (f : A → B) (x : TsInstr A) {t : TreeStack A} {s : TreeStack B} (hts : TreeStack.Rel (fun a b => f a = b) t s) {t' : TreeStack A} (h : t' ∈ x.apply t) :
    ∃ s' ∈ (x.map f).apply s, TreeStack.Rel (fun a b => f a = b) t' s' := by
  have hv : f t.currentSymbol = s.currentSymbol := hts.value
  cases x with
  | up n c o w =>
    simp only [TsInstr.apply, TsInstr.map] at h ⊢
    split at h
    swap
    · cases h
    rename_i hc
    rw [if_pos (by rw [← hv, hc])]
    rcases hts.up n with ⟨t1, s1, h1, h2, h3⟩ | ⟨t1, s1, h1, h2⟩
    · rw [h1] at h
      rw [h2]
      simp only at h ⊢
      have hv1 : f t1.currentSymbol = s1.currentSymbol := h3.value
      split at h
      swap
      · cases h
      rename_i ho
      rw [if_pos (by rw [← hv1, ho])]
      rw [List.mem_singleton] at h
      subst h
      exact ⟨_, List.mem_singleton_self _, h3.parents, rfl, h3.children⟩
    · rw [h1] at h; cases h
  | push n c w =>
    simp only [TsInstr.apply, TsInstr.map] at h ⊢
    split at h
    swap
    · cases h
    rename_i hc
    rw [if_pos (by rw [← hv, hc])]
    rcases hts.push n (a := w) (b := f w) rfl with ⟨t1, s1, h1, h2, h3⟩ | ⟨t1, s1, h1, h2⟩
    · rw [h1] at h
      rw [h2]
      simp only [List.mem_singleton] at h ⊢
      subst h
      exact ⟨_, rfl, h3⟩
    · rw [h1] at h; cases h
  | down c o w =>
    simp only [TsInstr.apply, TsInstr.map] at h ⊢
    split at h
    swap
    · cases h
    rename_i hc
    rw [if_pos (by rw [← hv, hc])]
    rcases hts.down with ⟨t1, s1, h1, h2, h3⟩ | ⟨t1, s1, h1, h2⟩
    · rw [h1] at h
      rw [h2]
      simp only at h ⊢
      have hv1 : f t1.currentSymbol = s1.currentSymbol := h3.value
      split at h
      swap
      · cases h
      rename_i ho
      rw [if_pos (by rw [← hv1, ho])]
      rw [List.mem_singleton] at h
      subst h
      exact ⟨_, List.mem_singleton_self _, h3.parents, rfl, h3.children⟩
    · rw [h1] at h; cases h

end

private theorem map_exec [DecidableEq N] [DecidableEq M] [DecidableEq T] [Mul W] (f : N → M) {c c' : Configuration (TreeStack (TsaSymbol N T)) T W} {run : List (TsaTransition N T W)}
    (h : Exec TsInstr.apply c run c') {s : TreeStack (TsaSymbol M T)} (hs : TreeStack.Rel (fun a b => PosState.map (PMCFGRule.mapNonterminals f) a = b) c.storage s) :
    ∃ s', TreeStack.Rel (fun a b => PosState.map (PMCFGRule.mapNonterminals f) a = b) c'.storage s' ∧
      Exec TsInstr.apply ⟨c.word, s, c.weight⟩ (run.map (TsaTransition.mapNonterminals f)) ⟨c'.word, s', c'.weight⟩ := by
  induction h generalizing s with
  | nil c => exact ⟨s, hs, .nil _⟩
  | @cons c t c1 ts c2 h1 _ ih =>
    obtain ⟨s1, hs1, hr1⟩ := map_apply _ t.instruction hs h1.storage
    obtain ⟨s2, hr2, he⟩ := ih hr1
    exact ⟨s2, hr2, .cons (c' := ⟨c1.word, s1, c1.weight⟩) ⟨h1.word, hs1, h1.weight⟩ he⟩

/-- **C97** Renaming the transitions of an accepting run gives an accepting run of the automaton of the grammar with renamed nonterminals, for the same word, with the same
weight and the renamed tree stack. -/
theorem C97_runs [DecidableEq N] [DecidableEq M] [DecidableEq T] [Mul W] [One W] (f : N → M) (g : PMCFG N T W) {ts : List (TsaTransition N T W)} {ts' : List (TsaTransition M T W)}
    (h : tsaTransitions g = some ts) (h' : tsaTransitions (g.mapNonterminals f) = some ts') {w : List T} {run : List (TsaTransition N T W)} {s : TreeStack (TsaSymbol N T)} {u : W}
    (hr : (TSA.device ts (TreeStack.new .initial)).Accepting w run s u) :
    ∃ s', s.mapO (fun a => some (PosState.map (PMCFGRule.mapNonterminals f) a)) = some s' ∧
      (TSA.device ts' (TreeStack.new .initial)).Accepting w (run.map (TsaTransition.mapNonterminals f)) s' u := by
  obtain ⟨⟨he, hmem⟩, hacc⟩ := hr
  obtain ⟨s', hrel, he'⟩ := map_exec f he (s := TreeStack.new .initial) ⟨.nil, rfl, .nil⟩
  refine ⟨s', TreeStack.mapO_iff.mpr (hrel.imp fun a b h => by rw [h]), ⟨he', ?_⟩, ?_⟩
  · intro t ht
    obtain ⟨t0, ht0, rfl⟩ := List.mem_map.mp ht
    exact C97_transitions f g h h' t0 (hmem t0 ht0)
  · have hp := hrel.parents
    simp only [TSA.device, TreeStack.isAtBottom] at hacc ⊢
    cases hps : s.parents with
    | nil =>
      simp only at hp
      rw [hps] at hp
      cases h0 : s'.parents with
      | nil => rfl
      | cons a l => rw [h0] at hp; cases hp
    | cons a l => rw [hps] at hacc; cases hacc

/-- **C97** The language of the automaton only grows. -/
theorem C97_language [DecidableEq N] [DecidableEq M] [DecidableEq T] [Mul W] [One W] (f : N → M) (g : PMCFG N T W) {ts : List (TsaTransition N T W)} {ts' : List (TsaTransition M T W)}
    (h : tsaTransitions g = some ts) (h' : tsaTransitions (g.mapNonterminals f) = some ts') (w : List T) (hw : (TSA.device ts (TreeStack.new .initial)).Language w) :
    (TSA.device ts' (TreeStack.new .initial)).Language w := by
  obtain ⟨run, s, u, hr⟩ := hw
  obtain ⟨s', -, hr'⟩ := C97_runs f g h h' hr
  exact ⟨_, s', u, hr'⟩

/-- **C97** When the construction of the automaton panics after renaming. -/
theorem C97_total [DecidableEq N] [DecidableEq M] [One W] (f : N → M) (g : PMCFG N T W) (hg : ∃ ts, tsaTransitions g = some ts) :
    (∃ ts', tsaTransitions (g.mapNonterminals f) = some ts') ↔
      (∀ r ∈ g.rules, f r.head ∈ g.initial.map f → r.composition ≠ []) ∧
      ∀ r ∈ g.rules, ∀ i j, (i, j) ∈ varsOf r.composition → ∀ A, r.tail[i]? = some A → ∀ r' ∈ g.rules, f r'.head = f A → j < r'.composition.length := by
  rw [tsaTransitions_some]
  obtain ⟨-, h2, h3⟩ := (tsaTransitions_some g).mp hg
  constructor
  · rintro ⟨a, -, c⟩
    refine ⟨fun r hr hh => a _ (List.mem_map_of_mem hr) hh, fun r hr i j hij A hA r' hr' hh => ?_⟩
    obtain ⟨B, hB, hb⟩ := c _ (List.mem_map_of_mem hr) i j hij
    simp only [PMCFGRule.mapNonterminals, List.getElem?_map, hA, Option.map_some, Option.some.injEq] at hB
    exact hb _ (List.mem_map_of_mem hr') (hh.trans hB)
  · rintro ⟨a, c⟩
    refine ⟨?_, ?_, ?_⟩
    · intro r hr hh
      obtain ⟨r₀, hr₀, rfl⟩ := List.mem_map.mp hr
      exact a r₀ hr₀ hh
    · intro r hr B hB
      obtain ⟨r₀, hr₀, rfl⟩ := List.mem_map.mp hr
      obtain ⟨A, hA, rfl⟩ := List.mem_map.mp hB
      obtain ⟨r', hr', rfl⟩ := h2 r₀ hr₀ A hA
      exact ⟨_, List.mem_map_of_mem hr', rfl⟩
    · intro r hr i j hij
      obtain ⟨r₀, hr₀, rfl⟩ := List.mem_map.mp hr
      obtain ⟨A, hA, -⟩ := h3 r₀ hr₀ i j hij
      refine ⟨f A, by simp [PMCFGRule.mapNonterminals, hA], fun r' hr' hh => ?_⟩
      obtain ⟨r₁, hr₁, rfl⟩ := List.mem_map.mp hr'
      exact c r₀ hr₀ i j hij A hA r₁ hr₁ hh

/-! ### Instances -/

/-- `S → [x₀] (A)`, `A → a` (A has one component), `B → ()` without components. -/
private def mapSample : PMCFG Nat Char Nat :=
  ⟨[0], [⟨0, [1], [[.var 0 0]], 2⟩, ⟨1, [], [[.t 'a']], 3⟩, ⟨2, [], [], 5⟩]⟩

/-- Renaming may make the construction panic: here `A` and `B` get the same name. -/
example : (tsaTransitions mapSample).isSome ∧ tsaTransitions (mapSample.mapNonterminals fun n => if n = 0 then 0 else 1) = none := by decide +kernel

/-- Renaming with another name for each nonterminal. -/
example : (tsaTransitions (mapSample.mapNonterminals (· + 7))).isSome ∧ (mapSample.mapNonterminals (· + 7)).initial = [7] := by decide +kernel

/-- Merging names may add words: `S → a` and `A → b` with one name for `S` and `A`. -/
example : PGenerates (W := Nat) ((⟨[0], [⟨0, [], [[.t 'a']], 1⟩, ⟨1, [], [[.t 'b']], 1⟩]⟩ : PMCFG Nat Char Nat).mapNonterminals fun _ => 0).initial
    ((⟨[0], [⟨0, [], [[.t 'a']], 1⟩, ⟨1, [], [[.t 'b']], 1⟩]⟩ : PMCFG Nat Char Nat).mapNonterminals fun _ => 0).rules ['b'] 1 :=
  ⟨0, by decide, .node ⟨0, [], [[.t 'b']], 1⟩ [], Derives.node (r := ⟨0, [], [[.t 'b']], 1⟩) (by simp [PMCFG.mapNonterminals, PMCFGRule.mapNonterminals]) .nil rfl, rfl⟩

end Rustomata.Props
