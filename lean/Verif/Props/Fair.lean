import Verif.Proofs.Fair
import Verif.Proofs.TsaLength
import Verif.Proofs.LeftRec
import Verif.Props.McfgCommand
import Verif.Props.Pda
import Verif.Props.Tsa
import Verif.Spec.Fair
import Mathlib.Algebra.Order.Ring.NNRat
import Mathlib.Tactic.NormNum
import Mathlib.Algebra.Order.Archimedean.Basic

/-!
# Property C70: recognition finds a parse after finitely many steps

Only property theorems, the lemmas that combine them, and the examples that show their hypotheses to be satisfiable.
-/

namespace Rustomata.Props
open Rustomata Rustomata.Spec
variable {A Q N T W H : Type _} [DecidableEq A] [DecidableEq Q] [DecidableEq N] [DecidableEq T]

/-! ### Fairness -/

omit [DecidableEq T] in
/-- The runs of weight at least `v` are bounded if the weights of the transitions fade. -/
theorem fades_runs {S I : Type _} [Mul W] [One W] [Preorder W] {ap : I → S → List S} {all : List (Transition I T W)} {initial : S} {v : W}
    (hf : Fades (all.map Transition.weight) v) : ∃ L, ∀ w ts c, IsRun ap all initial w ts c → v ≤ c.weight → ts.length ≤ L := by
  obtain ⟨L, hL⟩ := hf
  refine ⟨L, fun w ts c hc hv => ?_⟩
  have h1 := ((exec_iff_from ap ts _ _).1 hc.1).2.2
  rw [h1, weightFrom, ← List.foldl_map (f := Transition.weight) (g := (· * ·))] at hv
  have := hL (ts.map Transition.weight) (fun u hu => by
    obtain ⟨t, ht, rfl⟩ := List.mem_map.1 hu
    exact List.mem_map.2 ⟨t, hc.2 t ht, rfl⟩) hv
  simpa using this

/-- **C70** Finite state automata: if the weights of long runs fall below `v`, then all accepting runs of weight at least `v` are returned after finitely many steps. -/
theorem C70_fsa [Mul W] [One W] [Preorder W] (ts : List (Transition (FsInstr Q) T W)) (initial : Q) (finals : List Q)
    (hw : ∀ t ∈ ts, ∀ u : W, u * t.weight ≤ u) {v : W} (hf : Fades (ts.map Transition.weight) v)
    {G : Agenda H (Item Nat (FsInstr Nat) Nat W)} {content : H → Multiset (Item Nat (FsInstr Nat) Nat W)}
    (hG : HeapLaws G content (fun i => i.conf.weight)) {empty : H} (hempty : content empty = 0) (w : List T) :
    ∃ m₀, ∀ m ≥ m₀, ∀ out a, (FSA.new ts initial finals).recognise G empty w m = some (out, a) → ∀ z : Item Q (FsInstr Q) T W, z.conf.word = [] →
      (FSA.device ts initial finals).Accepting w z.run.toVec z.conf.storage z.conf.weight → v ≤ z.conf.weight → z ∈ out := by
  obtain ⟨L, h1, h2, h3, h4⟩ := FSA.new_represents (W := W) ts initial finals
  have hw' : ∀ t ∈ (FSA.device L initial finals).transitions, ∀ u : W, u * t.weight ≤ u := fun t ht => hw t (h2.mem_iff.1 ht)
  have hf' : Fades ((FSA.device L initial finals).transitions.map Transition.weight) v := by
    obtain ⟨l, hl⟩ := hf
    exact ⟨l, fun us hus hv => hl us (fun u hu => (h2.map Transition.weight).mem_iff.1 (hus u hu)) hv⟩
  obtain ⟨l, hl⟩ := fades_runs (ap := FSA.device L initial finals |>.apply) (initial := (FSA.device L initial finals).initial) hf'
  obtain ⟨m₀, hm⟩ := h4.fair (FSA.new_coherent ts initial finals) hG hempty hw' w v (hl w)
  refine ⟨m₀, fun m hm' out a hrun z hz hacc hv => hm m hm' out a hrun z hz ?_ hv⟩
  obtain ⟨⟨h6, h7⟩, h8⟩ := hacc
  exact ⟨⟨h6, fun t ht => h2.mem_iff.2 (h7 t ht)⟩, h8⟩

/-- **C70** Push-down automata. -/
theorem C70_pda [Mul W] [One W] [Zero W] [Add W] [Preorder W] {ts : List (Transition (PdInstr A) T W)} {initial : PushDown A} {P : PDA A T W}
    (hP : PDA.new ts initial = some P) {L : List (Transition (PdInstr A) T W)} (hL : P.listTransitions = some L)
    (hw : ∀ t ∈ L, ∀ u : W, u * t.weight ≤ u) {v : W} (hf : Fades (L.map Transition.weight) v)
    {G : Agenda H (Item (PushDown Nat) (PdInstr Nat) Nat W)} {content : H → Multiset (Item (PushDown Nat) (PdInstr Nat) Nat W)}
    (hG : HeapLaws G content (fun i => i.conf.weight)) {empty : H} (hempty : content empty = 0) (w : List T) :
    ∃ m₀, ∀ m ≥ m₀, ∀ out a, P.recognise G empty w m = some (out, a) → ∀ z : Item (PushDown A) (PdInstr A) T W, z.conf.word = [] →
      (PDA.device L initial).Accepting w z.run.toVec z.conf.storage z.conf.weight → v ≤ z.conf.weight → z ∈ out := by
  obtain ⟨L', h1, h2⟩ := PDA.new_built hP
  obtain rfl : L' = L := by rw [hL] at h1; exact (Option.some.inj h1).symm
  obtain ⟨l, hl⟩ := fades_runs (ap := (PDA.device L' initial).apply) (initial := (PDA.device L' initial).initial) hf
  exact h2.represents.fair h2.coherent hG hempty hw w v (hl w)

/-- **C70** Tree stack automata. -/
theorem C70_tsa [Mul W] [One W] [Preorder W] (ts : List (Transition (TsInstr A) T W)) (initial : TreeStack A)
    (hw : ∀ t ∈ ts, ∀ u : W, u * t.weight ≤ u) {w : List T} {v : W} {l : Nat}
    (hl : ∀ us c, IsRun TsInstr.apply ts initial w us c → v ≤ c.weight → us.length ≤ l)
    {G : Agenda H (Item (TreeStack Nat) (TsInstr Nat) Nat W)} {content : H → Multiset (Item (TreeStack Nat) (TsInstr Nat) Nat W)}
    (hG : HeapLaws G content (fun i => i.conf.weight)) {empty : H} (hempty : content empty = 0) :
    ∃ m₀, ∀ m ≥ m₀, ∀ out a, (TSA.new ts initial).recognise G empty w m = some (out, a) → ∀ z : Item (TreeStack A) (TsInstr A) T W, z.conf.word = [] →
      (TSA.device ts initial).Accepting w z.run.toVec z.conf.storage z.conf.weight → v ≤ z.conf.weight → z ∈ out := by
  obtain ⟨L, h1, h2, h3, h4⟩ := TSA.new_represents (W := W) ts initial
  have hw' : ∀ t ∈ (TSA.device L initial).transitions, ∀ u : W, u * t.weight ≤ u := fun t ht => hw t (h2.mem_iff.1 ht)
  obtain ⟨m₀, hm⟩ := h4.fair (TSA.new_coherent ts initial) hG hempty hw' w v (L := l) (fun us c hc => hl us c ⟨hc.1, fun t ht => h2.mem_iff.1 (hc.2 t ht)⟩)
  exact ⟨m₀, fun m hm' out a hrun z hz hacc hv => hm m hm' out a hrun z hz ⟨⟨hacc.1.1, fun t ht => h2.mem_iff.2 (hacc.1.2 t ht)⟩, hacc.2⟩ hv⟩

/-! ### The converse -/

/-- **C70** Conversely, a run is found within `m` steps only if all better runs, accepting or not, are shorter than `m`. -/
theorem C70_fsa_found [Mul W] [One W] [Preorder W] (ts : List (Transition (FsInstr Q) T W)) (initial : Q) (finals : List Q)
    (hw : ∀ t ∈ ts, ∀ u : W, u * t.weight ≤ u)
    {G : Agenda H (Item Nat (FsInstr Nat) Nat W)} {content : H → Multiset (Item Nat (FsInstr Nat) Nat W)}
    (hG : HeapLaws G content (fun i => i.conf.weight)) {empty : H} (hempty : content empty = 0) (w : List T) {m : Nat} {out : List (Item Q (FsInstr Q) T W)} {a : H}
    (hrun : (FSA.new ts initial finals).recognise G empty w m = some (out, a)) {z : Item Q (FsInstr Q) T W} (hz : z ∈ out) {us : List (Transition (FsInstr Q) T W)}
    {c : Configuration Q T W} (hc : IsRun (FSA.device ts initial finals).apply ts initial w us c) (hlt : ¬ c.weight ≤ z.conf.weight) : us.length < m := by
  obtain ⟨L, h1, h2, h3, h4⟩ := FSA.new_represents (W := W) ts initial finals
  have hw' : ∀ t ∈ (FSA.device L initial finals).transitions, ∀ u : W, u * t.weight ≤ u := fun t ht => hw t (h2.mem_iff.1 ht)
  exact h4.found (FSA.new_coherent ts initial finals) hG hempty hw' w hrun hz ⟨hc.1, fun t ht => h2.mem_iff.2 (hc.2 t ht)⟩ hlt

/-- **C70** Push-down automata. -/
theorem C70_pda_found [Mul W] [One W] [Zero W] [Add W] [Preorder W] {ts : List (Transition (PdInstr A) T W)} {initial : PushDown A} {P : PDA A T W}
    (hP : PDA.new ts initial = some P) {L : List (Transition (PdInstr A) T W)} (hL : P.listTransitions = some L) (hw : ∀ t ∈ L, ∀ u : W, u * t.weight ≤ u)
    {G : Agenda H (Item (PushDown Nat) (PdInstr Nat) Nat W)} {content : H → Multiset (Item (PushDown Nat) (PdInstr Nat) Nat W)}
    (hG : HeapLaws G content (fun i => i.conf.weight)) {empty : H} (hempty : content empty = 0) (w : List T) {m : Nat}
    {out : List (Item (PushDown A) (PdInstr A) T W)} {a : H} (hrun : P.recognise G empty w m = some (out, a)) {z : Item (PushDown A) (PdInstr A) T W} (hz : z ∈ out)
    {us : List (Transition (PdInstr A) T W)} {c : Configuration (PushDown A) T W} (hc : IsRun PdInstr.apply L initial w us c)
    (hlt : ¬ c.weight ≤ z.conf.weight) : us.length < m := by
  obtain ⟨L', h1, h2⟩ := PDA.new_built hP
  obtain rfl : L' = L := by rw [hL] at h1; exact (Option.some.inj h1).symm
  exact h2.represents.found h2.coherent hG hempty hw w hrun hz hc hlt

/-- **C70** Tree stack automata. -/
theorem C70_tsa_found [Mul W] [One W] [Preorder W] (ts : List (Transition (TsInstr A) T W)) (initial : TreeStack A)
    (hw : ∀ t ∈ ts, ∀ u : W, u * t.weight ≤ u)
    {G : Agenda H (Item (TreeStack Nat) (TsInstr Nat) Nat W)} {content : H → Multiset (Item (TreeStack Nat) (TsInstr Nat) Nat W)}
    (hG : HeapLaws G content (fun i => i.conf.weight)) {empty : H} (hempty : content empty = 0) (w : List T) {m : Nat}
    {out : List (Item (TreeStack A) (TsInstr A) T W)} {a : H} (hrun : (TSA.new ts initial).recognise G empty w m = some (out, a))
    {z : Item (TreeStack A) (TsInstr A) T W} (hz : z ∈ out) {us : List (Transition (TsInstr A) T W)} {c : Configuration (TreeStack A) T W}
    (hc : IsRun TsInstr.apply ts initial w us c) (hlt : ¬ c.weight ≤ z.conf.weight) : us.length < m := by
  obtain ⟨L, h1, h2, h3, h4⟩ := TSA.new_represents (W := W) ts initial
  have hw' : ∀ t ∈ (TSA.device L initial).transitions, ∀ u : W, u * t.weight ≤ u := fun t ht => hw t (h2.mem_iff.1 ht)
  exact h4.found (TSA.new_coherent ts initial) hG hempty hw' w hrun hz ⟨hc.1, fun t ht => h2.mem_iff.2 (hc.2 t ht)⟩ hlt

/-! ### Grammars -/

section
variable [CommMonoid W]

/-- The runs of the automaton of a grammar have bounded lengths if their weights are at least `v` and the weights of the rules fade, though most transitions have
weight one. -/
theorem fades_pmcfg [LE W] {g : PMCFG N T W} {ts : List (TsaTransition N T W)} (hts : tsaTransitions g = some ts) (ho : Ordered g.rules)
    (hs : ∀ r ∈ g.rules, ShortTrails r.composition) {v : W} (hf : Fades (g.rules.map PMCFGRule.weight) v) :
    ∃ l, ∀ w us c, IsRun TsInstr.apply ts (TreeStack.new .initial) w us c → v ≤ c.weight → us.length ≤ l := by
  obtain ⟨K, F, hb⟩ := exists_grammarBound g
  obtain ⟨L, hL⟩ := fades_prod.1 hf
  refine ⟨(TreeStack.new (.initial : TsaSymbol N T)).total (potential K F) + ((F + 2) * (K + 2) + 1) * L, fun w us c hc hv => ?_⟩
  have hus : ∀ t ∈ us, IsTrans g t := fun t ht => ((tsaTransitions_mem hts ho hs).1 t).1 (hc.2 t ht)
  obtain ⟨h1, h3, h2⟩ := (exec_iff _ us _ _).1 hc.1
  obtain ⟨rs, hrs, hlen, hwt⟩ := run_weight hus
  have h4 := run_length_le hb hus (TreeStack.wf_new _) h3
  rw [h2, one_mul, hwt] at hv
  have h5 := hL (rs.map PMCFGRule.weight) (fun u hu => by
    obtain ⟨r, hr, rfl⟩ := List.mem_map.1 hu
    exact List.mem_map.2 ⟨r, hrs r hr, rfl⟩) hv
  rw [List.length_map, hlen] at h5
  exact h4.trans (Nat.add_le_add_left (Nat.mul_le_mul_left _ h5) _)

/-- The weights of the transitions are at most one if those of the rules are. -/
theorem tsa_weights [Preorder W] {g : PMCFG N T W} {ts : List (TsaTransition N T W)} (hts : tsaTransitions g = some ts) (ho : Ordered g.rules)
    (hs : ∀ r ∈ g.rules, ShortTrails r.composition) (hle : ∀ r ∈ g.rules, ∀ u : W, u * r.weight ≤ u) : ∀ t ∈ ts, ∀ u : W, u * t.weight ≤ u := by
  intro t ht u
  obtain ⟨m1, _⟩ := tsaTransitions_mem hts ho hs
  cases (m1 t).1 ht with
  | init hr _ => exact hle _ hr u
  | fin => simp
  | push _ _ _ hr _ => exact hle _ hr u
  | up => simp
  | down => simp

/-- **C70, partial** The automaton of a grammar: if the weights of the rules fade, each derivation of weight at least `v` is shown by a parse after finitely many steps.
(For grammars as in C28.) -/
theorem C70_pmcfg_partial [Preorder W] (g : PMCFG N T W) (a : TSA (TsaSymbol N T) T W) (ha : TSA.ofPmcfg g = some a) (ho : Ordered g.rules)
    (hs : ∀ r ∈ g.rules, ShortTrails r.composition) (hne : ∀ r ∈ g.rules, r.composition ≠ []) (hle : ∀ r ∈ g.rules, ∀ u : W, u * r.weight ≤ u)
    {v : W} (hf : Fades (g.rules.map PMCFGRule.weight) v)
    {G : Agenda H (Item (TreeStack Nat) (TsInstr Nat) Nat W)} {content : H → Multiset (Item (TreeStack Nat) (TsInstr Nat) Nat W)}
    (hG : HeapLaws G content (fun i => i.conf.weight)) {empty : H} (hempty : content empty = 0) (w : List T) :
    ∃ m₀, ∀ m ≥ m₀, ∀ out b, a.recognise G empty w m = some (out, b) → ∀ S ∈ g.initial, ∀ d : DTree (PMCFGRule N T W), Derives g.rules S d [w] → v ≤ d.weight →
      ∃ i ∈ out, i.conf.weight = d.weight ∧ C68_shows i.conf.storage d := by
  unfold TSA.ofPmcfg at ha
  obtain ⟨ts, hts, rfl⟩ := Option.map_eq_some_iff.1 ha
  have hwt := tsa_weights hts ho hs hle
  obtain ⟨l, hl⟩ := fades_pmcfg hts ho hs hf
  obtain ⟨m₀, hm⟩ := C70_tsa ts _ hwt (hl w) hG hempty
  refine ⟨m₀, fun m hm' out b hrun S hS d hd hv => ?_⟩
  obtain ⟨run, s, hr, hacc, hmm⟩ := C28_complete_partial g ts hts ho hs hne hS hd
  have hv' : (Pushdown.ofSlice run).toVec = run := by unfold Pushdown.ofSlice; rw [Pushdown.toVec_foldl]; simp
  exact ⟨_, hm m hm' out b hrun ⟨⟨[], s, d.weight⟩, Pushdown.ofSlice run⟩ rfl (by rw [hv']; exact hacc) hv, rfl, hmm⟩

/-- **C70, partial** Conversely, a parse is found within `m` steps only if all paths of left corners that are better than the parse are shorter than `m`: with left
recursion of weight one, no worse parse is ever found. -/
theorem C70_pmcfg_found_partial [Preorder W] (g : PMCFG N T W) (a : TSA (TsaSymbol N T) T W) (ha : TSA.ofPmcfg g = some a) (ho : Ordered g.rules)
    (hs : ∀ r ∈ g.rules, ShortTrails r.composition) (hle : ∀ r ∈ g.rules, ∀ u : W, u * r.weight ≤ u)
    {G : Agenda H (Item (TreeStack Nat) (TsInstr Nat) Nat W)} {content : H → Multiset (Item (TreeStack Nat) (TsInstr Nat) Nat W)}
    (hG : HeapLaws G content (fun i => i.conf.weight)) {empty : H} (hempty : content empty = 0) (w : List T) {m : Nat}
    {out : List (Item (TreeStack (TsaSymbol N T)) (TsInstr (TsaSymbol N T)) T W)} {b : H} (hrun : a.recognise G empty w m = some (out, b))
    {i : Item (TreeStack (TsaSymbol N T)) (TsInstr (TsaSymbol N T)) T W} (hi : i ∈ out) {rs : List (PMCFGRule N T W)} {r : PMCFGRule N T W} (hp : LeftPath g rs r)
    (hlt : ¬ (rs.map PMCFGRule.weight).prod ≤ i.conf.weight) : rs.length < m := by
  unfold TSA.ofPmcfg at ha
  obtain ⟨ts, hts, rfl⟩ := Option.map_eq_some_iff.1 ha
  obtain ⟨us, c, h1, h2, h3, _⟩ := leftPath_run hts ho hs w hp
  rw [← h2]
  exact C70_tsa_found ts _ (tsa_weights hts ho hs hle) hG hempty w hrun hi h1 (by rw [h3]; exact hlt)

end

/-- **C70, partial** `mcfg parse` finishes for a sentence with at least `n` derivations, if the weights of the rules fade below the weights of these derivations. -/
theorem C70_sentence_partial [CommMonoid W] [LinearOrder W] {g : PMCFG (List Nat) (List Nat) W} {a : TSA (TsaSymbol (List Nat) (List Nat)) (List Nat) W}
    (ha : TSA.ofPmcfg g = some a) (hg : McfgOk g) (hle : ∀ r ∈ g.rules, ∀ u : W, u * r.weight ≤ u)
    {G : Agenda H (Item (TreeStack Nat) (TsInstr Nat) Nat W)} {content : H → Multiset (Item (TreeStack Nat) (TsInstr Nat) Nat W)}
    (hG : HeapLaws G content fun i => i.conf.weight) {empty : H} (hempty : content empty = 0) {w : List (List Nat)} (hw : w ≠ [])
    {ds : List (DTree (PMCFGRule (List Nat) (List Nat) W))} (hds : SomeDerivations g w ds.length ds) (hf : ∀ d ∈ ds, Fades (g.rules.map PMCFGRule.weight) d.weight)
    (id : Nat) : ∃ m₀, ∀ m ≥ m₀, ∃ text, mcfgSentence a G empty ds.length m id w = some (some text) := by
  -- all derivations of the list are found after finitely many steps
  have hall : ∀ l : List (DTree (PMCFGRule (List Nat) (List Nat) W)), (∀ d ∈ l, d ∈ ds) → ∃ m₀, ∀ m ≥ m₀, ∀ out b, a.recognise G empty w m = some (out, b) →
      ∀ d ∈ l, ∃ i ∈ out, C68_shows i.conf.storage d := by
    intro l
    induction l with
    | nil => exact fun _ => ⟨0, by simp⟩
    | cons d l ih =>
      intro hl
      obtain ⟨m₁, h1⟩ := ih fun d hd => hl d (by simp [hd])
      have hd := hl d (by simp)
      obtain ⟨S, hS, hSd⟩ := hds.2.2 d hd
      obtain ⟨m₂, h2⟩ := C70_pmcfg_partial g a ha hg.ordered hg.short hg.nonempty hle (hf d hd) hG hempty w
      refine ⟨max m₁ m₂, fun m hm out b hrun d' hd' => ?_⟩
      rcases List.mem_cons.1 hd' with rfl | hd'
      · obtain ⟨i, hi, _, hi'⟩ := h2 m (le_trans (le_max_right _ _) hm) out b hrun S hS _ hSd (le_refl _)
        exact ⟨i, hi, hi'⟩
      · exact h1 m (le_trans (le_max_left _ _) hm) out b hrun d' hd'
  obtain ⟨m₀, hm⟩ := hall ds fun _ h => h
  refine ⟨m₀, fun m hm' => ?_⟩
  obtain ⟨r, hr⟩ := C69_no_panic_partial ha hg hG.lossless.sound hempty hw ds.length m id
  rw [hr]
  unfold mcfgSentence at hr
  cases hrun : a.recognise G empty w m with
  | none => rw [hrun] at hr; cases hr
  | some x =>
    obtain ⟨out, b⟩ := x
    rw [hrun] at hr
    simp only at hr
    split at hr
    · cases hr
    · obtain ⟨es, hnd, hes⟩ := shown_derivations ha hg hG.lossless.sound hempty hw hrun
      have hsub : ds ⊆ es := by
        intro d hd
        obtain ⟨i, hi, m1, g1, g2⟩ := hm m hm' out b hrun d hd
        obtain ⟨e, he, ⟨m2, g3, g4⟩, _, S', hS', hSe⟩ := forall₂_exists_right hes hi
        obtain ⟨S, hS, hSd⟩ := hds.2.2 d hd
        rw [g1, Option.some_inj] at g3
        subst g3
        rwa [C68_derivation hg.keys hSd hSe fun p => by rw [← g2, g4]]
      have hlen := (hds.1.subperm hsub).length_le
      rw [← hes.length_eq] at hlen
      rw [if_pos (.inl hlen)] at hr
      exact ⟨_, congrArg some (Option.some.inj hr).symm⟩

/-! ### Probabilities -/

/-- **C70** Probabilities below one fade below each positive probability. -/
theorem C70_probabilities {ws : List ℚ≥0} (hws : ∀ u ∈ ws, u < 1) {v : ℚ≥0} (hv : 0 < v) : Fades ws v := by
  have hb : ∃ b < 1, ∀ u ∈ ws, u ≤ b := by
    induction ws with
    | nil => exact ⟨0, by decide, by simp⟩
    | cons u ws ih =>
      obtain ⟨b, h1, h2⟩ := ih fun u hu => hws u (by simp [hu])
      refine ⟨max u b, max_lt (hws u (by simp)) h1, fun x hx => ?_⟩
      rcases List.mem_cons.1 hx with rfl | hx
      · exact le_max_left _ _
      · exact (h2 x hx).trans (le_max_right _ _)
  obtain ⟨b, h1, h2⟩ := hb
  obtain ⟨L, hL⟩ := exists_pow_lt_of_lt_one hv h1
  refine fades_prod.2 ⟨L, fun us hus hle => ?_⟩
  by_contra hlen
  have h3 : us.prod ≤ b ^ us.length := by
    clear hle hlen
    induction us with
    | nil => simp
    | cons u us ih =>
      rw [List.prod_cons, List.length_cons, pow_succ']
      exact mul_le_mul' (h2 u (hus u (by simp))) (ih fun u hu => hus u (by simp [hu]))
  have h4 : b ^ us.length ≤ b ^ L := pow_le_pow_of_le_one (by simp) h1.le (by omega)
  exact absurd (hle.trans (h3.trans h4)) (not_le.2 hL)

/-- The full claim **C70** for the grammars with `P`: `mcfg parse` finishes for each sentence with at least `n` derivations. -/
def C70_claim_for (P : PMCFG (List Nat) (List Nat) ℚ≥0 → Prop) : Prop :=
  ∀ (g : PMCFG (List Nat) (List Nat) ℚ≥0) (a : TSA (TsaSymbol (List Nat) (List Nat)) (List Nat) ℚ≥0), TSA.ofPmcfg g = some a → McfgOk g → P g →
    ∀ w ≠ [], ∀ ds, SomeDerivations g w ds.length ds → ∀ id, ∃ m₀, ∀ m ≥ m₀, ∃ text, mcfgSentence a (listHeap fun i => i.conf.weight) [] ds.length m id w = some (some text)

/-- The full claim **C70**: for all grammars with weights at most one. -/
def C70_claim : Prop := C70_claim_for fun g => ∀ r ∈ g.rules, r.weight ≤ 1

theorem weight_pos {rules : List (PMCFGRule N T ℚ≥0)} (h : ∀ r ∈ rules, 0 < r.weight) {S : N} {d : DTree (PMCFGRule N T ℚ≥0)} {v : List (List T)}
    (hd : Derives rules S d v) : 0 < d.weight := by
  refine derives_induct (P := fun _ d _ => 0 < d.weight) ?_ hd
  intro r ds args v hr hl hl' hch _
  have : ∀ l : List (DTree (PMCFGRule N T ℚ≥0)), (∀ d ∈ l, 0 < d.weight) → 0 < weights l := by
    intro l
    induction l with
    | nil => intro _; simp [weights]
    | cons d l ih => exact fun h => mul_pos (h d (by simp)) (ih fun d hd => h d (by simp [hd]))
  refine mul_pos (h r hr) (this ds fun d hd => ?_)
  obtain ⟨i, hi, rfl⟩ := List.mem_iff_getElem.1 hd
  exact (hch i (r.tail[i]'(by omega)) _ (args[i]'(by omega)) (by simp) (by simp) (by simp)).2

/-- **C70, partial** The claim holds for grammars with weights between zero and one, without zero and one. -/
theorem C70_claim_partial : C70_claim_for fun g => ∀ r ∈ g.rules, 0 < r.weight ∧ r.weight < 1 := by
  intro g a ha hg hP w hw ds hds id
  refine C70_sentence_partial ha hg (fun r hr u => mul_le_of_le_one_right (by simp) (hP r hr).2.le) (listHeap_laws _) rfl hw hds (fun d hd => ?_) id
  obtain ⟨S, _, hd'⟩ := hds.2.2 d hd
  refine C70_probabilities (fun u hu => ?_) (weight_pos (fun r hr => (hP r hr).1) hd')
  obtain ⟨r, hr, rfl⟩ := List.mem_map.1 hu
  exact (hP r hr).2

/-- A loop that reads nothing: the runs with at most six repetitions are found after finitely many steps. -/
example (w : List Char) : ∃ m₀, ∀ m ≥ m₀, ∀ out a,
    (FSA.new [⟨[], (1 / 2 : ℚ≥0), ⟨0, 0⟩⟩, ⟨['a'], 1 / 2, ⟨0, 1⟩⟩] 0 [1]).recognise (listHeap fun i => i.conf.weight) [] w m = some (out, a) →
    ∀ z : Item Nat (FsInstr Nat) Char ℚ≥0, z.conf.word = [] → (FSA.device [⟨[], (1 / 2 : ℚ≥0), ⟨0, 0⟩⟩, ⟨['a'], 1 / 2, ⟨0, 1⟩⟩] 0 [1]).Accepting w z.run.toVec z.conf.storage
      z.conf.weight → 1 / 128 ≤ z.conf.weight → z ∈ out := by
  refine C70_fsa _ _ _ (fun t ht u => mul_le_of_le_one_right (by simp) ?_) (C70_probabilities (fun u hu => ?_) (by norm_num)) (listHeap_laws _) rfl w
  · simp only [List.mem_cons, List.not_mem_nil, or_false] at ht
    rcases ht with rfl | rfl <;> exact (by norm_num : (1 / 2 : ℚ≥0) ≤ 1)
  · simp only [List.map_cons, List.map_nil, List.mem_cons, List.not_mem_nil, or_false, or_self] at hu
    rw [hu]
    norm_num

open C65Example

namespace C70Example

def S := bytes "S"
def X := bytes "A"
def a := bytes "a"

/-- `S → S A`, `S → A`, `A → a`, where the left recursive rule has the weight `p`. -/
def g (p : ℚ≥0) : PMCFG (List Nat) (List Nat) ℚ≥0 := ⟨[S], [⟨S, [S, X], [[.var 0 0, .var 1 0]], p⟩, ⟨S, [X], [[.var 0 0]], 1 / 2⟩, ⟨X, [], [[.t a]], 1 / 2⟩]⟩

theorem hasAutomaton (p : ℚ≥0) : ∃ a, TSA.ofPmcfg (g p) = some a := by
  have : (TSA.ofPmcfg (g p)).isSome = true := by rfl
  exact Option.isSome_iff_exists.1 this

theorem ok (p : ℚ≥0) : McfgOk (g p) where
  ordered := by
    intro r hr i A' h r' hr' he
    simp only [g, List.mem_cons, List.not_mem_nil, or_false] at hr hr'
    rcases hr with rfl | rfl | rfl <;> rcases hr' with rfl | rfl | rfl <;> (subst he; match i, h with
      | 0, h => first | rfl | cases h
      | 1, h => first | rfl | cases h
      | i + 2, h => cases h)
  short := by
    intro r hr
    simp only [g, List.mem_cons, List.not_mem_nil, or_false] at hr
    refine ⟨fun comp hc l x y he => ?_, fun j hj => ?_⟩
    · subst he
      rcases hr with rfl | rfl | rfl <;> simp only [List.mem_singleton] at hc
      · have := congrArg List.getLast? hc
        simp at this
      · have := congrArg List.length hc
        simp at this
      · have := congrArg List.length hc
        simp at this
    · rcases hr with rfl | rfl | rfl <;> cases hj
  nonempty := by
    intro r hr
    simp only [g, List.mem_cons, List.not_mem_nil, or_false] at hr
    rcases hr with rfl | rfl | rfl <;> simp
  initial := by
    intro r hr _
    simp only [g, List.mem_cons, List.not_mem_nil, or_false] at hr
    rcases hr with rfl | rfl | rfl <;> rfl
  keys := by simp only [g, List.map_cons, List.map_nil, PMCFGRule.key]; decide
  separated := by
    intro r hr
    simp only [g, List.mem_cons, List.not_mem_nil, or_false] at hr
    rcases hr with rfl | rfl | rfl
    · exact .inr (by simp)
    · exact .inr (by simp)
    · exact .inl ⟨a, rfl⟩
  root := by
    intro r hr hi t
    simp only [g, List.mem_cons, List.not_mem_nil, or_false] at hr
    rcases hr with rfl | rfl | rfl
    · simp
    · simp
    · exact absurd (List.mem_singleton.1 hi) (by decide)

/-- The derivation of `a`. -/
def d : DTree (PMCFGRule (List Nat) (List Nat) ℚ≥0) := .node ⟨S, [X], [[.var 0 0]], 1 / 2⟩ [.node ⟨X, [], [[.t a]], 1 / 2⟩ []]

theorem derives (p : ℚ≥0) : SomeDerivations (g p) [a] 1 [d] := by
  refine ⟨by simp, le_refl _, fun e he => ?_⟩
  rw [List.mem_singleton.1 he]
  exact ⟨S, by simp [g], .node (r := ⟨S, [X], [[.var 0 0]], 1 / 2⟩) (args := [[[a]]]) (by simp [g])
    (.cons (.node (r := ⟨X, [], [[.t a]], 1 / 2⟩) (args := []) (by simp [g]) .nil rfl) .nil) rfl⟩

/-- The left recursive rule can be repeated. -/
theorem left (p : ℚ≥0) (n : Nat) : LeftPath (g p) (List.replicate (n + 1) ⟨S, [S, X], [[.var 0 0, .var 1 0]], p⟩) ⟨S, [S, X], [[.var 0 0, .var 1 0]], p⟩ := by
  induction n with
  | zero => exact .first (by simp [g]) (by simp [g])
  | succ n ih =>
    rw [List.replicate_succ']
    exact .step ih ⟨by simp [g], by simp [g], 0, [.var 1 0], [], rfl, rfl⟩

theorem half {v : List (List (List Nat))} {B : List Nat} {e : DTree (PMCFGRule (List Nat) (List Nat) ℚ≥0)} (h : Derives (g 1).rules B e v) : e.weight ≤ 1 / 2 := by
  refine derives_induct (P := fun _ e _ => e.weight ≤ 1 / 2) ?_ h
  intro r ds args v hr hl hl' hch _
  have hds : ∀ e ∈ ds, e.weight ≤ 1 / 2 := by
    intro e he
    obtain ⟨i, hi, rfl⟩ := List.mem_iff_getElem.1 he
    exact (hch i (r.tail[i]'(by omega)) _ (args[i]'(by omega)) (by simp) (by simp) (by simp)).2
  have h1 : ∀ l : List (DTree (PMCFGRule (List Nat) (List Nat) ℚ≥0)), (∀ e ∈ l, e.weight ≤ 1 / 2) → weights l ≤ 1 := by
    intro l
    induction l with
    | nil => intro _; simp [weights]
    | cons e l ih =>
      intro h
      exact mul_le_one' ((h e (by simp)).trans (by norm_num)) (ih fun e he => h e (by simp [he]))
  simp only [g, List.mem_cons, List.not_mem_nil, or_false] at hr
  rcases hr with rfl | rfl | rfl
  · match ds, hl with
    | e :: l, _ =>
      rw [DTree.weight, one_mul, weights]
      exact mul_le_of_le_of_le_one (hds e (by simp)) (h1 l fun e he => hds e (by simp [he]))
  · exact mul_le_of_le_one_right (by simp) (h1 ds hds)
  · exact mul_le_of_le_one_right (by simp) (h1 ds hds)

end C70Example

open C70Example in
/-- **C70** is violated by left recursion of weight one: with `S → S A`, `S → A` and `A → a` the parse of `a` is never found. -/
theorem C70_violated : ¬ C70_claim := by
  intro h
  obtain ⟨b, hb⟩ := hasAutomaton 1
  have hle : ∀ r ∈ (g 1).rules, r.weight ≤ 1 := by
    intro r hr
    simp only [g, List.mem_cons, List.not_mem_nil, or_false] at hr
    rcases hr with rfl | rfl | rfl
    · exact le_refl _
    · exact (by norm_num : (1 / 2 : ℚ≥0) ≤ 1)
    · exact (by norm_num : (1 / 2 : ℚ≥0) ≤ 1)
  have hle' : ∀ r ∈ (g 1).rules, ∀ u : ℚ≥0, u * r.weight ≤ u := fun r hr u => mul_le_of_le_one_right (by simp) (hle r hr)
  obtain ⟨m, hm⟩ := h (g 1) b hb (ok 1) hle [a] (by simp) [d] (derives 1) 1
  obtain ⟨text, ht⟩ := hm (m + 1) (by omega)
  unfold mcfgSentence at ht
  have hlaws := listHeap_laws fun i : Item (TreeStack Nat) (TsInstr Nat) Nat ℚ≥0 => i.conf.weight
  cases hrun : b.recognise (listHeap fun i => i.conf.weight) [] [a] (m + 1) with
  | none => rw [hrun] at ht; cases ht
  | some x =>
    obtain ⟨out, c⟩ := x
    rw [hrun] at ht
    simp only at ht
    split at ht
    · cases ht
    · split at ht
      · rename_i hfin
        have hex : ∃ i, i ∈ out := by
          rcases hfin with hn | hp
          · cases out with
            | nil => simp at hn
            | cons i _ => exact ⟨i, by simp⟩
          · obtain ⟨S', hS, hd⟩ := (derives 1).2.2 d (by simp)
            obtain ⟨i, hi, _⟩ := C53_ast_complete_partial (g 1) b hb (ok 1).ordered (ok 1).short (ok 1).nonempty hlaws.lossless rfl hrun (by simpa using hp) hS hd
            exact ⟨i, hi⟩
        obtain ⟨i, hi⟩ := hex
        obtain ⟨es, _, hes⟩ := shown_derivations hb (ok 1) hlaws.lossless.sound rfl (by simp) hrun
        obtain ⟨e, _, _, he, S', _, hd⟩ := forall₂_exists_right hes hi
        have := C70_pmcfg_found_partial (g 1) b hb (ok 1).ordered (ok 1).short hle' hlaws rfl [a] hrun hi (left 1 m) (by
          rw [he, List.map_replicate, List.prod_replicate, one_pow, not_le]
          exact lt_of_le_of_lt (half hd) (by norm_num))
        simp at this
      · cases ht

open C70Example in
/-- The parse is found if the weight is less than one. -/
example (id : Nat) : ∃ b, TSA.ofPmcfg (g (1 / 2)) = some b ∧ ∃ m₀, ∀ m ≥ m₀, ∃ text, mcfgSentence b (listHeap fun i => i.conf.weight) [] 1 m id [a] = some (some text) := by
  obtain ⟨b, hb⟩ := hasAutomaton (1 / 2)
  refine ⟨b, hb, C70_claim_partial (g (1 / 2)) b hb (ok _) ?_ [a] (by simp) [d] (derives _) id⟩
  intro r hr
  simp only [g, List.mem_cons, List.not_mem_nil, or_false] at hr
  have : (0 : ℚ≥0) < 1 / 2 ∧ (1 / 2 : ℚ≥0) < 1 := by norm_num
  rcases hr with rfl | rfl | rfl <;> exact this

end Rustomata.Props
