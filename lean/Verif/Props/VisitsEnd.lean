import Verif.Proofs.VisitsLeft
import Verif.Props.Visits
import Verif.Props.Ends

/-!
# Property C78: recognition with the automaton of an arbitrary PMCFG returns each choice of rules once, and when it ends

Only property theorems, the lemmas that combine them, and the examples that show their hypotheses to be satisfiable. C68, C70 and C71 are restricted to ordered grammars without
long trailing terminals. Here, all grammars are admitted, with the derivations of `Spec/Visits` (C77).
-/

namespace Rustomata.Props
open Rustomata Rustomata.Spec
variable {N T W H : Type _} [CommMonoid W] [DecidableEq N] [DecidableEq T]

/-! ### Each choice of rules once -/

/-- **C78**: if rules differ in more than their weights, then `recognise` returns no abstract syntax tree twice, for any grammar, whatever the agenda keeps of the items and
however many steps are made; and no run is returned twice. -/
theorem C78_once (g : PMCFG N T W) (a : TSA (TsaSymbol N T) T W) (ha : TSA.ofPmcfg g = some a) (hk : (g.rules.map PMCFGRule.key).Nodup)
    {G : Agenda H (Item (TreeStack Nat) (TsInstr Nat) Nat W)} {content : H → Multiset (Item (TreeStack Nat) (TsInstr Nat) Nat W)} (hG : G.Sound content)
    {empty : H} (hempty : content empty = 0) {w : List T} {n : Nat} {out : List (Item (TreeStack (TsaSymbol N T)) (TsInstr (TsaSymbol N T)) T W)} {b : H}
    (hrun : a.recognise G empty w n = some (out, b)) : (out.map fun i => i.run.toVec).Nodup ∧
      out.Pairwise fun i j => i.run.toVec ≠ [] → j.run.toVec ≠ [] →
        ∀ m m', toAbstractSyntaxTree i.conf.storage.toTree.1 = some m → toAbstractSyntaxTree j.conf.storage.toTree.1 = some m' → ∃ p, m.get p ≠ m'.get p := by
  unfold TSA.ofPmcfg at ha
  obtain ⟨ts, hts, rfl⟩ := Option.map_eq_some_iff.1 ha
  have hnd : (out.map fun i => i.run.toVec).Nodup := by
    obtain ⟨L, h1, h2, h3, h4⟩ := TSA.new_represents (W := W) ts (TreeStack.new .initial)
    exact h4.once hG hempty (h2.nodup_iff.2 (tsaTransitions_once hts hk)) (fun i s => TsInstr.apply_length i s) hrun
  refine ⟨hnd, ?_⟩
  refine (List.pairwise_map.1 hnd).imp_of_mem fun {i j} hi hj hij ri rj m m' hm hm' => ?_
  by_contra he
  push Not at he
  refine hij ?_
  obtain ⟨_, h1⟩ := C16_tsa_sound ts _ hG hempty hrun i hi
  obtain ⟨_, h2⟩ := C16_tsa_sound ts _ hG hempty hrun j hj
  exact visit_accepting_unique hts hk h1 ri h2 rj fun m₁ m₂ e1 e2 => by
    rw [hm, Option.some_inj] at e1
    rw [hm', Option.some_inj] at e2
    subst e1 e2
    exact he

/-- **C78**: then the rules without their weights determine the rules, the word and the weight. -/
theorem C78_labels (g : PMCFG N T W) (ts : List (TsaTransition N T W)) (hts : tsaTransitions g = some ts) (hk : (g.rules.map PMCFGRule.key).Nodup)
    {S S' : N} (hS : S ∈ g.initial) (hS' : S' ∈ g.initial) {labels labels' : List Nat → Option (PMCFGRule N T W)} {w w' : List T} {u u' : W}
    (h : Visited cutTrails g.rules S [0] labels [w] u) (h' : Visited cutTrails g.rules S' [0] labels' [w'] u')
    (he : ∀ p, (labels p).map PMCFGRule.key = (labels' p).map PMCFGRule.key) : labels = labels' ∧ w = w' ∧ u = u' := by
  constructor
  · funext p
    have := he p
    cases h1 : labels p with
    | none =>
      rw [h1, Option.map_none] at this
      rw [Option.map_eq_none_iff.1 this.symm]
    | some r =>
      rw [h1, Option.map_some] at this
      obtain ⟨r', h2, h3⟩ := Option.map_eq_some_iff.1 this.symm
      rw [h2, List.inj_on_of_nodup_map hk (h.labels_mem.2 p r h1) (h'.labels_mem.2 p r' h2) h3.symm]
  · obtain ⟨run, s, r1, r2, m, r3, r4⟩ := C77_complete g ts hts hS h
    obtain ⟨run', s', r1', r2', m', r3', r4'⟩ := C77_complete g ts hts hS' h'
    have := visit_accepting_unique hts hk r2 r1 r2' r1' (fun m₁ m₂ e1 e2 p => by
      rw [r3, Option.some_inj] at e1
      rw [r3', Option.some_inj] at e2
      subst e1 e2
      rw [r4, r4', he])
    subst this
    obtain ⟨⟨h1, _⟩, _⟩ := r2
    obtain ⟨⟨h2, _⟩, _⟩ := r2'
    rw [exec_iff] at h1 h2
    simp only [List.append_nil, one_mul] at h1 h2
    exact ⟨h1.1.trans h2.1.symm, h1.2.2.trans h2.2.2.symm⟩

/-- **C78**: one parse for each choice of rules. If rules differ in more than their weights and recognition has ended, then the parses with non-empty runs are the ways to accept
the word by visiting components: each of these parses shows the rules and has the weight of one such way, and each way is shown by exactly one of these parses. -/
theorem C78_one_to_one [DecidableEq W] (g : PMCFG N T W) (a : TSA (TsaSymbol N T) T W) (ha : TSA.ofPmcfg g = some a) (hk : (g.rules.map PMCFGRule.key).Nodup)
    {G : Agenda H (Item (TreeStack Nat) (TsInstr Nat) Nat W)} {content : H → Multiset (Item (TreeStack Nat) (TsInstr Nat) Nat W)} (hG : G.Lossless content)
    {empty : H} (hempty : content empty = 0) {w : List T} {n : Nat} {out : List (Item (TreeStack (TsaSymbol N T)) (TsInstr (TsaSymbol N T)) T W)} {b : H}
    (hrun : a.recognise G empty w n = some (out, b)) (hend : G.pop b = none) :
    ∃ ls : List ((List Nat → Option (PMCFGRule N T W)) × W), (ls.map Prod.fst).Nodup ∧
      (∀ labels u, (labels, u) ∈ ls ↔ ∃ S ∈ g.initial, Visited cutTrails g.rules S [0] labels [w] u) ∧
      List.Forall₂ (fun i x => i.conf.weight = x.2 ∧ ∃ m, toAbstractSyntaxTree i.conf.storage.toTree.1 = some m ∧ ∀ p, GornTree.get m p = (x.1 p).map PMCFGRule.key)
        (out.filter fun i => !i.run.toVec.isEmpty) ls := by
  obtain ⟨hnd, hpw⟩ := C78_once g a ha hk hG.sound hempty hrun
  unfold TSA.ofPmcfg at ha
  obtain ⟨ts, hts, rfl⟩ := Option.map_eq_some_iff.1 ha
  have hne : ∀ i ∈ out.filter (fun i => !i.run.toVec.isEmpty), i.run.toVec ≠ [] := fun i hi => by
    rw [List.mem_filter] at hi
    simpa using hi.2
  obtain ⟨ls, hls⟩ : ∃ ls : List ((List Nat → Option (PMCFGRule N T W)) × W), List.Forall₂ (fun i x => (i.conf.weight = x.2 ∧
      ∃ m, toAbstractSyntaxTree i.conf.storage.toTree.1 = some m ∧ ∀ p, GornTree.get m p = (x.1 p).map PMCFGRule.key) ∧
      ∃ S ∈ g.initial, Visited cutTrails g.rules S [0] x.1 [w] x.2) (out.filter fun i => !i.run.toVec.isEmpty) ls := by
    refine exists_forall₂ _ fun i hi => ?_
    obtain ⟨_, h1⟩ := C16_tsa_sound ts _ hG.sound hempty hrun i (List.mem_filter.1 hi).1
    rcases C77_sound g ts hts h1 with h2 | ⟨S, hS, labels, h2, h3⟩
    · exact absurd h2.1 (hne i hi)
    · exact ⟨(labels, i.conf.weight), ⟨rfl, h3⟩, S, hS, h2⟩
  refine ⟨ls, ?_, fun labels u => ⟨fun h => ?_, ?_⟩, hls.imp fun _ _ h => h.1⟩
  · have h1 := hpw.filter (fun i => !i.run.toVec.isEmpty)
    clear hpw
    generalize (out.filter fun i => !i.run.toVec.isEmpty) = l at hls h1 hne
    induction hls with
    | nil => simp
    | @cons i x l ls hh ht ih =>
      rw [List.pairwise_cons] at h1
      rw [List.map_cons, List.nodup_cons]
      refine ⟨fun hm => ?_, ih h1.2 fun i hi => hne i (by simp [hi])⟩
      obtain ⟨y, hy, hxy⟩ := List.mem_map.1 hm
      obtain ⟨j, hj, hjd⟩ := forall₂_exists_left ht hy
      obtain ⟨m, m1, m2⟩ := hh.1.2
      obtain ⟨m', m1', m2'⟩ := hjd.1.2
      obtain ⟨p, hp⟩ := h1.1 j hj (hne i (by simp)) (hne j (by simp [hj])) m m' m1 m1'
      rw [m2, m2', hxy] at hp
      exact hp rfl
  · obtain ⟨i, _, hi⟩ := forall₂_exists_left hls h
    exact hi.2
  · rintro ⟨S, hS, hd⟩
    obtain ⟨run, s, hr, h, m, m1, m2⟩ := C77_complete g ts hts hS hd
    have hv : (Pushdown.ofSlice run).toVec = run := by unfold Pushdown.ofSlice; rw [Pushdown.toVec_foldl]; simp
    have hi : (⟨⟨[], s, u⟩, Pushdown.ofSlice run⟩ : Item (TreeStack (TsaSymbol N T)) (TsInstr (TsaSymbol N T)) T W) ∈ out := by
      rw [(C17_tsa_exact ts _ hG hempty hrun hend _).1]
      exact ⟨rfl, by rw [hv]; exact h⟩
    obtain ⟨x, hx, ⟨h1, m', m1', m2'⟩, S', hS', h2⟩ := forall₂_exists_right hls (List.mem_filter.2 ⟨hi, by rw [hv]; simpa using hr⟩)
    simp only at h1 m1'
    rw [m1, Option.some_inj] at m1'
    subst m1'
    obtain ⟨h3, _, _⟩ := C78_labels g ts hts hk hS hS' hd h2 (fun p => by rw [← m2, m2'])
    rw [h3, h1]
    exact hx

/-! ### The end of the recognition -/

/-- **C78**: recognition with the automaton of any grammar ends if and only if the tree stacks that it can reach have bounded depths (for a word whose symbols occur in
transitions). Nodes can be visited again and again, but this cannot go on forever. -/
theorem C78_depth (g : PMCFG N T W) (ts : List (TsaTransition N T W)) (hts : tsaTransitions g = some ts)
    {G : Agenda H (Item (TreeStack Nat) (TsInstr Nat) Nat W)} {content : H → Multiset (Item (TreeStack Nat) (TsInstr Nat) Nat W)} (hG : G.Lossless content)
    {empty : H} (hempty : content empty = 0) {w : List T} (hw : ∀ x ∈ w, ∃ t ∈ ts, x ∈ t.word) :
    (∃ n out a, (TSA.new ts (TreeStack.new .initial)).recognise G empty w n = some (out, a) ∧ G.pop a = none) ↔
      ∃ D, ∀ us c, IsRun TsInstr.apply ts (TreeStack.new .initial) w us c → c.storage.toTree.2.length ≤ D := by
  rw [C71_tsa ts _ (.new _) hG hempty hw, bounded_iff_depth hts w]
  have : ∀ s : TreeStack (TsaSymbol N T), s.toTree.2.length = s.parents.length := by
    intro s
    show (TreeStack.parentsToTree s.parents).2.length = s.parents.length
    induction s.parents with
    | nil => rfl
    | cons f ps ih => simp only [TreeStack.parentsToTree, List.length_append, List.length_cons, List.length_nil, ih]
  simp only [this]

/-- **C78**: recognition of each word ends, if no component is reached from itself by first visits at the left, and components that are visited first are not empty. -/
theorem C78_ends (g : PMCFG N T W) (a : TSA (TsaSymbol N T) T W) (ha : TSA.ofPmcfg g = some a) (hl : ¬ VisitRecursive cutTrails g.rules)
    (hne : ∀ r j, FirstVisited cutTrails g r j → (cutTrails r.composition)[j]? ≠ some [])
    {G : Agenda H (Item (TreeStack Nat) (TsInstr Nat) Nat W)} {content : H → Multiset (Item (TreeStack Nat) (TsInstr Nat) Nat W)} (hG : G.Sound content)
    {empty : H} (hempty : content empty = 0) (w : List T) : ∃ m₀, ∀ m ≥ m₀, ∃ out b, a.recognise G empty w m = some (out, b) ∧ G.pop b = none := by
  unfold TSA.ofPmcfg at ha
  obtain ⟨ts, hts, rfl⟩ := Option.map_eq_some_iff.1 ha
  obtain ⟨l, hl'⟩ := visit_runs_bounded hts hl hne w
  obtain ⟨L, h1, h2, h3, h4⟩ := TSA.new_represents (W := W) ts (TreeStack.new .initial)
  obtain ⟨m₀, hm⟩ := h4.ends hG hempty w (L := l) (fun us c hc => hl' us c ⟨hc.1, fun t ht => h2.mem_iff.1 (hc.2 t ht)⟩)
  refine ⟨m₀, fun m hm' => ?_⟩
  obtain ⟨⟨out, b⟩, hrun⟩ := (C51_tsa_no_panic ts _ (.new _) hG hempty w m).1
  exact ⟨out, b, hrun, hm m hm' out b hrun⟩

/-- **C78**: conversely, if there are paths of first visits at the left of each length, recognition never ends, whatever the agenda is, for words whose symbols occur in
transitions. -/
theorem C78_left_recursion (g : PMCFG N T W) (a : TSA (TsaSymbol N T) T W) (ha : TSA.ofPmcfg g = some a)
    (hl : ∀ n, ∃ rs x, LeftVisits cutTrails g rs x ∧ rs.length = n + 1)
    {G : Agenda H (Item (TreeStack Nat) (TsInstr Nat) Nat W)} {content : H → Multiset (Item (TreeStack Nat) (TsInstr Nat) Nat W)} (hG : G.Lossless content)
    {empty : H} (hempty : content empty = 0) {w : List T} (hw : ∀ ts, tsaTransitions g = some ts → ∀ x ∈ w, ∃ t ∈ ts, x ∈ t.word) {m : Nat}
    {out : List (Item (TreeStack (TsaSymbol N T)) (TsInstr (TsaSymbol N T)) T W)} {b : H} (hrun : a.recognise G empty w m = some (out, b)) : G.pop b ≠ none := by
  intro hend
  unfold TSA.ofPmcfg at ha
  obtain ⟨ts, hts, rfl⟩ := Option.map_eq_some_iff.1 ha
  obtain ⟨l, hl'⟩ := (C71_tsa ts _ (.new _) hG hempty (hw ts hts)).1 ⟨m, out, b, hrun, hend⟩
  obtain ⟨rs, r, h1, h2⟩ := hl l
  obtain ⟨us, c, h3, h4, _⟩ := leftVisits_run hts w h1
  have := hl' us c h3
  omega

/-! ### Fairness -/

omit [DecidableEq T] in
/-- The weights of the transitions are at most one if those of the rules are. -/
theorem visit_weights [Preorder W] {g : PMCFG N T W} {ts : List (TsaTransition N T W)} (hts : tsaTransitions g = some ts)
    (hle : ∀ r ∈ g.rules, ∀ u : W, u * r.weight ≤ u) : ∀ t ∈ ts, ∀ u : W, u * t.weight ≤ u := by
  intro t ht u
  cases (tsaTransitions_step hts t).1 ht with
  | init hr _ => exact hle _ hr u
  | fin => simp
  | push _ _ _ _ hr _ => exact hle _ hr u
  | up => simp
  | down => simp

/-- **C78**: if the weights of the rules fade, each way to accept the word with a weight of at least `v` is shown by a parse after finitely many steps, for any grammar. -/
theorem C78_fair [Preorder W] (g : PMCFG N T W) (a : TSA (TsaSymbol N T) T W) (ha : TSA.ofPmcfg g = some a) (hle : ∀ r ∈ g.rules, ∀ u : W, u * r.weight ≤ u)
    {v : W} (hf : Fades (g.rules.map PMCFGRule.weight) v)
    {G : Agenda H (Item (TreeStack Nat) (TsInstr Nat) Nat W)} {content : H → Multiset (Item (TreeStack Nat) (TsInstr Nat) Nat W)}
    (hG : HeapLaws G content (fun i => i.conf.weight)) {empty : H} (hempty : content empty = 0) (w : List T) :
    ∃ m₀, ∀ m ≥ m₀, ∀ out b, a.recognise G empty w m = some (out, b) → ∀ S ∈ g.initial, ∀ labels u, Visited cutTrails g.rules S [0] labels [w] u → v ≤ u →
      ∃ i ∈ out, i.conf.weight = u ∧ ∃ m', toAbstractSyntaxTree i.conf.storage.toTree.1 = some m' ∧ ∀ p, GornTree.get m' p = (labels p).map PMCFGRule.key := by
  unfold TSA.ofPmcfg at ha
  obtain ⟨ts, hts, rfl⟩ := Option.map_eq_some_iff.1 ha
  obtain ⟨K, hb⟩ := exists_visitBound g
  obtain ⟨L, hL⟩ := fades_prod.1 hf
  have hl : ∀ us c, IsRun TsInstr.apply ts (TreeStack.new .initial) w us c → v ≤ c.weight → us.length ≤ visitBound K L := by
    intro us c hc hv
    have hus : ∀ t ∈ us, IsStep g t := fun t ht => (tsaTransitions_step hts t).1 (hc.2 t ht)
    obtain ⟨h1, h3, h2⟩ := (exec_iff _ us _ _).1 hc.1
    obtain ⟨rs, hrs, hlen, hwt⟩ := visit_weight hus
    rw [h2, one_mul, hwt] at hv
    have h5 := hL (rs.map PMCFGRule.weight) (fun u hu => by
      obtain ⟨r, hr, rfl⟩ := List.mem_map.1 hu
      exact List.mem_map.2 ⟨r, hrs r hr, rfl⟩) hv
    rw [List.length_map, hlen] at h5
    exact visit_length_le_pushes hb hus h3 h5
  obtain ⟨m₀, hm⟩ := C70_tsa ts _ (visit_weights hts hle) hl hG hempty
  refine ⟨m₀, fun m hm' out b hrun S hS labels u hd hv => ?_⟩
  obtain ⟨run, s, hr, hacc, hmm⟩ := C77_complete g ts hts hS hd
  have hv' : (Pushdown.ofSlice run).toVec = run := by unfold Pushdown.ofSlice; rw [Pushdown.toVec_foldl]; simp
  exact ⟨_, hm m hm' out b hrun ⟨⟨[], s, u⟩, Pushdown.ofSlice run⟩ rfl (by rw [hv']; exact hacc) hv, rfl, hmm⟩

/-- **C78**: conversely, a parse is found within `m` steps only if all paths of first visits at the left that are better than the parse are shorter than `m`. -/
theorem C78_found [Preorder W] (g : PMCFG N T W) (a : TSA (TsaSymbol N T) T W) (ha : TSA.ofPmcfg g = some a) (hle : ∀ r ∈ g.rules, ∀ u : W, u * r.weight ≤ u)
    {G : Agenda H (Item (TreeStack Nat) (TsInstr Nat) Nat W)} {content : H → Multiset (Item (TreeStack Nat) (TsInstr Nat) Nat W)}
    (hG : HeapLaws G content (fun i => i.conf.weight)) {empty : H} (hempty : content empty = 0) (w : List T) {m : Nat}
    {out : List (Item (TreeStack (TsaSymbol N T)) (TsInstr (TsaSymbol N T)) T W)} {b : H} (hrun : a.recognise G empty w m = some (out, b))
    {i : Item (TreeStack (TsaSymbol N T)) (TsInstr (TsaSymbol N T)) T W} (hi : i ∈ out) {rs : List (PMCFGRule N T W)} {x : PMCFGRule N T W × Nat}
    (hp : LeftVisits cutTrails g rs x) (hlt : ¬ (rs.map PMCFGRule.weight).prod ≤ i.conf.weight) : rs.length < m := by
  unfold TSA.ofPmcfg at ha
  obtain ⟨ts, hts, rfl⟩ := Option.map_eq_some_iff.1 ha
  obtain ⟨us, c, h1, h2, h3, _⟩ := leftVisits_run hts w hp
  rw [← h2]
  exact C70_tsa_found ts _ (visit_weights hts hle) hG hempty w hrun hi h1 (by rw [h3]; exact hlt)

/-! ### Examples -/

namespace C78Example

/-- `S → [x₀,₁ x₀,₀] (A)`, `A → [0], [1 x₀,₁] (A)`, `A → [0], [1] ()`: the components are swapped, and the first component of `A` is deleted by `A`. -/
def g : PMCFG Nat Nat ℚ≥0 := ⟨[0], [⟨0, [1], [[.var 0 1, .var 0 0]], 1 / 2⟩, ⟨1, [1], [[.t 0], [.t 1, .var 0 1]], 1 / 2⟩, ⟨1, [], [[.t 0], [.t 1]], 1 / 2⟩]⟩

/-- `S → [x₀,₁] (A)`, `A → [0], [x₀,₁ 1] (A)`, `A → [0], [1] ()`: no first component begins with a first component, but second components are left recursive. -/
def l : PMCFG Nat Nat ℚ≥0 := ⟨[0], [⟨0, [1], [[.var 0 1]], 1 / 2⟩, ⟨1, [1], [[.t 0], [.var 0 1, .t 1]], 1 / 2⟩, ⟨1, [], [[.t 0], [.t 1]], 1 / 2⟩]⟩

theorem left (n : Nat) : ∃ rs, LeftVisits cutTrails l rs (⟨1, [1], [[.t 0], [.var 0 1, .t 1]], 1 / 2⟩, 1) ∧ rs.length = n + 2 := by
  induction n with
  | zero => exact ⟨_, .step (y := (⟨1, [1], [[.t 0], [.var 0 1, .t 1]], 1 / 2⟩, 1)) (.first (r := ⟨0, [1], [[.var 0 1]], 1 / 2⟩) (by simp [l]) (by simp [l]))
      ⟨by simp [l], by simp [l], 0, [], rfl, rfl, rfl⟩, rfl⟩
  | succ n ih =>
    obtain ⟨rs, h1, h2⟩ := ih
    exact ⟨_, .step (y := (⟨1, [1], [[.t 0], [.var 0 1, .t 1]], 1 / 2⟩, 1)) h1 ⟨by simp [l], by simp [l], 0, [.t 1], rfl, rfl, rfl⟩, by simp [h2]⟩

end C78Example

open C78Example in
/-- Recognition with the first grammar ends for each word, with one parse for each choice of rules. -/
example (w : List Nat) : ∃ a, TSA.ofPmcfg g = some a ∧ (g.rules.map PMCFGRule.key).Nodup ∧ ∃ m₀, ∀ m ≥ m₀, ∃ out b,
    a.recognise (listHeap fun i => i.conf.weight) [] w m = some (out, b) ∧ (listHeap fun i : Item _ _ _ ℚ≥0 => i.conf.weight).pop b = none := by
  have hsome : (TSA.ofPmcfg g).isSome = true := by rfl
  obtain ⟨a, ha⟩ := Option.isSome_iff_exists.1 hsome
  refine ⟨a, ha, by simp only [g, List.map_cons, List.map_nil, PMCFGRule.key]; decide, C78_ends g a ha ?_ ?_ (listHeap_laws _).lossless.sound rfl w⟩
  · rintro ⟨x, hx⟩
    have h1 : ∀ x y, LeftVisit cutTrails g.rules x y → y.1.head = 1 ∧ x.1.head = 0 := by
      rintro ⟨x, j⟩ ⟨y, j'⟩ ⟨hx, hy, i, c, hc, _, ht⟩
      simp only [g, List.mem_cons, List.not_mem_nil, or_false] at hx
      rcases hx with rfl | rfl | rfl
      · rcases i with _ | i <;> simp at ht
        exact ⟨ht.symm, rfl⟩
      · rw [show cutTrails _ = [[VarT.t 0], [.t 1, .var 0 1]] from rfl] at hc
        rcases j with _ | _ | j <;> simp at hc
      · rw [show cutTrails _ = [[VarT.t 0], [.t 1]] from rfl] at hc
        rcases j with _ | _ | j <;> simp at hc
    have h2 : ∀ x y, Relation.TransGen (LeftVisit cutTrails g.rules) x y → y.1.head = 1 ∧ x.1.head = 0 := by
      intro x y h
      induction h with
      | single h => exact h1 _ _ h
      | tail _ h ih => exact ⟨(h1 _ _ h).1, ih.2⟩
    have := h2 x x hx
    omega
  · rintro r j ⟨hr, _⟩ hj
    simp only [g, List.mem_cons, List.not_mem_nil, or_false] at hr
    rcases hr with rfl | rfl | rfl
    · rw [show cutTrails _ = [[VarT.var 0 1, .var 0 0]] from rfl] at hj
      rcases j with _ | j <;> simp at hj
    · rw [show cutTrails _ = [[VarT.t 0], [.t 1, .var 0 1]] from rfl] at hj
      rcases j with _ | _ | j <;> simp at hj
    · rw [show cutTrails _ = [[VarT.t 0], [.t 1]] from rfl] at hj
      rcases j with _ | _ | j <;> simp at hj

open C78Example in
/-- Recognition with the second grammar never ends, though it is not left recursive in the sense of C71. -/
example (w : List Nat) (hw : ∀ x ∈ w, x = 1) : ¬ LeftRecursive l.rules ∧ ∃ a, TSA.ofPmcfg l = some a ∧ ∀ m out b, a.recognise (listHeap fun i => i.conf.weight) [] w m = some (out, b) →
    (listHeap fun i : Item _ _ _ ℚ≥0 => i.conf.weight).pop b ≠ none := by
  have hsome : (TSA.ofPmcfg l).isSome = true := by rfl
  obtain ⟨a, ha⟩ := Option.isSome_iff_exists.1 hsome
  refine ⟨?_, a, ha, fun m out b hrun => C78_left_recursion l a ha (fun n => ?_) (listHeap_laws _).lossless rfl ?_ hrun⟩
  · refine not_leftRecursive (fun _ => 0) fun r hr i c cs B h1 h2 => ?_
    simp only [l, List.mem_cons, List.not_mem_nil, or_false] at hr
    rcases hr with rfl | rfl | rfl <;> simp at h1
  · cases n with
    | zero => exact ⟨_, _, .first (r := ⟨0, [1], [[.var 0 1]], 1 / 2⟩) (by simp [l]) (by simp [l]), rfl⟩
    | succ n =>
      obtain ⟨rs, h1, h2⟩ := left n
      exact ⟨rs, _, h1, h2⟩
  · intro ts hts x hx
    rw [hw x hx]
    exact ⟨_, (tsaTransitions_step hts _).2 (.down (r := ⟨0, [1], [[.var 0 1]], 1 / 2⟩) (j := 0) (k := 0) (ri := ⟨1, [], [[.t 0], [.t 1]], 1 / 2⟩) (j₁ := 1)
      (c := [.var 0 1]) (c₁ := [.t 1]) (b := []) (i := 0) (by simp [l]) rfl rfl (by simp [l]) rfl rfl), by simp [trail]⟩

open C78Example in
/-- The weights of both grammars fade below each positive weight, so that each choice of rules is found. -/
example (v : ℚ≥0) (hv : 0 < v) : Fades (g.rules.map PMCFGRule.weight) v ∧ Fades (l.rules.map PMCFGRule.weight) v ∧ ∀ r ∈ g.rules, ∀ u : ℚ≥0, u * r.weight ≤ u := by
  have h : (1 / 2 : ℚ≥0) < 1 := by norm_num
  refine ⟨C70_probabilities (fun u hu => ?_) hv, C70_probabilities (fun u hu => ?_) hv, fun r hr u => mul_le_of_le_one_right (by simp) ?_⟩
  · simp only [g, List.map_cons, List.map_nil, List.mem_cons, List.not_mem_nil, or_false, or_self] at hu
    rw [hu]; exact h
  · simp only [l, List.map_cons, List.map_nil, List.mem_cons, List.not_mem_nil, or_false, or_self] at hu
    rw [hu]; exact h
  · simp only [g, List.mem_cons, List.not_mem_nil, or_false] at hr
    rcases hr with rfl | rfl | rfl <;> exact h.le

end Rustomata.Props
