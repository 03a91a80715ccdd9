import Verif.Proofs.VisitsSound

/-!
# Lemmas: visits are runs of the automaton of any PMCFG
-/

namespace Rustomata
open Spec
variable {N T W : Type _}

theorem visitsOf_split {cs : Composition T} {j k : Nat} {c : List (VarT T)} {b : List T} {i j₁ : Nat} (hc : cs[j]? = some c)
    (hs : (segs c [])[k]? = some (b, i, j₁)) : ∃ l, visitsOf cs i = visBefore cs j k i ++ j₁ :: l := by
  obtain ⟨l, hl⟩ := before_split hc hs
  refine ⟨(l.filter (·.1 = i)).map (·.2), ?_⟩
  unfold visitsOf visBefore
  rw [hl, List.filter_append, List.map_append, List.filter_cons_of_pos (by simp), List.map_cons]

section
variable [CommMonoid W] [DecidableEq N] [DecidableEq T]

/-- There is a run between two tree stacks that reads a word with a weight. -/
def Steps (g : PMCFG N T W) (s : TreeStack (TsaSymbol N T)) (w : List T) (u : W) (s' : TreeStack (TsaSymbol N T)) : Prop :=
  ∃ ts : List (TsaTransition N T W), (∀ t ∈ ts, IsStep g t) ∧ s' ∈ storages TsInstr.apply (ts.map Transition.instruction) s ∧
    wordOf ts = w ∧ weightOf ts = u

theorem Steps.refl (g : PMCFG N T W) (s : TreeStack (TsaSymbol N T)) : Steps g s [] 1 s := ⟨[], by simp, by simp [storages], rfl, rfl⟩

theorem Steps.trans {g : PMCFG N T W} {s s' s'' : TreeStack (TsaSymbol N T)} {w w' : List T} {u u' : W} (h : Steps g s w u s')
    (h' : Steps g s' w' u' s'') : Steps g s (w ++ w') (u * u') s'' := by
  obtain ⟨ts, h1, h2, h3, h4⟩ := h
  obtain ⟨ts', h1', h2', h3', h4'⟩ := h'
  refine ⟨ts ++ ts', ?_, ?_, ?_, ?_⟩
  · intro t ht
    rcases List.mem_append.1 ht with h | h
    · exact h1 t h
    · exact h1' t h
  · rw [List.map_append, storages_append, List.mem_flatMap]
    exact ⟨s', h2, h2'⟩
  · rw [← h3, ← h3']; simp [wordOf]
  · rw [← h4, ← h4']; simp [weightOf_eq]

theorem Steps.one {g : PMCFG N T W} {s s' : TreeStack (TsaSymbol N T)} {t : TsaTransition N T W} (h : IsStep g t) (hs : s' ∈ t.instruction.apply s) :
    Steps g s t.word t.weight s' :=
  ⟨[t], by simpa using h, by simpa [storages] using hs, by simp [wordOf], by simp [weightOf_eq]⟩

/-- The visits of the components `s` are runs; `P n` describes the children and the weight after `n` visits. -/
def VisitRuns (g : PMCFG N T W) (r : PMCFGRule N T W) (P : Nat → Forest (TsaSymbol N T) → W → Prop) (s : List Nat) (labels : List Nat → Option (PMCFGRule N T W))
    (ws : List (List T)) (u : W) : Prop :=
  r ∈ g.rules ∧ P 0 .nil r.weight ∧
  (∀ n j, s[n]? = some j → ∃ c, (cutTrails r.composition)[j]? = some c ∧ ∀ F q, P n F q → ∃ F' q' p, ws[n]? = some (p ++ trail c []) ∧ P (n + 1) F' (q * q') ∧
    ∀ ps, Steps g ⟨ps, posOf r j 0, F⟩ p q' ⟨ps, posOf r j (segs c []).length, F'⟩) ∧
  ∀ m k F q, P s.length F q → q = u ∧ ∀ p, (nodeAt (posOf r m k) F p).map PosState.rule? = (labels p).map fun r => some r.key

/-- The children of a node after the variables before a position have been visited. -/
def KidsRuns (vc : Composition T) (rs : Nat → PMCFGRule N T W) (Ps : Nat → Nat → Forest (TsaSymbol N T) → W → Prop) (a k : Nat)
    (F : Forest (TsaSymbol N T)) (us : Nat → W) : Prop :=
  ∀ i, (cnt vc a k i = 0 → F.slot i = none ∧ us i = 1) ∧
    (cnt vc a k i ≠ 0 → ∃ m c Fi, (visBefore vc a k i).getLast? = some m ∧ (cutTrails (rs i).composition)[m]? = some c ∧
      F.slot i = some (posOf (rs i) m (segs c []).length, Fi) ∧ Ps i (cnt vc a k i) Fi (us i))

theorem Spec.Visited.runs {g : PMCFG N T W} {A : N} {s : List Nat} {labels : List Nat → Option (PMCFGRule N T W)} {ws : List (List T)} {u : W}
    (h : Visited cutTrails g.rules A s labels ws u) : ∃ r P, r.head = A ∧ VisitRuns g r P s labels ws u := by
  induction h with
  | @node r s vc A labels args us ws hr hhist horder htail hkids hws ih =>
    have hex : ∀ i, ∃ y : PMCFGRule N T W × (Nat → Forest (TsaSymbol N T) → W → Prop), visitsOf vc i ≠ [] →
        y.1.head = A i ∧ VisitRuns g y.1 y.2 (visitsOf vc i) (labels i) (args i) (us i) := by
      intro i
      by_cases hv : visitsOf vc i = []
      · exact ⟨(r, fun _ _ _ => True), fun h => absurd hv h⟩
      · obtain ⟨ri, Pi, h1, h2⟩ := ih i hv
        exact ⟨(ri, Pi), fun _ => ⟨h1, h2⟩⟩
    obtain ⟨rs, Ps, hy⟩ : ∃ (rs : Nat → PMCFGRule N T W) (Ps : Nat → Nat → Forest (TsaSymbol N T) → W → Prop), ∀ i, visitsOf vc i ≠ [] →
        (rs i).head = A i ∧ VisitRuns g (rs i) (Ps i) (visitsOf vc i) (labels i) (args i) (us i) := by
      choose y hy using hex
      exact ⟨fun i => (y i).1, fun i => (y i).2, hy⟩
    have hlen := hhist.length_eq
    refine ⟨r, fun n F q => ∃ us', KidsRuns vc rs Ps n 0 F us' ∧ q = r.weight * ((List.range r.tail.length).map us').prod, rfl, hr, ?_, ?_, ?_⟩
    · refine ⟨fun _ => 1, fun i => ⟨fun _ => ⟨rfl, rfl⟩, fun h => absurd (by simp [cnt, before_zero]) h⟩, ?_⟩
      rw [prod_one, mul_one]
    · intro n j hj
      obtain ⟨hl, hf⟩ := List.forall₂_iff_get.1 hhist
      obtain ⟨hn, hj'⟩ := List.getElem?_eq_some_iff.1 hj
      have hvc : vc[n]? = some (vc[n]'(by omega)) := List.getElem?_eq_getElem _
      have hc := hf n hn (by omega)
      simp only [List.get_eq_getElem] at hc
      rw [hj'] at hc
      generalize (vc[n]'(by omega)) = c at hvc hc
      refine ⟨c, hc, ?_⟩
      rintro F q ⟨us', hk, rfl⟩
      obtain ⟨c', e1, e2, e3, e4⟩ := visitNumbers_seg hvc
      -- the word of the component
      have hwn : ∃ p, segWord args (segs c' []) = some p ∧ ws[n]? = some (p ++ trail c []) := by
        have h1 := mapM_getElem? hws n
        rw [e1, Option.bind_some] at h1
        have h2 := substAll_segs args c' []
        simp only [List.nil_append, Option.map_id_fun', id_eq] at h2
        rw [h2] at h1
        have h3 : n < ws.length := by
          rw [compose_length hws, visitNumbers_length]; omega
        rw [List.getElem?_eq_getElem h3] at h1
        obtain ⟨p, h4, h5⟩ := Option.map_eq_some_iff.1 h1.symm
        exact ⟨p, h4, by rw [List.getElem?_eq_getElem h3, ← h5, e3]⟩
      obtain ⟨p, hp, hwp⟩ := hwn
      have inner : ∀ k, k ≤ (segs c []).length → ∃ F' us'' p q', segWord args ((segs c' []).take k) = some p ∧ KidsRuns vc rs Ps n k F' us'' ∧
          (∀ ps, Steps g ⟨ps, posOf r j 0, F⟩ p q' ⟨ps, posOf r j k, F'⟩) ∧
          ((List.range r.tail.length).map us').prod * q' = ((List.range r.tail.length).map us'').prod := by
        intro k
        induction k with
        | zero => intro _; exact ⟨F, us', [], 1, by simp [segWord], hk, fun ps => Steps.refl _ _, by simp⟩
        | succ k ihk =>
          intro hkl
          obtain ⟨F', us'', p', q', i1, i2, i3, i4⟩ := ihk (by omega)
          obtain ⟨⟨b, i, j₁⟩, hs⟩ : ∃ x, (segs c [])[k]? = some x := ⟨_, List.getElem?_eq_getElem (by omega)⟩
          obtain ⟨l, hsplit⟩ := visitsOf_split hvc hs
          have hvne : visitsOf vc i ≠ [] := by rw [hsplit]; simp
          have hti := htail i hvne
          have hi : i < r.tail.length := (List.getElem?_eq_some_iff.1 hti).1
          obtain ⟨hhead, hri, hP0, hstep, _⟩ := hy i hvne
          have hseg₂ := e4 _ _ _ _ hs
          have hget : (visitsOf vc i)[cnt vc n k i]? = some j₁ := by
            rw [hsplit, List.getElem?_append_right (by rw [visBefore_length]), visBefore_length, Nat.sub_self]; rfl
          obtain ⟨c₁, hc₁, hstep'⟩ := hstep _ _ hget
          have hlast : lastBefore (cutTrails r.composition) j k i = (visBefore vc n k i).getLast? := by
            rw [horder n j c k i j₁ hj hvc (by rw [← segs_vars c [], List.getElem?_map, hs]; rfl), visBefore_last]
          have hti' : r.tail[i]? = some (rs i).head := by rw [hti]; exact congrArg some hhead.symm
          -- the run of the child leads to the next position
          have finish : ∀ (F₁ Fi : Forest (TsaSymbol N T)) (qi q₁ : W),
              i < F₁.length → (∀ a, a ≠ i → F₁.slot a = F'.slot a) → Ps i (cnt vc n k i) Fi qi →
              (∀ ps, Steps g ⟨ps, posOf r j k, F'⟩ b q₁ ⟨⟨i, posOf r j k, F₁⟩ :: ps, posOf (rs i) j₁ 0, Fi⟩) →
              us'' i * q₁ = qi →
              ∃ F' us'' p q', segWord args ((segs c' []).take (k + 1)) = some p ∧ KidsRuns vc rs Ps n (k + 1) F' us'' ∧
                (∀ ps, Steps g ⟨ps, posOf r j 0, F⟩ p q' ⟨ps, posOf r j (k + 1), F'⟩) ∧
                ((List.range r.tail.length).map us').prod * q' = ((List.range r.tail.length).map us'').prod := by
            intro F₁ Fi qi q₁ f1 f2 f3 f4 f5
            obtain ⟨Fi', qi', pi, w1, w2, w3⟩ := hstep' Fi qi f3
            have hdown : ∀ ps, Steps g ⟨⟨i, posOf r j k, F₁⟩ :: ps, posOf (rs i) j₁ (segs c₁ []).length, Fi'⟩ (trail c₁ []) 1
                ⟨ps, posOf r j (k + 1), F₁.write i (some (posOf (rs i) j₁ (segs c₁ []).length, Fi'))⟩ := by
              intro ps
              exact Steps.one (IsStep.down (g := g) hr hc hs hri hti' hc₁)
                (by simp [TsInstr.apply, TreeStack.currentSymbol, TreeStack.down, TreeStack.set])
            refine ⟨F₁.write i (some (posOf (rs i) j₁ (segs c₁ []).length, Fi')), Function.update us'' i (qi * qi'), p' ++ (b ++ (pi ++ trail c₁ [])),
              q' * q₁ * qi' * 1, ?_, ?_, ?_, ?_⟩
            · rw [List.take_add_one, hseg₂]
              refine segWord_append i1 ?_
              simp [segWord, w1]
            · intro a
              rw [cnt_succ hvc hs a, Forest.slot_write, visBefore_succ hvc hs a]
              by_cases ha : a = i
              · subst ha
                rw [if_pos rfl, if_pos rfl, Function.update_self]
                refine ⟨fun h => by omega, fun _ => ⟨j₁, c₁, Fi', by simp, hc₁, by simp [f1], w2⟩⟩
              · rw [if_neg ha, if_neg ha, Function.update_of_ne ha, f2 a ha, List.append_nil]
                simpa [ha] using i2 a
            · intro ps
              have := (((i3 ps).trans (f4 ps)).trans (w3 _)).trans (hdown ps)
              have e : p' ++ (b ++ (pi ++ trail c₁ [])) = p' ++ b ++ pi ++ trail c₁ [] := by simp
              rw [e]
              exact this
            · rw [prod_split (Function.update us'' i _) hi, Function.update_self, Function.update_idem]
              rw [mul_one, ← f5]
              calc ((List.range r.tail.length).map us').prod * (q' * q₁ * qi')
                  = ((List.range r.tail.length).map us'').prod * q₁ * qi' := by rw [← i4]; simp only [mul_assoc]
                _ = ((List.range r.tail.length).map (Function.update us'' i 1)).prod * us'' i * q₁ * qi' := by rw [← prod_split us'' hi]
                _ = _ := by simp only [mul_assoc]
          by_cases h0 : cnt vc n k i = 0
          · obtain ⟨e1, e2⟩ := (i2 i).1 h0
            refine finish (if i ≥ F'.length then F'.pad i else F') .nil (rs i).weight (rs i).weight
              (TreeStack.push_children_length ⟨[], posOf r j k, F'⟩ i) (fun a _ => TreeStack.push_children_slot ⟨[], posOf r j k, F'⟩ i a)
              (by rw [h0]; exact hP0) (fun ps => ?_) (by rw [e2, one_mul])
            have hnil : visBefore vc n k i = [] := List.length_eq_zero_iff.1 (by rw [visBefore_length]; exact h0)
            refine Steps.one (IsStep.push (g := g) hr hc hs (by rw [hlast, hnil]; rfl) hri hti') ?_
            simp only [TsInstr.apply, TreeStack.currentSymbol, if_true]
            have := (TreeStack.push_ok (a := posOf (rs i) j₁ 0)).2 ⟨show (⟨ps, posOf r j k, F'⟩ : TreeStack (TsaSymbol N T)).children.slot i = none from e1, rfl⟩
            rw [this]
            simp
          · obtain ⟨m, c₀, Fi, m1, m2, m3, m4⟩ := (i2 i).2 h0
            refine finish (F'.write i none) Fi (us'' i) 1 (by rw [Forest.length_write]; exact Forest.slot_lt m3)
              (fun a ha => by rw [Forest.slot_write]; simp [ha]) m4 (fun ps => ?_) (by rw [mul_one])
            refine Steps.one (IsStep.up (g := g) hr hc hs (by rw [hlast, m1]) hri hti' m2) ?_
            simp only [TsInstr.apply, TreeStack.currentSymbol, if_true]
            have := TreeStack.up_ok.2 ⟨_, _, show (⟨ps, posOf r j k, F'⟩ : TreeStack (TsaSymbol N T)).children.slot i = _ from m3, rfl⟩
            rw [this]
            simp [TreeStack.set]
      obtain ⟨F', us'', p', q', i1, i2, i3, i4⟩ := inner _ (Nat.le_refl _)
      rw [← e2, List.take_of_length_le (Nat.le_refl _), hp, Option.some_inj] at i1
      subst i1
      refine ⟨F', q', p, hwp, ⟨us'', ?_, by rw [← i4, mul_assoc]⟩, i3⟩
      intro i
      have := i2 i
      rw [visBefore_next hvc]
      unfold cnt at this ⊢
      rw [before_next hvc]
      exact this
    · rintro m k F q ⟨us', hk, rfl⟩
      rw [hlen] at hk
      have hcnt : ∀ i, cnt vc vc.length 0 i = (visitsOf vc i).length := by
        intro i; rw [← visBefore_length, visBefore_all]
      have hus : us' = fun i => if visitsOf vc i = [] then 1 else us i := by
        funext i
        split
        · rename_i h
          exact ((hk i).1 (by rw [hcnt, h]; rfl)).2
        · rename_i h
          obtain ⟨m, c, Fi, _, _, _, h4⟩ := (hk i).2 (by rw [hcnt]; simpa using h)
          rw [hcnt] at h4
          exact ((hy i h).2.2.2.2 m 0 Fi _ h4).1
      refine ⟨by rw [hus], fun p => ?_⟩
      cases p with
      | nil => simp [nodeAt, visitLabels, PosState.rule?]
      | cons i p =>
        rw [nodeAt, visitLabels]
        by_cases h : visitsOf vc i = []
        · rw [((hk i).1 (by rw [hcnt, h]; rfl)).1, if_pos h]; rfl
        · obtain ⟨m, c, Fi, _, _, h3, h4⟩ := (hk i).2 (by rw [hcnt]; simpa using h)
          rw [hcnt] at h4
          rw [h3, if_neg h]
          exact ((hy i h).2.2.2.2 m _ Fi _ h4).2 p

/-- The tree stacks in which a tree with these labels is stored. -/
def StoresLabels (s : TreeStack (TsaSymbol N T)) (labels : List Nat → Option (PMCFGRule N T W)) : Prop :=
  s.parents = [] ∧ s.value = .designated ∧ ∀ p, (nodeAt s.value s.children (0 :: p)).map PosState.rule? = (labels p).map fun r => some r.key

omit [CommMonoid W] [DecidableEq N] [DecidableEq T] in
/-- The abstract syntax tree of a tree stack in which a tree is stored. -/
theorem StoresLabels.ast {s : TreeStack (TsaSymbol N T)} {labels : List Nat → Option (PMCFGRule N T W)} (h : StoresLabels s labels) :
    ∃ m, toAbstractSyntaxTree s.toTree.1 = some m ∧ ∀ p, GornTree.get m p = (labels p).map PMCFGRule.key := by
  obtain ⟨h1, h2, h3⟩ := h
  have hget : ∀ p, GornTree.get s.toTree.1 p = nodeAt s.value s.children p := by
    intro p
    have := TreeStack.view_below (t := s) (by intro f hf; rw [h1] at hf; simp at hf) p
    rw [← this]
    have hp : (view s).pointer = [] := by
      show s.toTree.2 = []
      simp [TreeStack.toTree, h1, TreeStack.parentsToTree]
    rw [hp]; rfl
  have hk : (s.toTree.1.map Prod.fst).Nodup := (TreeStack.sorted_toTree s).imp fun h => by rintro rfl; exact lt_irrefl _ h
  obtain ⟨m, m1, m2⟩ := toAst_fold s.toTree.1 hk (by
    rintro ⟨a, v⟩ hp q rfl
    have hv := gorn_get_mem hk hp
    rw [hget] at hv
    have := h3 q
    rw [hv, Option.map_some] at this
    obtain ⟨r, _, hr⟩ := Option.map_eq_some_iff.1 this.symm
    exact ⟨r.key, hr.symm⟩) []
  refine ⟨m, m1, fun p => ?_⟩
  rw [m2, hget]
  have := h3 p
  cases hn : nodeAt s.value s.children (0 :: p) with
  | none =>
    rw [hn, Option.map_none] at this
    rw [Option.map_eq_none_iff.1 this.symm]; rfl
  | some v =>
    rw [hn, Option.map_some] at this
    obtain ⟨r, hr, hr'⟩ := Option.map_eq_some_iff.1 this.symm
    rw [hr]
    simp [← hr', GornTree.get]

theorem visit_complete {g : PMCFG N T W} {S : N} (hS : S ∈ g.initial) {labels : List Nat → Option (PMCFGRule N T W)} {w : List T} {u : W}
    (h : Visited cutTrails g.rules S [0] labels [w] u) : ∃ s, Steps g (TreeStack.new .initial) w u s ∧ StoresLabels s labels := by
  obtain ⟨r, P, rfl, hr, hP0, hstep, hend⟩ := h.runs
  obtain ⟨c, hc, hst⟩ := hstep 0 0 rfl
  obtain ⟨F, q, p, h1, h2, h3⟩ := hst _ _ hP0
  simp only [List.getElem?_cons_zero, Option.some.injEq] at h1
  have e1 := Steps.one (IsStep.init (g := g) hr hS) (s := TreeStack.new .initial)
    (s' := ⟨[⟨0, .initial, .vac .nil⟩], posOf r 0 0, .nil⟩)
    (by simp [TsInstr.apply, TreeStack.currentSymbol, TreeStack.new, TreeStack.push, Forest.slot, Forest.length, Forest.pad])
  have e2 := Steps.one (IsStep.fin (g := g) hr hS hc)
    (s := ⟨[⟨0, .initial, .vac .nil⟩], posOf r 0 (segs c []).length, F⟩)
    (s' := ⟨[], .designated, .occ (posOf r 0 (segs c []).length) F .nil⟩)
    (by simp [TsInstr.apply, TreeStack.currentSymbol, TreeStack.down, TreeStack.set, Forest.write])
  obtain ⟨k1, k2⟩ := hend 0 (segs c []).length F _ h2
  refine ⟨⟨[], .designated, .occ (posOf r 0 (segs c []).length) F .nil⟩, ?_, rfl, rfl, ?_⟩
  · have := (e1.trans (h3 _)).trans e2
    simp only [List.nil_append, mul_one] at this
    rw [k1, ← h1] at this
    exact this
  · intro p
    rw [nodeAt]
    exact k2 p

theorem Steps.inv {g : PMCFG N T W} (hwf : WellFormed g.rules) (hne : ∀ r ∈ g.rules, r.head ∈ g.initial → r.composition ≠ [])
    {ts : List (TsaTransition N T W)} (hts : ∀ t ∈ ts, IsStep g t) : ∀ {s s' : TreeStack (TsaSymbol N T)} {w : List T} {u : W},
    TsaVisit g s w u → s' ∈ storages TsInstr.apply (ts.map Transition.instruction) s → TsaVisit g s' (w ++ wordOf ts) (u * weightOf ts) := by
  induction ts with
  | nil =>
    intro s s' w u hi hs
    simp only [List.map_nil, storages, List.mem_singleton] at hs
    subst hs
    simpa [wordOf, weightOf_eq] using hi
  | cons t ts ih =>
    intro s s' w u hi hs
    simp only [List.map_cons, storages, List.mem_flatMap] at hs
    obtain ⟨s₁, h1, h2⟩ := hs
    have := ih (fun t ht => hts t (by simp [ht])) (tsaVisit_step hwf hne (hts t (by simp)) hi h1) h2
    simpa [wordOf, weightOf_eq, mul_assoc] using this

theorem visit_sound {g : PMCFG N T W} (hwf : WellFormed g.rules) (hne : ∀ r ∈ g.rules, r.head ∈ g.initial → r.composition ≠ [])
    {s : TreeStack (TsaSymbol N T)} {w : List T} {u : W} (h : Steps g (TreeStack.new .initial) w u s) (hb : s.parents = []) :
    (s = TreeStack.new .initial ∧ w = [] ∧ u = 1) ∨
      ∃ S ∈ g.initial, ∃ labels, Visited cutTrails g.rules S [0] labels [w] u ∧ StoresLabels s labels := by
  obtain ⟨ts, h1, h2, rfl, rfl⟩ := h
  have := Steps.inv hwf hne h1 TsaVisit.start h2
  rw [List.nil_append, one_mul] at this
  generalize wordOf ts = w at this
  generalize weightOf ts = u at this
  cases this with
  | start => exact Or.inl ⟨rfl, rfl, rfl⟩
  | mid hr hat hk hf =>
    simp only at hb
    subst hb
    generalize _ ++ [_] = sv at hf
    cases hf
  | @final r F x _ _ hr hh hsl hsub =>
    obtain ⟨labels, d1, d2⟩ := hsub.visited
    refine Or.inr ⟨r.head, hh, labels, d1, rfl, rfl, ?_⟩
    intro p
    rw [nodeAt, hsl]
    exact d2 p

theorem isStep_not_initial {g : PMCFG N T W} {t : TsaTransition N T W} (h : IsStep g t) (s : TreeStack (TsaSymbol N T)) :
    TreeStack.new .initial ∉ t.instruction.apply s := by
  refine apply_not_initial (fun c o he => ?_) s
  cases h <;> simp at he

end
end Rustomata
