import Verif.Proofs.VisitsLength
import Verif.Proofs.VisitsDerives

/-!
# Left recursion in arbitrary PMCFGs
-/

set_option linter.unusedSectionVars false

namespace Rustomata
open Spec
variable {N T W : Type _} [DecidableEq N] [DecidableEq T] [CommMonoid W]

omit [CommMonoid W] in
/-- The weight of a run is the product of the weights of rules, one for each `push` transition. -/
theorem visit_weight [CommMonoid W] {g : PMCFG N T W} {ts : List (TsaTransition N T W)} (hts : ∀ t ∈ ts, IsStep g t) :
    ∃ rs : List (PMCFGRule N T W), (∀ r ∈ rs, r ∈ g.rules) ∧ rs.length = (ts.map fun t => pushes t.instruction).sum ∧ weightOf ts = (rs.map PMCFGRule.weight).prod := by
  induction ts with
  | nil => exact ⟨[], by simp, rfl, rfl⟩
  | cons t ts ih =>
    obtain ⟨rs, h1, h2, h3⟩ := ih fun t ht => hts t (by simp [ht])
    simp only [weightOf_eq, List.map_cons, List.prod_cons, List.sum_cons] at h3 ⊢
    rw [h3]
    have hcons : ∀ r ∈ g.rules, t.weight = r.weight → pushes t.instruction = 1 → ∃ rs' : List (PMCFGRule N T W), (∀ r ∈ rs', r ∈ g.rules) ∧
        rs'.length = pushes t.instruction + (ts.map fun t => pushes t.instruction).sum ∧ t.weight * (rs.map PMCFGRule.weight).prod = (rs'.map PMCFGRule.weight).prod := by
      intro r hr hw hp
      refine ⟨r :: rs, ?_, by rw [hp, List.length_cons, h2]; omega, by rw [hw, List.map_cons, List.prod_cons]⟩
      rintro r' hr'
      rcases List.mem_cons.1 hr' with rfl | hr'
      · exact hr
      · exact h1 r' hr'
    cases hts t (by simp) with
    | init hr => exact hcons _ hr rfl rfl
    | push _ _ _ _ hr => exact hcons _ hr rfl rfl
    | up => exact ⟨rs, h1, by rw [h2]; exact (Nat.zero_add _).symm, by rw [one_mul]⟩
    | down => exact ⟨rs, h1, by rw [h2]; exact (Nat.zero_add _).symm, by rw [one_mul]⟩
    | fin => exact ⟨rs, h1, by rw [h2]; exact (Nat.zero_add _).symm, by rw [one_mul]⟩

/-- The automaton has a run for each path of first visits at the left. -/
theorem leftVisits_run {g : PMCFG N T W} {ts : List (TsaTransition N T W)} (hts : tsaTransitions g = some ts)
    (w : List T) {rs : List (PMCFGRule N T W)} {x : PMCFGRule N T W × Nat} (h : LeftVisits cutTrails g rs x) :
    ∃ us c, IsRun TsInstr.apply ts (TreeStack.new .initial) w us c ∧ us.length = rs.length ∧ c.weight = (rs.map PMCFGRule.weight).prod ∧ c.word = w ∧
      c.storage.value = .position x.1.key x.2 0 ∧ c.storage.children = .nil := by
  have m1 := tsaTransitions_step hts
  -- each position is free at a new node
  have hpush : ∀ (s : TreeStack (TsaSymbol N T)) (n : Nat) (a b : TsaSymbol N T), s.children = .nil → s.value = a →
      ∃ s', s' ∈ (TsInstr.push n a b).apply s ∧ s'.value = b ∧ s'.children = .nil := by
    intro s n a b hc hv
    have : ∃ s', s.push n b = .ok s' ∧ s'.value = b ∧ s'.children = .nil := by
      unfold TreeStack.push
      rw [hc]
      have hslot : ∀ n, (Forest.pad (.nil : Forest (TsaSymbol N T)) n).slot n = none := by
        intro n
        rw [Forest.slot_pad]; rfl
      simp only [Forest.length, ge_iff_le, Nat.zero_le, if_true, hslot]
      exact ⟨_, rfl, rfl, rfl⟩
    obtain ⟨s', h1, h2, h3⟩ := this
    refine ⟨s', ?_, h2, h3⟩
    simp only [TsInstr.apply, TreeStack.currentSymbol, hv, if_true, h1, List.mem_singleton]
  induction h with
  | @first r hr hi =>
    obtain ⟨s', h1, h2, h3⟩ := hpush (TreeStack.new .initial) 0 .initial (.position r.key 0 0) rfl rfl
    refine ⟨[⟨[], r.weight, .push 0 .initial (.position r.key 0 0)⟩], ⟨w, s', 1 * r.weight⟩, ⟨.cons ⟨rfl, h1, rfl⟩ (.nil _), ?_⟩, rfl, by simp, rfl, h2, h3⟩
    intro t ht
    rw [List.mem_singleton.1 ht]
    exact (m1 _).2 (.init hr hi)
  | @step rs x y _ hc ih =>
    obtain ⟨us, c, ⟨h1, h2⟩, h3, h4, h5, h6, h7⟩ := ih
    obtain ⟨hr, hr', i, cc, hcomp, hlast, htail⟩ := hc
    obtain ⟨s', g1, g2, g3⟩ := hpush c.storage i (.position x.1.key x.2 0) (.position y.1.key y.2 0) h7 h6
    refine ⟨us ++ [⟨[], y.1.weight, .push i (.position x.1.key x.2 0) (.position y.1.key y.2 0)⟩], ⟨w, s', c.weight * y.1.weight⟩, ⟨?_, ?_⟩, by simp [h3], by simp [h4], rfl, g2, g3⟩
    · exact exec_append.2 ⟨c, h1, .cons (c' := ⟨w, s', c.weight * y.1.weight⟩) ⟨by rw [h5]; rfl, g1, rfl⟩ (.nil _)⟩
    · intro t ht
      rcases List.mem_append.1 ht with ht | ht
      · exact h2 t ht
      · rw [List.mem_singleton.1 ht]
        exact (m1 _).2 (.push (k := 0) (c := .var i y.2 :: cc) hr hcomp rfl hlast hr' htail)

/-- The pointer is at a new node, and the last `k` transitions pushed nodes without reading. -/
def FreshVisit (g : PMCFG N T W) (all : List (PMCFGRule N T W × Nat)) (s : TreeStack (TsaSymbol N T)) (k : Nat) : Prop :=
  ∃ x xs, s.value = .position x.1.key x.2 0 ∧ s.children = .nil ∧ (x :: xs).length = k ∧ (∀ y ∈ x :: xs, y ∈ all ∧ y.1 ∈ g.rules) ∧
    FirstVisited cutTrails g x.1 x.2 ∧ (x :: xs).Pairwise fun a b => Relation.TransGen (LeftVisit cutTrails g.rules) b a

omit [DecidableEq N] [DecidableEq T] [CommMonoid W] in
theorem FreshVisit.le {g : PMCFG N T W} {all : List (PMCFGRule N T W × Nat)} (hl : ¬ VisitRecursive cutTrails g.rules) {s : TreeStack (TsaSymbol N T)} {k : Nat}
    (h : FreshVisit g all s k) : k ≤ all.length := by
  obtain ⟨r, rs, _, _, rfl, h1, _, h2⟩ := h
  have : (r :: rs).Nodup := h2.imp fun {a b} hab (he : a = b) => hl ⟨a, by subst he; exact hab⟩
  exact (this.subperm fun x hx => (h1 x hx).1).length_le

/-- Without left recursion, the number of `push` transitions of a run is bounded by the length of the word that is read, if the components that are visited first are not empty. -/
theorem visit_pushes_le {g : PMCFG N T W} {all : List (PMCFGRule N T W × Nat)} (hall : ∀ r ∈ g.rules, (r, 0) ∈ all ∧ ∀ r' ∈ g.rules, ∀ (j : Nat) c, (cutTrails r.composition)[j]? = some c → ∀ x ∈ segs c [], (r', x.2.2) ∈ all)
    (hl : ¬ VisitRecursive cutTrails g.rules) (hne : ∀ r j, FirstVisited cutTrails g r j → (cutTrails r.composition)[j]? ≠ some [])
    {us : List (TsaTransition N T W)} (hus : ∀ t ∈ us, IsStep g t) {s s' : TreeStack (TsaSymbol N T)}
    (hs : s' ∈ storages TsInstr.apply (us.map Transition.instruction) s) (k : Nat) (hk : k = 0 ∨ FreshVisit g all s k) :
    (us.map fun t => pushes t.instruction).sum + k ≤ (wordOf us).length * all.length + all.length := by
  induction us generalizing s k with
  | nil =>
    simp only [List.map_nil, List.sum_nil, Nat.zero_add]
    have : k ≤ all.length := by
      rcases hk with rfl | hk
      · exact Nat.zero_le _
      · exact hk.le hl
    exact this.trans (Nat.le_add_left _ _)
  | cons t us ih =>
    have hkM : k ≤ all.length := by
      rcases hk with rfl | hk
      · exact Nat.zero_le _
      · exact hk.le hl
    simp only [List.map_cons, storages, List.mem_flatMap] at hs
    obtain ⟨s₁, h1, h2⟩ := hs
    have ih' := fun k' hk' => ih (fun t ht => hus t (by simp [ht])) h2 k' hk'
    have hword : (wordOf (t :: us)).length = t.word.length + (wordOf us).length := by simp [wordOf]
    rw [List.map_cons, List.sum_cons, hword, Nat.add_mul]
    -- at least one symbol is read
    have hread : ∀ k', (k' = 0 ∨ FreshVisit g all s₁ k') → pushes t.instruction ≤ k' → 1 ≤ t.word.length →
        pushes t.instruction + (us.map fun t => pushes t.instruction).sum + k ≤ t.word.length * all.length + (wordOf us).length * all.length + all.length := by
      intro k' hk' hp hlen
      have h3 := ih' k' hk'
      have h4 : all.length ≤ t.word.length * all.length := Nat.le_mul_of_pos_left _ hlen
      omega
    have hone : ∀ (r : PMCFGRule N T W) (j : Nat), (r, j) ∈ all → FirstVisited cutTrails g r j → s₁.value = .position r.key j 0 → s₁.children = .nil →
        FreshVisit g all s₁ 1 := by
      intro r j hr hj hv hc
      exact ⟨(r, j), [], hv, hc, rfl, by simpa using ⟨hr, hj.1⟩, hj, by simp⟩
    have hnext : ∀ k', (k' = 0 ∨ FreshVisit g all s₁ k') → pushes t.instruction + k ≤ k' →
        pushes t.instruction + (us.map fun t => pushes t.instruction).sum + k ≤ t.word.length * all.length + (wordOf us).length * all.length + all.length := by
      intro k' hk' hp
      have h3 := ih' k' hk'
      generalize t.word.length * all.length = q
      omega
    have hidle := fun (hk0 : k = 0) (hp : pushes t.instruction = 0) => hnext 0 (.inl rfl) (by omega)
    have ht := hus t (by simp)
    cases ht with
    | @init r hr hi =>
      obtain ⟨v1, v2, v3⟩ := mem_apply_push h1
      rcases hk with rfl | ⟨r0, rs, h3, _⟩
      · exact hnext 1 (.inr (hone r 0 (hall r hr).1 ⟨hr, .inl ⟨hi, rfl⟩⟩ v2 v3)) (le_refl _)
      · rw [v1] at h3; cases h3
    | @push r j kk c b i j₁ ri hr hc hseg hlast hri htail =>
      obtain ⟨v1, v2, v3⟩ := mem_apply_push h1
      have hmem : (ri, j₁) ∈ all := (hall r hr).2 ri hri j c hc _ (List.mem_of_getElem? hseg)
      have hfirst : FirstVisited cutTrails g ri j₁ := ⟨hri, .inr ⟨r, hr, j, kk, i, c, hc, by rw [← segs_vars c [], List.getElem?_map, hseg]; rfl, hlast, htail⟩⟩
      cases b with
      | cons x b => exact hread 1 (.inr (hone ri j₁ hmem hfirst v2 v3)) (le_refl _) (by simp)
      | nil =>
        rcases hk with rfl | ⟨r0, rs, h3, h4, h5, h6, _, h7⟩
        · exact hnext 1 (.inr (hone ri j₁ hmem hfirst v2 v3)) (le_refl _)
        · rw [v1] at h3
          injection h3 with e1 e2 e3
          subst e2 e3
          have hcorner : LeftVisit cutTrails g.rules r0 (ri, j₁) := by
            refine ⟨(h6 r0 (by simp)).2, hri, i, ?_⟩
            have e4 : r.composition = r0.1.composition := congrArg (fun x => x.composition) e1
            have e5 : r.tail = r0.1.tail := congrArg (fun x => x.tail) e1
            rw [e4] at hc hlast
            rw [e5] at htail
            cases c with
            | nil => cases hseg
            | cons x c =>
              cases x with
              | var i' j' =>
                simp only [segs, List.getElem?_cons_zero, Option.some.injEq, Prod.mk.injEq, true_and] at hseg
                obtain ⟨rfl, rfl⟩ := hseg
                exact ⟨c, hc, hlast, htail⟩
              | t a =>
                exfalso
                have : ∀ (c : List (VarT T)) (buf : List T) x, (segs c buf)[0]? = some x → buf.length ≤ x.1.length := by
                  intro c
                  induction c with
                  | nil => intro buf x h; cases h
                  | cons y c ihc =>
                    intro buf x h
                    cases y with
                    | var i j => cases h; exact le_refl _
                    | t a =>
                      have := ihc (buf ++ [a]) x h
                      rw [List.length_append] at this
                      omega
                have := this c [a] _ hseg
                simp at this
          have hfresh : FreshVisit g all s₁ (k + 1) := by
            refine ⟨(ri, j₁), r0 :: rs, v2, v3, by rw [← h5]; rfl, ?_, hfirst, ?_⟩
            · intro x hx
              rcases List.mem_cons.1 hx with rfl | hx
              · exact ⟨hmem, hri⟩
              · exact h6 x hx
            · refine List.pairwise_cons.2 ⟨fun x hx => ?_, h7⟩
              rcases List.mem_cons.1 hx with rfl | hx
              · exact .single hcorner
              · exact .tail ((List.pairwise_cons.1 h7).1 x hx) hcorner
          exact hnext (k + 1) (.inr hfresh) (Nat.le_of_eq (Nat.add_comm 1 k))
    | up =>
      rcases hk with hk | ⟨r0, rs, h3, h4, _⟩
      · exact hidle hk rfl
      · exact absurd h1 (not_mem_apply_up h4)
    | @fin r c hr hi hc =>
      rcases hk with hk | ⟨r0, rs, h3, h4, _, _, h5, _⟩
      · exact hidle hk rfl
      · have := mem_apply_current h1
        rw [h3] at this
        injection this with e1 e2 e3
        have e4 : r0.1.composition = r.composition := congrArg (fun x => x.composition) e1
        refine hread 0 (.inl rfl) (le_refl _) (trail_ne_nil (fun he => hne _ _ h5 ?_) e3.symm)
        rw [e4, e2, hc, he]
    | @down r j kk c b i j₁ ri c₁ hr hc hseg hri htail hc₁ =>
      rcases hk with hk | ⟨r0, rs, h3, h4, _, _, h5, _⟩
      · exact hidle hk rfl
      · have := mem_apply_current h1
        rw [h3] at this
        injection this with e1 e2 e3
        have e4 : r0.1.composition = ri.composition := congrArg (fun x => x.composition) e1
        refine hread 0 (.inl rfl) (le_refl _) (trail_ne_nil (fun he => hne _ _ h5 ?_) e3.symm)
        rw [e4, e2, hc₁, he]

/-- Without left recursion, the lengths of the runs on a word are bounded. -/
theorem visit_runs_bounded {g : PMCFG N T W} {ts : List (TsaTransition N T W)} (hts : tsaTransitions g = some ts) (hl : ¬ VisitRecursive cutTrails g.rules)
    (hne : ∀ r j, FirstVisited cutTrails g r j → (cutTrails r.composition)[j]? ≠ some []) (w : List T) :
    ∃ l, ∀ us c, IsRun TsInstr.apply ts (TreeStack.new .initial) w us c → us.length ≤ l := by
  obtain ⟨K, hb⟩ := exists_visitBound g
  obtain ⟨F, hF⟩ := exists_le_bound (g.rules.flatMap fun r => (cutTrails r.composition).flatMap fun c => segs c []) (fun x => x.2.2)
  let all : List (PMCFGRule N T W × Nat) := g.rules.flatMap fun r => (List.range (F + 1)).map fun j => (r, j)
  have hmem : ∀ r ∈ g.rules, ∀ j ≤ F, (r, j) ∈ all := fun r hr j hj =>
    List.mem_flatMap.2 ⟨r, hr, List.mem_map.2 ⟨j, List.mem_range.2 (by omega), rfl⟩⟩
  have hall : ∀ r ∈ g.rules, (r, 0) ∈ all ∧ ∀ r' ∈ g.rules, ∀ (j : Nat) c, (cutTrails r.composition)[j]? = some c → ∀ x ∈ segs c [], (r', x.2.2) ∈ all :=
    fun r hr => ⟨hmem r hr 0 (Nat.zero_le _), fun r' hr' j c hc x hx => hmem r' hr' _ (hF x (List.mem_flatMap.2 ⟨r, hr, List.mem_flatMap.2 ⟨c, List.mem_of_getElem? hc, hx⟩⟩))⟩
  refine ⟨visitBound K (w.length * all.length + all.length), fun us c hc => ?_⟩
  have hus : ∀ t ∈ us, IsStep g t := fun t ht => (tsaTransitions_step hts t).1 (hc.2 t ht)
  obtain ⟨h1, h2, _⟩ := (exec_iff _ us _ _).1 hc.1
  refine visit_length_le_pushes hb hus h2 ?_
  have h3 := visit_pushes_le hall hl hne hus h2 0 (.inl rfl)
  have h4 : (wordOf us).length ≤ w.length := by
    have := congrArg List.length h1
    simp only [List.length_append] at this
    omega
  exact h3.trans (Nat.add_le_add_right (Nat.mul_le_mul_right _ h4) _)

end Rustomata
