import Verif.Proofs.TsaLength
import Verif.Spec.Fair

/-!
# Left recursion: the automaton has a run for each path of left corners
-/

set_option linter.unusedSectionVars false

namespace Rustomata
open Spec
variable {N T W : Type _} [DecidableEq N] [DecidableEq T] [CommMonoid W]

theorem LeftPath.mem {g : PMCFG N T W} {rs : List (PMCFGRule N T W)} {r : PMCFGRule N T W} (h : LeftPath g rs r) : r ∈ g.rules ∧ ∀ r' ∈ rs, r' ∈ g.rules := by
  induction h with
  | first hr _ => exact ⟨hr, by simpa using hr⟩
  | step _ hc ih =>
    refine ⟨hc.2.1, fun r' hr' => ?_⟩
    rcases List.mem_append.1 hr' with h | h
    · exact ih.2 r' h
    · rw [List.mem_singleton.1 h]; exact hc.2.1

theorem leftPath_run {g : PMCFG N T W} {ts : List (TsaTransition N T W)} (hts : tsaTransitions g = some ts) (ho : Ordered g.rules)
    (hs : ∀ r ∈ g.rules, ShortTrails r.composition) (w : List T) {rs : List (PMCFGRule N T W)} {r : PMCFGRule N T W} (h : LeftPath g rs r) :
    ∃ us c, IsRun TsInstr.apply ts (TreeStack.new .initial) w us c ∧ us.length = rs.length ∧ c.weight = (rs.map PMCFGRule.weight).prod ∧ c.word = w ∧
      c.storage.value = .position r.key 0 0 ∧ c.storage.children = .nil := by
  obtain ⟨m1, m2⟩ := tsaTransitions_mem hts ho hs
  -- each position is free at a new node
  have hpush : ∀ (s : TreeStack (TsaSymbol N T)) (n : Nat) (a b : TsaSymbol N T), s.children = .nil → s.value = a →
      ∃ s', s' ∈ (TsInstr.push n a b).apply s ∧ s'.value = b ∧ s'.children = .nil := by
    intro s n a b hc hv
    have : ∃ s', s.push n b = .ok s' ∧ s'.value = b ∧ s'.children = .nil := by
      unfold TreeStack.push
      rw [hc]
      have hslot : ∀ n, (Forest.pad (.nil : Forest (TsaSymbol N T)) n).slot n = none := by
        intro n
        rw [Forest.slot_pad]; rfl
      simp only [Forest.length, ge_iff_le, Nat.zero_le, if_true, hslot]
      exact ⟨_, rfl, rfl, rfl⟩
    obtain ⟨s', h1, h2, h3⟩ := this
    refine ⟨s', ?_, h2, h3⟩
    simp only [TsInstr.apply, TreeStack.currentSymbol, hv, if_true, h1, List.mem_singleton]
  induction h with
  | @first r hr hi =>
    obtain ⟨s', h1, h2, h3⟩ := hpush (TreeStack.new .initial) 0 .initial (.position r.key 0 0) rfl rfl
    refine ⟨[⟨[], r.weight, .push 0 .initial (.position r.key 0 0)⟩], ⟨w, s', 1 * r.weight⟩, ⟨.cons ⟨rfl, h1, rfl⟩ (.nil _), ?_⟩, rfl, by simp, rfl, h2, h3⟩
    intro t ht
    rw [List.mem_singleton.1 ht]
    exact (m1 _).2 (.init hr hi)
  | @step rs r r' _ hc ih =>
    obtain ⟨us, c, ⟨h1, h2⟩, h3, h4, h5, h6, h7⟩ := ih
    obtain ⟨hr, hr', i, cc, cs, hcomp, htail⟩ := hc
    obtain ⟨s', g1, g2, g3⟩ := hpush c.storage i (.position r.key 0 0) (.position r'.key 0 0) h7 h6
    refine ⟨us ++ [⟨[], r'.weight, .push i (.position r.key 0 0) (.position r'.key 0 0)⟩], ⟨w, s', c.weight * r'.weight⟩, ⟨?_, ?_⟩, by simp [h3], by simp [h4], rfl, g2, g3⟩
    · exact exec_append.2 ⟨c, h1, .cons (c' := ⟨w, s', c.weight * r'.weight⟩) ⟨by rw [h5]; rfl, g1, rfl⟩ (.nil _)⟩
    · intro t ht
      rcases List.mem_append.1 ht with ht | ht
      · exact h2 t ht
      · rw [List.mem_singleton.1 ht]
        exact (m1 _).2 (.push (c := .var i 0 :: cc) hr (by rw [hcomp]; rfl) rfl hr' htail)

/-! ### No left recursion -/

theorem trail_length_le (c : List (VarT T)) (buf : List T) (h : segs c buf = []) : buf.length ≤ (trail c buf).length := by
  induction c generalizing buf with
  | nil => exact le_refl _
  | cons x c ih =>
    cases x with
    | var i j => simp [segs] at h
    | t a =>
      have := ih (buf ++ [a]) (by simpa [segs] using h)
      rw [List.length_append] at this
      simp only [trail]
      omega

theorem trail_ne_nil {c : List (VarT T)} (hc : c ≠ []) (h : (segs c []).length = 0) : 1 ≤ (trail c []).length := by
  cases c with
  | nil => exact absurd rfl hc
  | cons x c =>
    cases x with
    | var i j => simp [segs] at h
    | t a => exact trail_length_le c [a] (by simpa [segs] using h)

omit [DecidableEq N] [DecidableEq T] [CommMonoid W] in
/-- There is no left recursion if the nonterminals have ranks that decrease at left corners. -/
theorem not_leftRecursive {rules : List (PMCFGRule N T W)} (rank : N → Nat)
    (h : ∀ r ∈ rules, ∀ i c cs B, r.composition = (.var i 0 :: c) :: cs → r.tail[i]? = some B → rank B < rank r.head) : ¬ LeftRecursive rules := by
  rintro ⟨r, hr⟩
  have : ∀ r r', Relation.TransGen (LeftCorner rules) r r' → rank r'.head < rank r.head := by
    intro r r' hrr
    induction hrr with
    | single h1 =>
      obtain ⟨g1, _, i, c, cs, g2, g3⟩ := h1
      exact h _ g1 i c cs _ g2 g3
    | tail _ h1 ih =>
      obtain ⟨g1, _, i, c, cs, g2, g3⟩ := h1
      exact (h _ g1 i c cs _ g2 g3).trans ih
  exact absurd (this r r hr) (lt_irrefl _)

/-- The pointer is at a new node, and the last `k` transitions pushed nodes without reading. -/
def Fresh (rules : List (PMCFGRule N T W)) (s : TreeStack (TsaSymbol N T)) (k : Nat) : Prop :=
  ∃ r rs, s.value = .position r.key 0 0 ∧ s.children = .nil ∧ (r :: rs).length = k ∧ (∀ x ∈ r :: rs, x ∈ rules) ∧
    (r :: rs).Pairwise fun a b => Relation.TransGen (LeftCorner rules) b a

omit [DecidableEq N] [DecidableEq T] [CommMonoid W] in
theorem Fresh.le {rules : List (PMCFGRule N T W)} (hl : ¬ LeftRecursive rules) {s : TreeStack (TsaSymbol N T)} {k : Nat} (h : Fresh rules s k) : k ≤ rules.length := by
  obtain ⟨r, rs, _, _, rfl, h1, h2⟩ := h
  have : (r :: rs).Nodup := h2.imp fun {a b} hab (he : a = b) => hl ⟨a, by subst he; exact hab⟩
  exact (this.subperm h1).length_le

theorem mem_apply_push {A : Type _} [DecidableEq A] {n : Nat} {a b : A} {s s' : TreeStack A} (h : s' ∈ (TsInstr.push n a b).apply s) :
    s.value = a ∧ s'.value = b ∧ s'.children = .nil := by
  simp only [TsInstr.apply] at h
  split at h
  · rename_i hv
    split at h
    · rename_i s₁ h1
      rw [List.mem_singleton] at h
      subst h
      unfold TreeStack.push at h1
      simp only at h1
      split at h1
      · cases h1; exact ⟨hv, rfl, rfl⟩
      · cases h1
    · simp at h
  · simp at h

theorem mem_apply_current {A : Type _} [DecidableEq A] {i : TsInstr A} {s s' : TreeStack A} (h : s' ∈ i.apply s) : s.value = i.current := by
  cases i <;> simp only [TsInstr.apply] at h <;> split at h <;> first | assumption | simp at h

theorem not_mem_apply_up {A : Type _} [DecidableEq A] {n : Nat} {a b c : A} {s s' : TreeStack A} (hs : s.children = .nil) : s' ∉ (TsInstr.up n a b c).apply s := by
  intro h
  simp only [TsInstr.apply, TreeStack.up, hs, Forest.length] at h
  split at h <;> simp at h

/-- Without left recursion, the number of `push` transitions of a run is bounded by the length of the word that is read, if the first components are not empty. -/
theorem pushes_le {g : PMCFG N T W} (hl : ¬ LeftRecursive g.rules) (hne : ∀ r ∈ g.rules, ∀ c, r.composition[0]? = some c → c ≠ [])
    {us : List (TsaTransition N T W)} (hus : ∀ t ∈ us, IsTrans g t) {s s' : TreeStack (TsaSymbol N T)}
    (hs : s' ∈ storages TsInstr.apply (us.map Transition.instruction) s) (k : Nat) (hk : k = 0 ∨ Fresh g.rules s k) :
    (us.map fun t => pushes t.instruction).sum + k ≤ (wordOf us).length * g.rules.length + g.rules.length := by
  induction us generalizing s k with
  | nil =>
    simp only [List.map_nil, List.sum_nil, Nat.zero_add]
    have : k ≤ g.rules.length := by
      rcases hk with rfl | hk
      · exact Nat.zero_le _
      · exact hk.le hl
    exact this.trans (Nat.le_add_left _ _)
  | cons t us ih =>
    have hkM : k ≤ g.rules.length := by
      rcases hk with rfl | hk
      · exact Nat.zero_le _
      · exact hk.le hl
    simp only [List.map_cons, storages, List.mem_flatMap] at hs
    obtain ⟨s₁, h1, h2⟩ := hs
    have ih' := fun k' hk' => ih (fun t ht => hus t (by simp [ht])) h2 k' hk'
    have hword : (wordOf (t :: us)).length = t.word.length + (wordOf us).length := by simp [wordOf]
    rw [List.map_cons, List.sum_cons, hword, Nat.add_mul]
    -- at least one symbol is read
    have hread : ∀ k', (k' = 0 ∨ Fresh g.rules s₁ k') → pushes t.instruction ≤ k' → 1 ≤ t.word.length →
        pushes t.instruction + (us.map fun t => pushes t.instruction).sum + k ≤ t.word.length * g.rules.length + (wordOf us).length * g.rules.length + g.rules.length := by
      intro k' hk' hp hlen
      have h3 := ih' k' hk'
      have h4 : g.rules.length ≤ t.word.length * g.rules.length := Nat.le_mul_of_pos_left _ hlen
      omega
    have hone : ∀ r ∈ g.rules, s₁.value = .position r.key 0 0 → s₁.children = .nil → Fresh g.rules s₁ 1 := by
      intro r hr hv hc
      exact ⟨r, [], hv, hc, rfl, by simpa using hr, by simp⟩
    have hnext : ∀ k', (k' = 0 ∨ Fresh g.rules s₁ k') → pushes t.instruction + k ≤ k' →
        pushes t.instruction + (us.map fun t => pushes t.instruction).sum + k ≤ t.word.length * g.rules.length + (wordOf us).length * g.rules.length + g.rules.length := by
      intro k' hk' hp
      have h3 := ih' k' hk'
      generalize t.word.length * g.rules.length = q
      omega
    have hidle := fun (hk0 : k = 0) (hp : pushes t.instruction = 0) => hnext 0 (.inl rfl) (by omega)
    have ht := hus t (by simp)
    cases ht with
    | @init r hr hi =>
      obtain ⟨v1, v2, v3⟩ := mem_apply_push h1
      rcases hk with rfl | ⟨r0, rs, h3, _⟩
      · exact hnext 1 (.inr (hone r hr v2 v3)) (le_refl _)
      · rw [v1] at h3; cases h3
    | @push r j kk c b i ri hr hc hseg hri htail =>
      obtain ⟨v1, v2, v3⟩ := mem_apply_push h1
      cases b with
      | cons x b => exact hread 1 (.inr (hone ri hri v2 v3)) (le_refl _) (by simp)
      | nil =>
        rcases hk with rfl | ⟨r0, rs, h3, h4, h5, h6, h7⟩
        · exact hnext 1 (.inr (hone ri hri v2 v3)) (le_refl _)
        · rw [v1] at h3
          injection h3 with e1 e2 e3
          subst e2 e3
          have hcorner : LeftCorner g.rules r0 ri := by
            refine ⟨h6 r0 (by simp), hri, i, ?_⟩
            have e4 : r.composition = r0.composition := congrArg (fun x => x.composition) e1
            have e5 : r.tail = r0.tail := congrArg (fun x => x.tail) e1
            rw [e4] at hc
            rw [e5] at htail
            cases hcs : r0.composition with
            | nil => rw [hcs] at hc; cases hc
            | cons c0 cs =>
              rw [hcs] at hc
              cases hc
              cases c with
              | nil => cases hseg
              | cons x c =>
                cases x with
                | var i' j' =>
                  simp only [segs, List.getElem?_cons_zero, Option.some.injEq, Prod.mk.injEq, true_and] at hseg
                  obtain ⟨rfl, rfl⟩ := hseg
                  exact ⟨c, cs, rfl, htail⟩
                | t a =>
                  exfalso
                  have : ∀ (c : List (VarT T)) (buf : List T) x, (segs c buf)[0]? = some x → buf.length ≤ x.1.length := by
                    intro c
                    induction c with
                    | nil => intro buf x h; cases h
                    | cons y c ihc =>
                      intro buf x h
                      cases y with
                      | var i j => cases h; exact le_refl _
                      | t a =>
                        have := ihc (buf ++ [a]) x h
                        rw [List.length_append] at this
                        omega
                  have := this c [a] _ hseg
                  simp at this
          have hfresh : Fresh g.rules s₁ (k + 1) := by
            refine ⟨ri, r0 :: rs, v2, v3, by rw [← h5]; rfl, ?_, ?_⟩
            · intro x hx
              rcases List.mem_cons.1 hx with rfl | hx
              · exact hri
              · exact h6 x hx
            · refine List.pairwise_cons.2 ⟨fun x hx => ?_, h7⟩
              rcases List.mem_cons.1 hx with rfl | hx
              · exact .single hcorner
              · exact .tail ((List.pairwise_cons.1 h7).1 x hx) hcorner
          exact hnext (k + 1) (.inr hfresh) (Nat.le_of_eq (Nat.add_comm 1 k))
    | up =>
      rcases hk with hk | ⟨r0, rs, h3, h4, _⟩
      · exact hidle hk rfl
      · exact absurd h1 (not_mem_apply_up h4)
    | @fin r c hr hi hc =>
      rcases hk with hk | ⟨r0, rs, h3, h4, _⟩
      · exact hidle hk rfl
      · have := mem_apply_current h1
        rw [h3] at this
        injection this with _ _ e3
        exact hread 0 (.inl rfl) (le_refl _) (trail_ne_nil (hne r hr c hc) e3.symm)
    | @down r j kk c b i j₁ ri c₁ hr hc hseg hri htail hc₁ =>
      rcases hk with hk | ⟨r0, rs, h3, h4, _⟩
      · exact hidle hk rfl
      · have := mem_apply_current h1
        rw [h3] at this
        injection this with _ e2 e3
        subst e2
        exact hread 0 (.inl rfl) (le_refl _) (trail_ne_nil (hne ri hri c₁ hc₁) e3.symm)

/-- Without left recursion, the lengths of the runs on a word are bounded. -/
theorem runs_bounded {g : PMCFG N T W} {ts : List (TsaTransition N T W)} (hts : tsaTransitions g = some ts) (ho : Ordered g.rules)
    (hs : ∀ r ∈ g.rules, ShortTrails r.composition) (hl : ¬ LeftRecursive g.rules) (hne : ∀ r ∈ g.rules, ∀ c, r.composition[0]? = some c → c ≠ []) (w : List T) :
    ∃ l, ∀ us c, IsRun TsInstr.apply ts (TreeStack.new .initial) w us c → us.length ≤ l := by
  obtain ⟨K, F, hb⟩ := exists_grammarBound g
  refine ⟨(TreeStack.new (.initial : TsaSymbol N T)).total (potential K F) + ((F + 2) * (K + 2) + 1) * (w.length * g.rules.length + g.rules.length), fun us c hc => ?_⟩
  have hus : ∀ t ∈ us, IsTrans g t := fun t ht => ((tsaTransitions_mem hts ho hs).1 t).1 (hc.2 t ht)
  obtain ⟨h1, h2, _⟩ := (exec_iff _ us _ _).1 hc.1
  refine (run_length_le hb hus (TreeStack.wf_new _) h2).trans (Nat.add_le_add_left (Nat.mul_le_mul_left _ ?_) _)
  have h3 := pushes_le hl hne hus h2 0 (.inl rfl)
  have h4 : (wordOf us).length ≤ w.length := by
    have := congrArg List.length h1
    simp only [List.length_append] at this
    omega
  exact h3.trans (Nat.add_le_add_right (Nat.mul_le_mul_right _ h4) _)

end Rustomata
