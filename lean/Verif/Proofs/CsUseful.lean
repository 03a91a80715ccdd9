import Verif.Proofs.CsRuleMask
import Verif.Proofs.McfgLcfrs

/-!
# The marked rules are the useful rules

For LCFRS in normal form.
-/

namespace Rustomata
open Spec

section
variable {N T W : Type _}

theorem mem_compose {args : Nat → Option (List (List T))} {c : Composition T} {v : List (List T)} (hv : compose args c = some v) (a : T) :
    (∃ comp ∈ v, a ∈ comp) ↔ (∃ comp ∈ c, VarT.t a ∈ comp) ∨ ∃ i j, (i, j) ∈ varsOf c ∧ ∃ x y, args i = some x ∧ x[j]? = some y ∧ a ∈ y := by
  have key : ∀ {comp : List (VarT T)} {w : List T}, substAll args comp = some w →
      (a ∈ w ↔ VarT.t a ∈ comp ∨ ∃ i j, VarT.var i j ∈ comp ∧ ∃ x y, args i = some x ∧ x[j]? = some y ∧ a ∈ y) := by
    intro comp
    induction comp with
    | nil =>
      intro w h
      simp only [substAll, List.mapM_nil, Option.map_eq_some_iff] at h
      obtain ⟨l, h1, h2⟩ := h
      cases h1
      simp only [List.flatten_nil] at h2
      simp [← h2]
    | cons s comp ih =>
      intro w h
      unfold substAll at h
      rw [Option.map_eq_some_iff] at h
      obtain ⟨l, h1, rfl⟩ := h
      rw [mapM_some_iff] at h1
      cases h1 with
      | cons hs hl =>
        rename_i x l
        have := ih (w := l.flatten) (by unfold substAll; rw [(mapM_some_iff).2 hl]; rfl)
        rw [List.flatten_cons, List.mem_append, this]
        cases s with
        | t b =>
          simp only [subst, Option.some.injEq] at hs
          subst hs
          simp only [List.mem_cons, List.not_mem_nil, or_false, VarT.t.injEq, reduceCtorEq, false_or, or_assoc]
        | var i j =>
          simp only [subst, Option.bind_eq_some_iff] at hs
          obtain ⟨z, hz, hj⟩ := hs
          simp only [List.mem_cons, reduceCtorEq, false_or, VarT.var.injEq]
          constructor
          · rintro (h | h | ⟨i', j', h, h'⟩)
            · exact .inr ⟨i, j, .inl ⟨rfl, rfl⟩, z, x, hz, hj, h⟩
            · exact .inl h
            · exact .inr ⟨i', j', .inr h, h'⟩
          · rintro (h | ⟨i', j', ⟨rfl, rfl⟩ | h, z', y', h1, h2, h3⟩)
            · exact .inr (.inl h)
            · rw [hz, Option.some.injEq] at h1
              subst h1
              rw [hj, Option.some.injEq] at h2
              exact .inl (h2 ▸ h3)
            · exact .inr (.inr ⟨i', j', h, z', y', h1, h2, h3⟩)
  unfold compose at hv
  rw [mapM_some_iff] at hv
  have hex : (∃ comp ∈ v, a ∈ comp) ↔ ∃ comp ∈ c, VarT.t a ∈ comp ∨ ∃ i j, VarT.var i j ∈ comp ∧ ∃ x y, args i = some x ∧ x[j]? = some y ∧ a ∈ y := by
    induction hv with
    | nil => simp
    | cons h1 _ ih => rw [List.exists_mem_cons_iff, List.exists_mem_cons_iff, ih, key h1]
  rw [hex]
  constructor
  · rintro ⟨comp, h1, h2 | ⟨i, j, h2, h3⟩⟩
    · exact .inl ⟨comp, h1, h2⟩
    · exact .inr ⟨i, j, mem_varsOf.2 ⟨comp, h1, h2⟩, h3⟩
  · rintro (⟨comp, h1, h2⟩ | ⟨i, j, h2, h3⟩)
    · exact ⟨comp, h1, .inl h2⟩
    · obtain ⟨comp, h4, h5⟩ := mem_varsOf.1 h2
      exact ⟨comp, h4, .inr ⟨i, j, h5, h3⟩⟩

theorem terminalOf_eq {c : Composition T} {a : T} : MaskBuild.terminalOf c = some a ↔ c = [[.t a]] := by
  unfold MaskBuild.terminalOf
  split
  · rename_i b
    simp
  · rename_i h
    simp only [reduceCtorEq, false_iff]
    exact fun h' => h a h'

theorem terminalOf_none {c : Composition T} (h : ∀ comp ∈ c, ∀ x ∈ comp, ∃ i j, x = VarT.var i j) : MaskBuild.terminalOf c = none := by
  cases hc : MaskBuild.terminalOf c with
  | none => rfl
  | some a =>
    rw [terminalOf_eq] at hc
    subst hc
    obtain ⟨i, j, h⟩ := h [.t a] (by simp) (.t a) (by simp)
    cases h

theorem lcfrs_length {rules : List (PMCFGRule N T W)} {init : N} (hl : IsLcfrs rules init) {r r' : PMCFGRule N T W} (hr : r ∈ rules) (hr' : r' ∈ rules)
    (h : r.head = r'.head) : r.composition.length = r'.composition.length := by
  obtain ⟨f, h1, _⟩ := hl
  have e1 := (h1 r.head _).2 ⟨r, hr, rfl, rfl⟩
  have e2 := (h1 r.head _).2 ⟨r', hr', h.symm, rfl⟩
  rw [e1, Option.some.injEq] at e2
  exact e2

/-- Each variable refers to a component of a nonterminal of the right-hand side. -/
theorem lcfrs_var {rules : List (PMCFGRule N T W)} {init : N} (hl : IsLcfrs rules init) {r : PMCFGRule N T W} (hr : r ∈ rules) {i j : Nat} :
    (i, j) ∈ varsOf r.composition ↔ ∃ A, r.tail[i]? = some A ∧ ∃ r' ∈ rules, r'.head = A ∧ j < r'.composition.length := by
  obtain ⟨f, h1, _, h2⟩ := hl
  rw [(h2 r hr).2 i j]
  constructor
  · rintro ⟨A, n, h3, h4, h5⟩
    obtain ⟨r', h6, h7, h8⟩ := (h1 A n).1 h4
    exact ⟨A, h3, r', h6, h7, by omega⟩
  · rintro ⟨A, h3, r', h6, h7, h8⟩
    exact ⟨A, _, h3, (h1 A _).2 ⟨r', h6, h7, rfl⟩, h8⟩

theorem derives_length {rules : List (PMCFGRule N T W)} {init : N} (hl : IsLcfrs rules init) {A : N} {d} {v : List (List T)} (h : Derives rules A d v)
    {r : PMCFGRule N T W} (hr : r ∈ rules) (hA : r.head = A) : v.length = r.composition.length := by
  obtain ⟨r', h1, h2, ds, args, _, _, h3⟩ := derives_inv h
  rw [compose_length h3]
  exact lcfrs_length hl h1 hr (h2.trans hA.symm)

theorem derives_length_pos {rules : List (PMCFGRule N T W)} (hn : NormalForm rules) {A : N} {d} {v : List (List T)} (h : Derives rules A d v) : v ≠ [] := by
  obtain ⟨r', h1, h2, ds, args, _, _, h3⟩ := derives_inv h
  intro hv
  have := compose_length h3
  rw [hv] at this
  exact (hn r' h1).1 (List.eq_nil_of_length_eq_zero this.symm)

theorem terminal_tail {rules : List (PMCFGRule N T W)} {init : N} (hg : ParserGrammar rules init) {r : PMCFGRule N T W} (hr : r ∈ rules) {a : T}
    (h : r.composition = [[.t a]]) : r.tail = [] := by
  by_contra hne
  obtain ⟨B, Bs, hB⟩ := List.exists_cons_of_ne_nil hne
  obtain ⟨r', h1, h2⟩ := hg.closed r hr B (by simp [hB])
  have := (lcfrs_var hg.lcfrs hr (i := 0) (j := 0)).2 ⟨B, by simp [hB], r', h1, h2, List.length_pos_iff.2 (hg.normal r' h1).1⟩
  rw [h] at this
  simp [varsOf] at this

theorem effTail_eq {rules : List (PMCFGRule N T W)} {init : N} (hg : ParserGrammar rules init) {r : PMCFGRule N T W} (hr : r ∈ rules) :
    effTail r = r.tail := by
  unfold effTail
  cases h : MaskBuild.terminalOf r.composition with
  | none => simp
  | some a => simp [terminal_tail hg hr (terminalOf_eq.1 h)]

/-- A rule of variables has a nonempty right-hand side. -/
theorem tail_ne_nil {rules : List (PMCFGRule N T W)} {init : N} (hg : ParserGrammar rules init) {r : PMCFGRule N T W} (hr : r ∈ rules)
    (h : ∀ c ∈ r.composition, ∀ x ∈ c, ∃ i j, x = VarT.var i j) : r.tail ≠ [] := by
  obtain ⟨c, hc⟩ := List.exists_mem_of_ne_nil _ (hg.normal r hr).1
  obtain ⟨x, hx⟩ := List.exists_mem_of_ne_nil _ ((hg.normal r hr).2.1 c hc)
  obtain ⟨i, j, rfl⟩ := h c hc x hx
  obtain ⟨A, h1, _⟩ := (lcfrs_var hg.lcfrs hr).1 (mem_varsOf.2 ⟨c, hc, hx⟩)
  exact List.ne_nil_of_mem (List.mem_of_getElem? h1)

/-- The first loop marks the nonterminals that derive tuples over the terminals of the word. -/
theorem markedProductive_iff {rules : List (PMCFGRule N T W)} {init : N} (hg : ParserGrammar rules init) (word : List T) (A : N) :
    MarkedProductive rules word A ↔ DerivesOver rules word A := by
  constructor
  · intro h
    induction h with
    | @term r a h1 h2 h3 =>
      rw [terminalOf_eq] at h2
      refine ⟨.node r [], [[a]], .node (args := []) h1 ?_ ?_, by simpa using h3⟩
      · rw [terminal_tail hg h1 h2]
        exact .nil
      · rw [h2]
        rfl
    | @inner r h1 h2 h3 ih =>
      rw [effTail_eq hg h1] at h2 ih
      have hx : ∀ i : Fin r.tail.length, ∃ p : DTree (PMCFGRule N T W) × List (List T), Derives rules r.tail[i] p.1 p.2 ∧ ∀ c ∈ p.2, ∀ a ∈ c, a ∈ word := by
        intro i
        obtain ⟨d, v, e1, e2⟩ := ih r.tail[i] (by simp)
        exact ⟨(d, v), e1, e2⟩
      choose f hf using hx
      have hall : DerivesAll rules r.tail (List.ofFn fun i => (f i).1) (List.ofFn fun i => (f i).2) := by
        rw [derivesAll_iff]
        refine ⟨by simp, by simp, fun i A d v g1 g2 g3 => ?_⟩
        obtain ⟨hi, rfl⟩ := List.getElem?_eq_some_iff.1 g1
        rw [List.getElem?_ofFn] at g2 g3
        simp only [hi, dif_pos, Option.some.injEq] at g2 g3
        subst g2 g3
        exact (hf ⟨i, hi⟩).1
      have hval : ∀ {i : Nat} {x : List (List T)}, (List.ofFn fun i => (f i).2)[i]? = some x → ∃ hi : i < r.tail.length, x = (f ⟨i, hi⟩).2 := by
        intro i x hx
        have hi := (List.getElem?_eq_some_iff.1 hx).1
        rw [List.length_ofFn] at hi
        rw [List.getElem?_ofFn] at hx
        simp only [hi, dif_pos, Option.some.injEq] at hx
        exact ⟨hi, hx.symm⟩
      cases hc : compose (fun i => (List.ofFn fun i => (f i).2)[i]?) r.composition with
      | none =>
        obtain ⟨i, j, g1, g2⟩ := compose_none hc
        obtain ⟨A, g3, r', g4, g5, g6⟩ := (lcfrs_var hg.lcfrs h1).1 g1
        obtain ⟨hi, rfl⟩ := List.getElem?_eq_some_iff.1 g3
        have := g2 (f ⟨i, hi⟩).2 (by rw [List.getElem?_ofFn]; simp [hi])
        have g7 := derives_length hg.lcfrs (hf ⟨i, hi⟩).1 g4 g5
        omega
      | some v =>
        refine ⟨_, v, .node h1 hall hc, fun c hc' a ha => ?_⟩
        rcases (mem_compose hc a).1 ⟨c, hc', ha⟩ with ⟨comp, g1, g2⟩ | ⟨i, j, g1, x, y, g2, g3, g4⟩
        · rcases (hg.normal r h1).2.2 with ⟨b, g3⟩ | g3
          · exact absurd (terminal_tail hg h1 g3) h2
          · obtain ⟨i, j, g4⟩ := g3 comp g1 _ g2
            cases g4
        · obtain ⟨hi, rfl⟩ := hval g2
          exact (hf ⟨i, hi⟩).2 y (List.mem_of_getElem? g3) a g4
  · rintro ⟨d, v, hd, hv⟩
    revert hv
    refine derives_induct (P := fun A d v => (∀ c ∈ v, ∀ a ∈ c, a ∈ word) → MarkedProductive rules word A) ?_ hd
    intro r ds args v hr hl1 hl2 ih hc hv
    rcases (hg.normal r hr).2.2 with ⟨a, ha⟩ | hvar
    · refine .term hr (terminalOf_eq.2 ha) ?_
      obtain ⟨c, h1, h2⟩ := (mem_compose hc a).2 (.inl ⟨[.t a], by simp [ha], by simp⟩)
      exact hv c h1 a h2
    · refine .inner hr ?_ fun n hn => ?_
      · rw [effTail_eq hg hr]
        exact tail_ne_nil hg hr hvar
      · rw [effTail_eq hg hr] at hn
        obtain ⟨i, hi⟩ := List.mem_iff_getElem?.1 hn
        have hlt := (List.getElem?_eq_some_iff.1 hi).1
        have e1 : ds[i]? = some ds[i] := List.getElem?_eq_getElem (by omega)
        have e2 : args[i]? = some args[i] := List.getElem?_eq_getElem (by omega)
        obtain ⟨g1, g2⟩ := ih i n _ _ hi e1 e2
        refine g2 fun c hc' a ha => ?_
        obtain ⟨j, hj⟩ := List.mem_iff_getElem?.1 hc'
        obtain ⟨r', g3, g4, _⟩ := derives_inv g1
        have hij : (i, j) ∈ varsOf r.composition := (lcfrs_var hg.lcfrs hr).2 ⟨n, hi, r', g3, g4, by
          rw [← derives_length hg.lcfrs g1 g3 g4]
          exact (List.getElem?_eq_some_iff.1 hj).1⟩
        obtain ⟨c', h1, h2⟩ := (mem_compose hc a).2 (.inr ⟨i, j, hij, _, c, e2, hj, ha⟩)
        exact hv c' h1 a h2

/-- The second loop marks the reachable nonterminals, if the initial one is productive. -/
theorem markedReachable_iff {rules : List (PMCFGRule N T W)} {init : N} (hg : ParserGrammar rules init) (word : List T)
    (hi : DerivesOver rules word init) (A : N) :
    MarkedReachable rules word init A ↔ UsefulReach rules word init A := by
  constructor
  · intro h
    induction h with
    | init => exact .init
    | @step r A h1 h2 h3 h4 h5 ih =>
      rw [effTail_eq hg h3] at h4 h5
      exact .step ih h3 (fun B hB => (markedProductive_iff hg word B).1 (h4 B hB)) h5
  · intro h
    have : MarkedReachable rules word init A ∧ MarkedProductive rules word A := by
      induction h with
      | init => exact ⟨.init, (markedProductive_iff hg word _).2 hi⟩
      | @step r A h1 h2 h3 h4 ih =>
        have h3' : ∀ B ∈ r.tail, MarkedProductive rules word B := fun B hB => (markedProductive_iff hg word B).2 (h3 B hB)
        refine ⟨.step (r := r) ih.1 ih.2 h2 ?_ ?_, h3' A h4⟩
        · rw [effTail_eq hg h2]
          exact h3'
        · rw [effTail_eq hg h2]
          exact h4
    exact this.1

theorem usefulReach_productive {rules : List (PMCFGRule N T W)} {init : N} {word : List T} (hi : DerivesOver rules word init) {A : N}
    (h : UsefulReach rules word init A) : DerivesOver rules word A := by
  cases h with
  | init => exact hi
  | step h1 h2 h3 h4 => exact h3 _ h4

theorem kept_iff {rules : List (PMCFGRule N T W)} {init : N} (hg : ParserGrammar rules init) (word : List T)
    (hi : DerivesOver rules word init) {r : PMCFGRule N T W} (hr : r ∈ rules) :
    Kept rules word init r ↔ UsefulReach rules word init r.head ∧ ∀ B ∈ r.tail, DerivesOver rules word B := by
  unfold Kept
  rw [markedReachable_iff hg word hi, markedProductive_iff hg, effTail_eq hg hr]
  simp only [markedProductive_iff hg]
  exact ⟨fun h => ⟨h.1, h.2.2⟩, fun h => ⟨h.1, usefulReach_productive hi h.1, h.2⟩⟩

theorem not_kept {rules : List (PMCFGRule N T W)} {init : N} (hg : ParserGrammar rules init) (word : List T)
    (hi : ¬ DerivesOver rules word init) (r : PMCFGRule N T W) : ¬ Kept rules word init r := by
  rintro ⟨h1, h2, _⟩
  have : ∀ A, MarkedReachable rules word init A → A = init := by
    intro A h
    induction h with
    | init => rfl
    | @step r A h1 h2 h3 h4 h5 ih => exact absurd ((markedProductive_iff hg word _).1 (ih ▸ h2)) hi
  exact hi ((markedProductive_iff hg word _).1 (this _ h1 ▸ h2))

/-- The terminals of the tuples of the children occur in the tuple of the derivation. -/
theorem child_terminals {rules : List (PMCFGRule N T W)} {init : N} (hg : IsLcfrs rules init) {r : PMCFGRule N T W} (hr : r ∈ rules)
    {args : List (List (List T))} {v : List (List T)} (hc : compose (fun i => args[i]?) r.composition = some v) {i : Nat} {n : N} {d : DTree (PMCFGRule N T W)}
    {x : List (List T)} (hi : r.tail[i]? = some n) (hd : Derives rules n d x) (hx : args[i]? = some x) {c : List T} {a : T} (hcx : c ∈ x) (ha : a ∈ c) :
    ∃ c ∈ v, a ∈ c := by
  obtain ⟨j, hj⟩ := List.mem_iff_getElem?.1 hcx
  obtain ⟨r', g3, g4, _⟩ := derives_inv hd
  have hij : (i, j) ∈ varsOf r.composition := (lcfrs_var hg hr).2 ⟨n, hi, r', g3, g4, by
    rw [← derives_length hg hd g3 g4]
    exact (List.getElem?_eq_some_iff.1 hj).1⟩
  exact (mem_compose hc a).2 (.inr ⟨i, j, hij, _, c, hx, hj, ha⟩)

/-- All rules of a derivation over the terminals of the word are useful. -/
theorem derives_useful {rules : List (PMCFGRule N T W)} {init : N} (hg : IsLcfrs rules init) {word : List T} {A : N} {d : DTree (PMCFGRule N T W)}
    {v : List (List T)} (hd : Derives rules A d v) : UsefulReach rules word init A → (∀ c ∈ v, ∀ a ∈ c, a ∈ word) → ∀ p r, d.at? p = some r →
      r ∈ rules ∧ UsefulReach rules word init r.head ∧ ∀ B ∈ r.tail, DerivesOver rules word B := by
  refine derives_induct (P := fun A d v => UsefulReach rules word init A → (∀ c ∈ v, ∀ a ∈ c, a ∈ word) → ∀ p r, d.at? p = some r →
      r ∈ rules ∧ UsefulReach rules word init r.head ∧ ∀ B ∈ r.tail, DerivesOver rules word B) ?_ hd
  intro r ds args v hr hl1 hl2 ih hc hA hv
  have hover : ∀ (i : Nat) B d x, r.tail[i]? = some B → ds[i]? = some d → args[i]? = some x → ∀ c ∈ x, ∀ a ∈ c, a ∈ word := by
    intro i B d x h1 h2 h3 c hcx a ha
    obtain ⟨c', h4, h5⟩ := child_terminals hg hr hc h1 (ih i B d x h1 h2 h3).1 h3 hcx ha
    exact hv c' h4 a h5
  have htail : ∀ B ∈ r.tail, DerivesOver rules word B := by
    intro B hB
    obtain ⟨i, hi⟩ := List.mem_iff_getElem?.1 hB
    have hlt := (List.getElem?_eq_some_iff.1 hi).1
    have e1 : ds[i]? = some ds[i] := List.getElem?_eq_getElem (by omega)
    have e2 : args[i]? = some args[i] := List.getElem?_eq_getElem (by omega)
    exact ⟨_, _, (ih i B _ _ hi e1 e2).1, hover i B _ _ hi e1 e2⟩
  intro p r' hp
  cases p with
  | nil =>
    simp only [DTree.at?, Option.some.injEq] at hp
    subst hp
    exact ⟨hr, hA, htail⟩
  | cons i p =>
    simp only [DTree.at?, Option.bind_eq_some_iff] at hp
    obtain ⟨d, h1, h2⟩ := hp
    have hlt := (List.getElem?_eq_some_iff.1 h1).1
    have e1 : r.tail[i]? = some (r.tail[i]'(by omega)) := List.getElem?_eq_getElem (by omega)
    have e2 : args[i]? = some (args[i]'(by omega)) := List.getElem?_eq_getElem (by omega)
    exact (ih i _ _ _ e1 h1 e2).2 (.step hA hr htail (List.mem_of_getElem? e1)) (hover i _ _ _ e1 h1 e2) p r' h2

/-! ### Totality of `new` -/

section
variable [DecidableEq N] [DecidableEq T]

omit [DecidableEq N] [DecidableEq T] in
theorem ruleIds_total (c : Composition T) : ∀ rid, (∀ x ∈ c, x ≠ []) → ∃ l, MaskBuild.ruleIds c rid = some l := by
  induction c with
  | nil => intro rid _; exact ⟨[], rfl⟩
  | cons x c ih =>
    intro rid h
    obtain ⟨l, hl⟩ := ih (rid + max (x.length - 1) 1) fun y hy => h y (by simp [hy])
    rw [MaskBuild.ruleIds, if_neg (by simpa using h x (by simp)), hl]
    exact ⟨_, rfl⟩

theorem maskRules_total (order : Nat → List Nat → List Nat) (rs : List (PMCFGRule N T W)) (h : ∀ r ∈ rs, ∀ c ∈ r.composition, c ≠ []) :
    ∀ k (b : MaskBuild N T), b.ints.values.Nodup → ∃ b', MaskBuild.rules order rs k b = some b' ∧ (∃ l, b'.ints.values = b.ints.values ++ l) ∧
      ∀ r ∈ rs, r.head ∈ b'.ints.values := by
  induction rs with
  | nil => intro k b _; exact ⟨b, rfl, ⟨[], by simp⟩, by simp⟩
  | cons r rs ih =>
    intro k b hnd
    obtain ⟨g1, g2, ⟨l₁, g3⟩, g4⟩ := MaskBuild.key_spec hnd r.head
    have : ∃ b₁, MaskBuild.rule (order k) r b = some b₁ ∧ b₁.ints.values.Nodup ∧ ∃ l₂, b₁.ints.values = (b.key r.head).1.ints.values ++ l₂ := by
      unfold MaskBuild.rule
      cases ht : MaskBuild.terminalOf r.composition with
      | some a => exact ⟨_, rfl, g1, [], by simp⟩
      | none =>
        obtain ⟨l, hl⟩ := ruleIds_total r.composition (b.key r.head).1.rid (h r (by simp))
        simp only [hl]
        obtain ⟨e1, _, e2, _⟩ := MaskBuild.keys_spec (b := { (b.key r.head).1 with rid := (b.key r.head).1.rid + l.length }) r.tail g1
        exact ⟨_, rfl, e1, e2⟩
    obtain ⟨b₁, h1, h2, l₂, h3⟩ := this
    obtain ⟨b', h4, ⟨l₃, h5⟩, h6⟩ := ih (fun r' hr' => h r' (by simp [hr'])) (k + 1) b₁ h2
    refine ⟨b', by simp only [MaskBuild.rules, h1]; exact h4, ⟨l₁ ++ l₂ ++ l₃, by rw [h5, h3, g3]; simp⟩, fun r' hr' => ?_⟩
    rcases List.mem_cons.1 hr' with rfl | hr'
    · rw [h5, h3]
      exact List.mem_append_left _ (List.mem_append_left _ (List.mem_of_getElem? g2))
    · exact h6 r' hr'

/-- `new` does not panic if no component is empty and the initial nonterminal has a rule. -/
theorem maskNew_total (order : Nat → List Nat → List Nat) {rs : List (PMCFGRule N T W)} {init : N} (h : ∀ r ∈ rs, ∀ c ∈ r.composition, c ≠ [])
    (hi : ∃ r ∈ rs, r.head = init) : ∃ b, RuleMaskBuilder.new order rs init = some b := by
  obtain ⟨m, h1, _, h2⟩ := maskRules_total order rs h 0 MaskBuild.empty (by simp [MaskBuild.empty, Integeriser.new])
  obtain ⟨r, hr, rfl⟩ := hi
  have : ∃ q, m.ints.findKey r.head = some q := by
    unfold Integeriser.findKey
    rw [← Option.isSome_iff_exists, List.findIdx?_isSome, List.any_eq_true]
    exact ⟨r.head, h2 r hr, by simp⟩
  obtain ⟨q, hq⟩ := this
  unfold RuleMaskBuilder.new
  rw [h1, Option.bind_some, hq]
  exact ⟨_, rfl⟩

end

/-! ### Identifiers of productions -/

theorem idOffset_mono_succ {rs : List (PMCFGRule N T W)} {k k' : Nat} {r : PMCFGRule N T W} (h : rs[k]? = some r) (hk : k < k') :
    idOffset rs k + idCount r ≤ idOffset rs k' := by
  have h1 : idOffset rs (k + 1) = idOffset rs k + idCount r := by
    unfold idOffset
    rw [List.take_add_one, h, Option.toList_some, List.map_append, List.sum_append]
    simp
  rw [← h1]
  unfold idOffset
  obtain ⟨m, rfl⟩ := Nat.exists_eq_add_of_le (show k + 1 ≤ k' from hk)
  have : rs.take (k + 1 + m) = rs.take (k + 1) ++ (rs.drop (k + 1)).take m := List.take_add
  rw [this, List.map_append, List.sum_append]
  omega

theorem leftBranch_length [One W] (inner : Nat → CsState N) (lhs : CsState N) (outer : BracketContent) (qs : List (CsState N × BracketContent)) :
    ∀ (off : Nat) (q₀ : CsState N × BracketContent) (w : W), (leftBranch (T := T) inner lhs outer off q₀ qs w).length = qs.length := by
  induction qs with
  | nil => intro off q₀ w; simp [leftBranch]
  | cons q qs ih =>
    intro off q₀ w
    cases qs with
    | nil => simp [leftBranch]
    | cons q' qs => rw [leftBranch, List.length_cons, ih]; · rfl
                    · simp

theorem componentProds_length [One W] {rid cid : Nat} {head : N} {tail : List N} {c : List (VarT T)} {w : W} {ps : List (CsProd N T W × TdBrackets)}
    (h : componentProds rid cid head tail c w = some ps) : ps.length = max (c.length - 1) 1 := by
  unfold componentProds at h
  split at h
  · exact absurd h (by simp)
  · simp only [Option.some.injEq] at h
    subst h
    simp
  · rw [Option.map_eq_some_iff] at h
    obtain ⟨v, _, rfl⟩ := h
    simp
  · split at h
    · rename_i vs h1 h2
      rw [Option.some.injEq] at h
      subst h
      rw [leftBranch_length, mapM_length h2]
      simp
    · exact absurd h (by simp)

theorem componentsProds_length [One W] {rid : Nat} {head : N} {tail : List N} (cs : List (List (VarT T) × W)) : ∀ {cid : Nat} {ps : List (CsProd N T W × TdBrackets)},
    componentsProds rid head tail cs cid = some ps → ps.length = (cs.map fun c => max (c.1.length - 1) 1).sum := by
  induction cs with
  | nil => intro cid ps h; simp only [componentsProds, Option.some.injEq] at h; simp [← h]
  | cons c cs ih =>
    intro cid ps h
    obtain ⟨c, w⟩ := c
    simp only [componentsProds] at h
    split at h
    · rename_i ps₁ ps₂ h1 h2
      rw [Option.some.injEq] at h
      subst h
      rw [List.length_append, componentProds_length h1, ih h2]
      simp
    · exact absurd h (by simp)

/-- The number of productions of a rule is the number of its identifiers in the filter. -/
theorem ruleProds_length [One W] {factorize : W → Nat → List W} (hf : ∀ w n, (factorize w n).length = n) {rid : Nat} {r : PMCFGRule N T W}
    {ps : List (CsProd N T W × TdBrackets)}
    (h : componentsProds rid r.head r.tail (r.composition.zip (factorize r.weight r.composition.length)) 0 = some ps) : ps.length = idCount r := by
  rw [componentsProds_length _ h]
  have : ((r.composition.zip (factorize r.weight r.composition.length)).map fun c => max (c.1.length - 1) 1) =
      r.composition.map fun c => max (c.length - 1) 1 := by
    have h1 : (r.composition.zip (factorize r.weight r.composition.length)).map Prod.fst = r.composition :=
      List.map_fst_zip (by rw [hf])
    conv_rhs => rw [← h1]
    rw [List.map_map]
    rfl
  rw [this]
  unfold idCount
  cases hc : MaskBuild.terminalOf r.composition with
  | none => simp
  | some a =>
    rw [terminalOf_eq] at hc
    simp [hc]

theorem grammarProds_append [One W] {factorize : W → Nat → List W} (l₁ l₂ : List (Nat × PMCFGRule N T W)) {ps : List (CsProd N T W × TdBrackets)} :
    grammarProds factorize (l₁ ++ l₂) = some ps ↔
      ∃ ps₁ ps₂, grammarProds factorize l₁ = some ps₁ ∧ grammarProds factorize l₂ = some ps₂ ∧ ps = ps₁ ++ ps₂ := by
  induction l₁ generalizing ps with
  | nil => simp [grammarProds]
  | cons r l₁ ih =>
    obtain ⟨rid, r⟩ := r
    simp only [List.cons_append, grammarProds]
    constructor
    · intro h
      split at h
      · rename_i p₁ p₂ h1 h2
        rw [Option.some.injEq] at h
        obtain ⟨q₁, q₂, g1, g2, rfl⟩ := ih.1 h2
        exact ⟨p₁ ++ q₁, q₂, by simp [h1, g1], g2, by rw [← h, List.append_assoc]⟩
      · exact absurd h (by simp)
    · rintro ⟨ps₁, ps₂, h1, h2, rfl⟩
      split at h1
      · rename_i p₁ p₂ g1 g2
        rw [Option.some.injEq] at h1
        rw [g1, ih.2 ⟨p₂, ps₂, g2, h2, rfl⟩, ← h1]
        simp
      · exact absurd h1 (by simp)

theorem grammarProds_length [One W] {factorize : W → Nat → List W} (hf : ∀ w n, (factorize w n).length = n) (rs : List (Nat × PMCFGRule N T W)) :
    ∀ {ps : List (CsProd N T W × TdBrackets)}, grammarProds factorize rs = some ps → ps.length = (rs.map fun r => idCount r.2).sum := by
  induction rs with
  | nil => intro ps h; simp only [grammarProds, Option.some.injEq] at h; simp [← h]
  | cons r rs ih =>
    intro ps h
    obtain ⟨rid, r⟩ := r
    simp only [grammarProds] at h
    split at h
    · rename_i p₁ p₂ h1 h2
      rw [Option.some.injEq] at h
      subst h
      rw [List.length_append, ruleProds_length hf h1, ih h2]
      simp
    · exact absurd h (by simp)

end

end Rustomata
