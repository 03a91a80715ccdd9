import Verif.Spec.Split
import Verif.Props.Conversion

/-!
# C96: the context-free grammar of an arbitrary PMCFG
-/

namespace Rustomata.Props
open Rustomata Rustomata.Spec
variable {N T W : Type _}

/-! ### Splitting -/

private theorem splitLetters (tail : List N) (c : List (VarT T)) (l : List (LetterT N T)) (h : cfgLetters tail c = some l) (pre : List N) :
    cfgLetters (pre ++ occurrences tail c) (numberVars pre.length c) = some l := by
  induction c generalizing l pre with
  | nil => simpa [cfgLetters, numberVars] using h
  | cons x c ih =>
    cases x with
    | t a =>
      simp only [cfgLetters] at h
      obtain ⟨l', hl', rfl⟩ := Option.map_eq_some_iff.1 h
      have : occurrences tail (.t a :: c) = occurrences tail c := by simp [occurrences, varsOf]
      rw [this, numberVars, cfgLetters, ih l' hl' pre]
      rfl
    | var i j =>
      cases j with
      | succ j => simp [cfgLetters] at h
      | zero =>
        simp only [cfgLetters] at h
        split at h
        · cases h
        · rename_i A hA
          obtain ⟨l', hl', rfl⟩ := Option.map_eq_some_iff.1 h
          have : occurrences tail (.var i 0 :: c) = A :: occurrences tail c := by simp [occurrences, varsOf, hA]
          have h2 := ih l' hl' (pre ++ [A])
          rw [List.append_assoc, List.length_append] at h2
          rw [this, numberVars, cfgLetters]
          simp only [List.length_append, List.length_cons, List.length_nil, Nat.zero_add, List.cons_append, List.nil_append] at h2
          simp [h2]

private theorem splitVars (tail : List N) (c : List (VarT T)) (l : List (LetterT N T)) (h : cfgLetters tail c = some l) (n : Nat) :
    varsOf [numberVars n c] = (List.range' n (occurrences tail c).length).map fun i => (i, 0) := by
  induction c generalizing l n with
  | nil => simp [numberVars, varsOf, occurrences]
  | cons x c ih =>
    cases x with
    | t a =>
      simp only [cfgLetters] at h
      obtain ⟨l', hl', rfl⟩ := Option.map_eq_some_iff.1 h
      have : occurrences tail (.t a :: c) = occurrences tail c := by simp [occurrences, varsOf]
      rw [this, ← ih l' hl' n, numberVars, varsOf_cons]
      rfl
    | var i j =>
      cases j with
      | succ j => simp [cfgLetters] at h
      | zero =>
        simp only [cfgLetters] at h
        split at h
        · cases h
        · rename_i A hA
          obtain ⟨l', hl', rfl⟩ := Option.map_eq_some_iff.1 h
          have : occurrences tail (.var i 0 :: c) = A :: occurrences tail c := by simp [occurrences, varsOf, hA]
          rw [this, numberVars, varsOf_cons, ih l' hl' (n + 1)]
          simp [List.range'_succ]

private theorem splitRule_cfg {r : PMCFGRule N T W} {r' : CFGRule N T W} (h : cfgRule r = some r') : cfgRule (splitRule r) = some r' := by
  obtain ⟨c, hc, hl, hh, hw⟩ := cfgRule_some h
  have := splitLetters r.tail c _ hl []
  simp only [List.nil_append, List.length_nil] at this
  simp only [cfgRule, splitRule, hc, List.flatten_cons, List.flatten_nil, List.append_nil, this, Option.map_some, Option.some_inj]
  cases r'
  simp_all

private theorem split_ofPmcfg {g : PMCFG N T W} {g' : CFG N T W} (hg : CFG.ofPmcfg g = some g') :
    CFG.ofPmcfg ⟨g.initial, g.rules.map splitRule⟩ = some g' := by
  unfold CFG.ofPmcfg at hg ⊢
  obtain ⟨rs, hrs, rfl⟩ := Option.map_eq_some_iff.1 hg
  have : (g.rules.map splitRule).mapM cfgRule = some rs := by
    rw [mapM_some_iff] at hrs ⊢
    rw [List.forall₂_map_left_iff]
    exact hrs.imp fun _ _ h => splitRule_cfg h
  rw [this]
  rfl

/-- **C96** For each PMCFG that is converted, the CFG has the weighted derivations of the grammar in which each occurrence of a variable has its own nonterminal. -/
theorem C96_split [CommMonoid W] (g : PMCFG N T W) (g' : CFG N T W) (hg : CFG.ofPmcfg g = some g') (w : List T) (u : W) :
    (∃ S ∈ g'.initial, ∃ rs, Leftmost g' [.label S] rs w ∧ ruleWeight rs = u) ↔ PGenerates g.initial (g.rules.map splitRule) w u := by
  refine (C25_cfg_language_partial ⟨g.initial, g.rules.map splitRule⟩ g' (split_ofPmcfg hg) ?_ w u).symm
  simp only [List.mem_map]
  rintro _ ⟨r, hr, rfl⟩
  obtain ⟨r', -, hrr'⟩ := (mem_ofPmcfg hg).2.2 r hr
  obtain ⟨c, hc, hl, -⟩ := cfgRule_some hrr'
  have := splitVars r.tail c _ hl 0
  simp only [splitRule, hc, List.flatten_cons, List.flatten_nil, List.append_nil, this, List.range_eq_range']
  exact List.Perm.refl _

/-! ### Words -/

/-- **C96** Each word of a PMCFG that is converted is a word of the CFG. -/
theorem C96_over [Monoid W] (g : PMCFG N T W) (g' : CFG N T W) (hg : CFG.ofPmcfg g = some g') (w : List T) (u : W) (h : PGenerates g.initial g.rules w u) :
    ∃ S ∈ g'.initial, ∃ rs, Leftmost g' [.label S] rs w := by
  obtain ⟨S, hS, d, hd, -⟩ := h
  obtain ⟨hi, _, hrules⟩ := mem_ofPmcfg hg
  refine ⟨S, hi ▸ hS, ?_⟩
  suffices h : ∃ w' rs, [w] = [w'] ∧ Leftmost g' [.label S] rs w' by
    obtain ⟨w', rs, h1, h2⟩ := h
    cases h1
    exact ⟨rs, h2⟩
  refine Derives.induct (P := fun A d v => ∃ w rs, v = [w] ∧ Leftmost g' [.label A] rs w) ?_ hd
  intro r ds args v hr hch hl1 hl2 hv
  obtain ⟨r', hr', hrr'⟩ := hrules r hr
  obtain ⟨c, hc, hl, hh, hwt⟩ := cfgRule_some hrr'
  have hch' := List.forall₂_iff_get.1 hch
  have hex : ∀ i, ∃ p : List T × List (CFGRule N T W), ∀ (hi : i < r.tail.length), args[i]'(by omega) = [p.1] ∧ Leftmost g' [.label r.tail[i]] p.2 p.1 := by
    intro i
    by_cases hi : i < r.tail.length
    · obtain ⟨w, rs, h1, h2⟩ := (hch'.2 i hi (by simp; omega)).2
      simp only [List.get_eq_getElem, List.getElem_zip] at h1 h2
      exact ⟨(w, rs), fun _ => ⟨h1, h2⟩⟩
    · exact ⟨([], []), fun h => absurd h hi⟩
  choose p hp using hex
  rw [hc] at hv
  obtain ⟨w, hw, rfl⟩ : ∃ w, substAll (fun i => args[i]?) c = some w ∧ v = [w] := by
    unfold compose at hv
    rw [List.mapM_cons] at hv
    simp only [List.mapM_nil, Option.pure_def, Option.bind_eq_bind, Option.bind_some, Option.bind_eq_some_iff, Option.some_inj] at hv
    obtain ⟨w, hw, rfl⟩ := hv
    exact ⟨w, hw, rfl⟩
  have hlm := letters_forward (G := g') (tail := r.tail) (ws := fun i => (p i).1) (rss := fun i => (p i).2)
    (fun i A hA => by
      obtain ⟨hi, rfl⟩ := List.getElem?_eq_some_iff.1 hA
      exact (hp i hi).2) hl (args := fun i => args[i]?) (fun i A hA => by
      obtain ⟨hi, rfl⟩ := List.getElem?_eq_some_iff.1 hA
      rw [List.getElem?_eq_getElem (by omega), (hp i hi).1]) hw
  refine ⟨w, r' :: (varsOf [c]).flatMap fun v => (p v.1).2, rfl, ?_⟩
  rw [← hh]
  exact .expand hr' (by simpa using hlm)

private theorem derivesAll_range {rules : List (PMCFGRule N T W)} {D : Nat → DTree (PMCFGRule N T W)} {vs : Nat → List (List T)} (l : List N) (k : Nat)
    (h : ∀ i A, l[i]? = some A → Derives rules A (D (k + i)) (vs (k + i))) :
    DerivesAll rules l ((List.range' k l.length).map D) ((List.range' k l.length).map vs) := by
  induction l generalizing k with
  | nil => exact .nil
  | cons B l ih =>
    simp only [List.length_cons, List.range'_succ, List.map_cons]
    refine .cons (by simpa using h 0 B (by simp)) (ih (k + 1) fun i A hA => ?_)
    have := h (i + 1) A (by simpa using hA)
    simpa [Nat.add_assoc, Nat.add_comm 1 i] using this

private theorem letters_children {G : CFG N T W} {rules : List (PMCFGRule N T W)} {tail : List N} (d₀ : DTree (PMCFGRule N T W)) {c : List (VarT T)} {l : List (LetterT N T)}
    (hl : cfgLetters tail c = some l) (hnd : (varsOf [c]).Nodup) {rs w} (hlm : Leftmost G l rs w)
    (ih : ∀ A rs₁ w₁, rs₁.length ≤ rs.length → Leftmost G [.label A] rs₁ w₁ → ∃ d, Derives rules A d [w₁]) :
    ∃ (D : Nat → DTree (PMCFGRule N T W)) (ws : Nat → List T),
      (∀ i, (i, 0) ∈ varsOf [c] → ∃ A, tail[i]? = some A ∧ Derives rules A (D i) [ws i]) ∧
      ∀ args, (∀ i, (i, 0) ∈ varsOf [c] → args i = some [ws i]) → substAll args c = some w := by
  induction c generalizing l rs w with
  | nil =>
    simp [cfgLetters] at hl; subst hl
    cases hlm
    exact ⟨fun _ => d₀, fun _ => [], by simp [varsOf], by simp [substAll]⟩
  | cons x c ihc =>
    rw [varsOf_cons] at hnd ⊢
    cases x with
    | t a =>
      simp only [cfgLetters] at hl
      obtain ⟨l', hl', rfl⟩ := Option.map_eq_some_iff.1 hl
      cases hlm with
      | @read _ _ _ w hlm =>
        obtain ⟨D, ws, h1, h2⟩ := ihc hl' (by simpa using hnd) hlm ih
        refine ⟨D, ws, by simpa using h1, fun args h => ?_⟩
        have h4 := h2 args (by simpa using h)
        unfold substAll at h4 ⊢
        obtain ⟨ys, hys, rfl⟩ := Option.map_eq_some_iff.1 h4
        simp [List.mapM_cons, subst, hys]
    | var i j =>
      cases j with
      | succ j => simp [cfgLetters] at hl
      | zero =>
        simp only [cfgLetters] at hl
        split at hl
        · cases hl
        · rename_i A hA
          obtain ⟨l', hl', rfl⟩ := Option.map_eq_some_iff.1 hl
          obtain ⟨rs₁, rs₂, w₁, w₂, rfl, rfl, hlm1, hlm2⟩ := Leftmost.split (γ := [.label A]) (δ := l') (by simpa using hlm)
          simp only [List.cons_append, List.nil_append, List.nodup_cons] at hnd
          obtain ⟨D, ws, h1, h2⟩ := ihc hl' hnd.2 hlm2 (fun B rs' w' hle h => ih B rs' w' (by simp; omega) h)
          obtain ⟨d, hd⟩ := ih A rs₁ w₁ (by simp) hlm1
          have hne : ∀ k, (k, 0) ∈ varsOf [c] → k ≠ i := by rintro k hk rfl; exact hnd.1 hk
          refine ⟨Function.update D i d, Function.update ws i w₁, ?_, fun args h => ?_⟩
          · intro k hk
            rcases List.mem_cons.1 hk with hk | hk
            · simp at hk; subst hk; exact ⟨A, hA, by simpa using hd⟩
            · rw [Function.update_of_ne (hne k hk), Function.update_of_ne (hne k hk)]; exact h1 k hk
          · have h4 := h2 args fun k hk => by
              rw [h k (by simp [hk]), Function.update_of_ne (hne k hk)]
            have h5 := h i (by simp)
            unfold substAll at h4 ⊢
            obtain ⟨ys, hys, rfl⟩ := Option.map_eq_some_iff.1 h4
            simp [List.mapM_cons, subst, hys, h5]

private theorem leftmost_noncopying {g : PMCFG N T W} {g' : CFG N T W} (hg : CFG.ofPmcfg g = some g') (hc : NonCopying g.rules) (hp : AllProductive g.rules)
    (n : Nat) {A rs w} (hn : rs.length ≤ n) (hlm : Leftmost g' [.label A] rs w) : ∃ d, Derives g.rules A d [w] := by
  obtain ⟨_, hrules, _⟩ := mem_ofPmcfg hg
  induction n generalizing A rs w with
  | zero => cases hlm; simp at hn
  | succ n ih =>
    cases hlm with
    | @expand r' _ rs w hr' hlm =>
      obtain ⟨r, hr, hrr'⟩ := hrules r' hr'
      obtain ⟨c, hcc, hl, hh, hwt⟩ := cfgRule_some hrr'
      have hnd := hc r hr
      rw [hcc] at hnd
      obtain ⟨D, ws, h1, h2⟩ := letters_children (rules := g.rules) (.node r []) hl hnd (by simpa using hlm) (fun A rs₁ w₁ hle h => ih (by simp at hn; omega) h)
      have hex : ∀ i, ∃ p : DTree (PMCFGRule N T W) × List (List T), (∀ A, r.tail[i]? = some A → Derives g.rules A p.1 p.2) ∧ ((i, 0) ∈ varsOf [c] → p.2 = [ws i]) := by
        intro i
        by_cases hi : (i, 0) ∈ varsOf [c]
        · obtain ⟨A, hA, hd⟩ := h1 i hi
          exact ⟨(D i, [ws i]), fun B hB => by rw [hA] at hB; cases hB; exact hd, fun _ => rfl⟩
        · cases hA : r.tail[i]? with
          | none => exact ⟨(.node r [], []), by simp, fun h => absurd h hi⟩
          | some A =>
            obtain ⟨d, v, hd⟩ := hp r hr A (List.mem_of_getElem? hA)
            exact ⟨(d, v), fun B hB => by cases hB; exact hd, fun h => absurd h hi⟩
      choose p hp1 hp2 using hex
      refine ⟨.node r ((List.range' 0 r.tail.length).map fun i => (p i).1), ?_⟩
      rw [hh]
      refine .node (args := (List.range' 0 r.tail.length).map fun i => (p i).2) hr (derivesAll_range r.tail 0 fun i A hA => ?_) ?_
      · rw [Nat.zero_add]; exact hp1 i A hA
      · rw [hcc]
        refine compose_single (h2 _ fun i hi => ?_)
        obtain ⟨A, hA, -⟩ := h1 i hi
        have hlt := (List.getElem?_eq_some_iff.1 hA).1
        rw [← List.range_eq_range']
        simp [hlt, hp2 i hi]

/-- **C96** If no rule copies and all nonterminals of right-hand sides are productive, then the CFG has exactly the words of the PMCFG, also for rules that drop nonterminals. -/
theorem C96_noncopying [Monoid W] (g : PMCFG N T W) (g' : CFG N T W) (hg : CFG.ofPmcfg g = some g') (hc : NonCopying g.rules) (hp : AllProductive g.rules) (w : List T) :
    (∃ S ∈ g'.initial, ∃ rs, Leftmost g' [.label S] rs w) ↔ ∃ u, PGenerates g.initial g.rules w u := by
  constructor
  · rintro ⟨S, hS, rs, h⟩
    obtain ⟨d, hd⟩ := leftmost_noncopying hg hc hp rs.length le_rfl h
    exact ⟨_, S, (mem_ofPmcfg hg).1 ▸ hS, d, hd, rfl⟩
  · rintro ⟨u, h⟩
    exact C96_over g g' hg w u h

/-- A copying grammar: its words and those of the split grammar. -/
example :
    let g : PMCFG Nat Nat Nat := ⟨[0], [⟨0, [1], [[.var 0 0, .var 0 0]], 1⟩, ⟨1, [], [[.t 0]], 1⟩, ⟨1, [], [[.t 1]], 1⟩]⟩
    (CFG.ofPmcfg g).isSome ∧ (g.rules.map splitRule).map (fun r => (r.tail, r.composition)) = [([1, 1], [[.var 0 0, .var 1 0]]), ([], [[.t 0]]), ([], [[.t 1]])] := by
  decide

/-- A deleting grammar as in the hypotheses of `C96_noncopying`. -/
example :
    let g : PMCFG Nat Nat Nat := ⟨[0], [⟨0, [1, 1], [[.var 1 0]], 2⟩, ⟨1, [], [[.t 5]], 3⟩]⟩
    (CFG.ofPmcfg g).isSome ∧ NonCopying g.rules ∧ AllProductive g.rules := by
  refine ⟨rfl, by unfold NonCopying; decide, ?_⟩
  have h1 : Derives (T := Nat) [(⟨0, [1, 1], [[.var 1 0]], 2⟩ : PMCFGRule Nat Nat Nat), ⟨1, [], [[.t 5]], 3⟩] 1 (.node ⟨1, [], [[.t 5]], 3⟩ []) [[5]] :=
    .node (r := ⟨1, [], [[.t 5]], 3⟩) (by simp) .nil rfl
  intro r hr A hA
  simp only [List.mem_cons, List.not_mem_nil, or_false] at hr
  rcases hr with rfl | rfl
  · simp only [List.mem_cons, List.not_mem_nil, or_false, or_self] at hA
    subst hA
    exact ⟨_, _, h1⟩
  · cases hA

end Rustomata.Props
