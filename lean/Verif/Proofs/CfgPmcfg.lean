import Verif.Proofs.Lcfrs
import Verif.Spec.Cfg
import Verif.Proofs.Cfg
import Mathlib.Algebra.BigOperators.Group.List.Lemmas

/-!
# Proofs about the conversion of PMCFG to CFG
-/

namespace Rustomata
open Spec
variable {N T W : Type _}

/-- Each nonterminal of the right-hand side is used exactly once, and nothing else is used. -/
def Simple (r : PMCFGRule N T W) : Prop :=
  (varsOf r.composition).Perm ((List.range r.tail.length).map fun i => (i, 0))

theorem varsOf_cons (x : VarT T) (c : List (VarT T)) :
    varsOf [x :: c] = (match x with | .var i j => [(i, j)] | .t _ => []) ++ varsOf [c] := by
  cases x <;> simp [varsOf]

/-- Leftmost derivations of concatenations. -/
theorem Leftmost.split {G : CFG N T W} {γ δ : List (LetterT N T)} {rs w} (h : Leftmost G (γ ++ δ) rs w) :
    ∃ rs₁ rs₂ w₁ w₂, rs = rs₁ ++ rs₂ ∧ w = w₁ ++ w₂ ∧ Leftmost G γ rs₁ w₁ ∧ Leftmost G δ rs₂ w₂ := by
  generalize hx : γ ++ δ = x at h
  induction h generalizing γ with
  | nil => simp at hx; obtain ⟨rfl, rfl⟩ := hx; exact ⟨[], [], [], [], rfl, rfl, .nil, .nil⟩
  | @read t γ' rs w h ih =>
    cases γ with
    | nil => simp at hx; subst hx; exact ⟨[], rs, [], t :: w, rfl, rfl, .nil, .read h⟩
    | cons y γ =>
      simp at hx
      obtain ⟨rfl, hx⟩ := hx
      obtain ⟨rs₁, rs₂, w₁, w₂, rfl, rfl, h1, h2⟩ := ih hx
      exact ⟨rs₁, rs₂, t :: w₁, w₂, rfl, rfl, .read h1, h2⟩
  | @expand r γ' rs w hr h ih =>
    cases γ with
    | nil => simp at hx; subst hx; exact ⟨[], r :: rs, [], w, rfl, rfl, .nil, .expand hr h⟩
    | cons y γ =>
      simp at hx
      obtain ⟨rfl, hx⟩ := hx
      obtain ⟨rs₁, rs₂, w₁, w₂, rfl, rfl, h1, h2⟩ := ih (γ := r.composition ++ γ) (by rw [List.append_assoc, hx])
      exact ⟨r :: rs₁, rs₂, w₁, w₂, rfl, rfl, .expand hr h1, h2⟩

theorem Leftmost.append {G : CFG N T W} {γ δ : List (LetterT N T)} {rs rs' w w'} (h : Leftmost G γ rs w) (h' : Leftmost G δ rs' w') :
    Leftmost G (γ ++ δ) (rs ++ rs') (w ++ w') := by
  induction h with
  | nil => exact h'
  | read _ ih => exact .read ih
  | expand hr _ ih => exact .expand hr (by simpa using ih)

theorem forall₂_mem_left {A B : Type _} {R : A → B → Prop} {l : List A} {r : List B} (h : List.Forall₂ R l r) {x : A} (hx : x ∈ l) :
    ∃ y ∈ r, R x y := by
  induction h with
  | nil => simp at hx
  | cons hr _ ih =>
    rcases List.mem_cons.1 hx with rfl | hx
    · exact ⟨_, by simp, hr⟩
    · obtain ⟨y, hy, h⟩ := ih hx; exact ⟨y, by simp [hy], h⟩

theorem forall₂_mem_right {A B : Type _} {R : A → B → Prop} {l : List A} {r : List B} (h : List.Forall₂ R l r) {y : B} (hy : y ∈ r) :
    ∃ x ∈ l, R x y := by
  induction h with
  | nil => simp at hy
  | cons hr _ ih =>
    rcases List.mem_cons.1 hy with rfl | hy
    · exact ⟨_, by simp, hr⟩
    · obtain ⟨x, hx, h⟩ := ih hy; exact ⟨x, by simp [hx], h⟩

theorem mem_ofPmcfg {g : PMCFG N T W} {g' : CFG N T W} (h : CFG.ofPmcfg g = some g') :
    g'.initial = g.initial ∧ (∀ r' ∈ g'.rules, ∃ r ∈ g.rules, cfgRule r = some r') ∧
      ∀ r ∈ g.rules, ∃ r' ∈ g'.rules, cfgRule r = some r' := by
  unfold CFG.ofPmcfg at h
  obtain ⟨rs, hrs, rfl⟩ := Option.map_eq_some_iff.1 h
  have := mapM_some_iff.1 hrs
  exact ⟨rfl, fun r' hr' => forall₂_mem_right this hr', fun r hr => forall₂_mem_left this hr⟩

theorem cfgRule_some {r : PMCFGRule N T W} {r' : CFGRule N T W} (h : cfgRule r = some r') :
    ∃ c, r.composition = [c] ∧ cfgLetters r.tail c = some r'.composition ∧ r'.head = r.head ∧ r'.weight = r.weight := by
  unfold cfgRule at h
  split at h
  · rename_i c hc
    obtain ⟨l, hl, rfl⟩ := Option.map_eq_some_iff.1 h
    exact ⟨c, hc, hl, rfl, rfl⟩
  · cases h

section
variable [CommMonoid W]

theorem ruleWeight_append (rs rs' : List (CFGRule N T W)) : ruleWeight (rs ++ rs') = ruleWeight rs * ruleWeight rs' := by
  simp [ruleWeight]

omit [CommMonoid W] in
/-- From derivations of the children to a leftmost derivation of the letters of a component. -/
theorem letters_forward {G : CFG N T W} {tail : List N} {ws : Nat → List T} {rss : Nat → List (CFGRule N T W)}
    (h : ∀ i A, tail[i]? = some A → Leftmost G [.label A] (rss i) (ws i)) {c : List (VarT T)} {l : List (LetterT N T)}
    (hl : cfgLetters tail c = some l) {w : List T} {args : Nat → Option (List (List T))}
    (hargs : ∀ i A, tail[i]? = some A → args i = some [ws i]) (hw : substAll args c = some w) :
    Leftmost G l ((varsOf [c]).flatMap fun v => rss v.1) w := by
  induction c generalizing l w with
  | nil => simp [cfgLetters] at hl; simp [substAll] at hw; subst hl hw; exact .nil
  | cons x c ih =>
    unfold substAll at hw
    rw [List.mapM_cons] at hw
    obtain ⟨ys, hys, rfl⟩ := Option.map_eq_some_iff.1 hw
    simp only [Option.pure_def, Option.bind_eq_bind, Option.bind_eq_some_iff, Option.some_inj] at hys
    obtain ⟨y, hy, ys', hys', rfl⟩ := hys
    have hw' : substAll args c = some ys'.flatten := by simp [substAll, hys']
    rw [varsOf_cons]
    cases x with
    | t a =>
      simp only [cfgLetters] at hl
      obtain ⟨l', hl', rfl⟩ := Option.map_eq_some_iff.1 hl
      simp only [subst, Option.some_inj] at hy
      subst hy
      simpa using Leftmost.read (ih hl' hw')
    | var i j =>
      cases j with
      | succ j => simp [cfgLetters] at hl
      | zero =>
        simp only [cfgLetters] at hl
        split at hl
        · cases hl
        · rename_i A hA
          obtain ⟨l', hl', rfl⟩ := Option.map_eq_some_iff.1 hl
          simp only [subst, hargs i A hA, Option.bind_some, List.getElem?_cons_zero, Option.some_inj] at hy
          subst hy
          simpa using Leftmost.append (h i A hA) (ih hl' hw')

theorem weights_eq (ds : List (DTree (PMCFGRule N T W))) : weights ds = (ds.map DTree.weight).prod := by
  induction ds with
  | nil => simp [weights]
  | cons d ds ih => simp [weights, ih]

theorem prod_map_range {α : Type _} (l : List α) (f : α → W) (g : Nat → W) (h : ∀ i (hi : i < l.length), g i = f l[i]) :
    ((List.range l.length).map g).prod = (l.map f).prod := by
  congr 1
  apply List.ext_getElem
  · simp
  · intro i h1 h2; simp at h1; simp [h i h1]

theorem ruleWeight_flatMap {α : Type _} (l : List α) (f : α → List (CFGRule N T W)) :
    ruleWeight (l.flatMap f) = (l.map fun x => ruleWeight (f x)).prod := by
  induction l with
  | nil => simp [ruleWeight]
  | cons x l ih => simp [ruleWeight_append, ih]

theorem derives_leftmost {g : PMCFG N T W} {g' : CFG N T W} (hg : CFG.ofPmcfg g = some g') (hs : ∀ r ∈ g.rules, Simple r)
    {A d v} (hd : Derives g.rules A d v) :
    ∃ w rs, v = [w] ∧ Leftmost g' [.label A] rs w ∧ ruleWeight rs = d.weight := by
  obtain ⟨_, _, hrules⟩ := mem_ofPmcfg hg
  refine Derives.induct (P := fun A d v => ∃ w rs, v = [w] ∧ Leftmost g' [.label A] rs w ∧ ruleWeight rs = d.weight) ?_ hd
  intro r ds args v hr hch hl1 hl2 hv
  obtain ⟨r', hr', hrr'⟩ := hrules r hr
  obtain ⟨c, hc, hl, hh, hwt⟩ := cfgRule_some hrr'
  have hch' := List.forall₂_iff_get.1 hch
  have hex : ∀ i, ∃ p : List T × List (CFGRule N T W), ∀ (hi : i < r.tail.length), args[i]'(by omega) = [p.1] ∧
      Leftmost g' [.label r.tail[i]] p.2 p.1 ∧ ruleWeight p.2 = (ds[i]'(by omega)).weight := by
    intro i
    by_cases hi : i < r.tail.length
    · obtain ⟨w, rs, h1, h2, h3⟩ := (hch'.2 i hi (by simp; omega)).2
      simp only [List.get_eq_getElem, List.getElem_zip] at h1 h2 h3
      exact ⟨(w, rs), fun _ => ⟨h1, h2, h3⟩⟩
    · exact ⟨([], []), fun h => absurd h hi⟩
  choose p hp using hex
  rw [hc] at hv
  obtain ⟨w, hw, rfl⟩ : ∃ w, substAll (fun i => args[i]?) c = some w ∧ v = [w] := by
    unfold compose at hv
    rw [List.mapM_cons] at hv
    simp only [List.mapM_nil, Option.pure_def, Option.bind_eq_bind, Option.bind_some, Option.bind_eq_some_iff, Option.some_inj] at hv
    obtain ⟨w, hw, rfl⟩ := hv
    exact ⟨w, hw, rfl⟩
  have hlm := letters_forward (G := g') (tail := r.tail) (ws := fun i => (p i).1) (rss := fun i => (p i).2)
    (fun i A hA => by
      obtain ⟨hi, rfl⟩ := List.getElem?_eq_some_iff.1 hA
      exact (hp i hi).2.1) hl (args := fun i => args[i]?) (fun i A hA => by
      obtain ⟨hi, rfl⟩ := List.getElem?_eq_some_iff.1 hA
      rw [List.getElem?_eq_getElem (by omega), (hp i hi).1]) hw
  refine ⟨w, r' :: (varsOf [c]).flatMap fun v => (p v.1).2, rfl, ?_, ?_⟩
  · rw [← hh]
    exact .expand hr' (by simpa using hlm)
  · have : ruleWeight (r' :: (varsOf [c]).flatMap fun v => (p v.1).2) = r'.weight * ruleWeight ((varsOf [c]).flatMap fun v => (p v.1).2) := by
      simp [ruleWeight]
    rw [this, hwt, DTree.weight, weights_eq, ruleWeight_flatMap]
    congr 1
    have hperm := hs r hr
    unfold Simple at hperm
    rw [hc] at hperm
    rw [(hperm.map _).prod_eq, List.map_map, ← hl1]
    exact prod_map_range ds DTree.weight (fun i => ruleWeight (p i).2) fun i hi => (hp i (by omega)).2.2

/-- From a leftmost derivation of the letters of a component to derivations of the children. -/
theorem letters_backward {G : CFG N T W} {rules : List (PMCFGRule N T W)} {tail : List N} (d₀ : DTree (PMCFGRule N T W))
    {c : List (VarT T)} {l : List (LetterT N T)}
    (hl : cfgLetters tail c = some l) (hnd : (varsOf [c]).Nodup) {rs w} (hlm : Leftmost G l rs w)
    (ih : ∀ A rs₁ w₁, rs₁.length ≤ rs.length → Leftmost G [.label A] rs₁ w₁ →
      ∃ d, Derives rules A d [w₁] ∧ d.weight = ruleWeight rs₁) :
    ∃ (D : Nat → DTree (PMCFGRule N T W)) (ws : Nat → List T),
      (∀ i, (i, 0) ∈ varsOf [c] → ∃ A, tail[i]? = some A ∧ Derives rules A (D i) [ws i]) ∧
      (∀ args, (∀ i, (i, 0) ∈ varsOf [c] → args i = some [ws i]) → substAll args c = some w) ∧
      ((varsOf [c]).map fun v => (D v.1).weight).prod = ruleWeight rs := by
  induction c generalizing l rs w with
  | nil =>
    simp [cfgLetters] at hl; subst hl
    cases hlm
    exact ⟨fun _ => d₀, fun _ => [], by simp [varsOf], by simp [substAll], by simp [varsOf, ruleWeight]⟩
  | cons x c ihc =>
    rw [varsOf_cons] at hnd ⊢
    cases x with
    | t a =>
      simp only [cfgLetters] at hl
      obtain ⟨l', hl', rfl⟩ := Option.map_eq_some_iff.1 hl
      cases hlm with
      | @read _ _ _ w hlm =>
        obtain ⟨D, ws, h1, h2, h3⟩ := ihc hl' (by simpa using hnd) hlm ih
        refine ⟨D, ws, by simpa using h1, fun args h => ?_, by simpa using h3⟩
        have h4 := h2 args (by simpa using h)
        unfold substAll at h4 ⊢
        obtain ⟨ys, hys, rfl⟩ := Option.map_eq_some_iff.1 h4
        simp [List.mapM_cons, subst, hys]
    | var i j =>
      cases j with
      | succ j => simp [cfgLetters] at hl
      | zero =>
        simp only [cfgLetters] at hl
        split at hl
        · cases hl
        · rename_i A hA
          obtain ⟨l', hl', rfl⟩ := Option.map_eq_some_iff.1 hl
          obtain ⟨rs₁, rs₂, w₁, w₂, rfl, rfl, hlm1, hlm2⟩ := Leftmost.split (γ := [.label A]) (δ := l') (by simpa using hlm)
          simp only [List.cons_append, List.nil_append, List.nodup_cons] at hnd
          obtain ⟨D, ws, h1, h2, h3⟩ := ihc hl' hnd.2 hlm2 (fun B rs' w' hle h => ih B rs' w' (by simp; omega) h)
          obtain ⟨d, hd, hdw⟩ := ih A rs₁ w₁ (by simp) hlm1
          have hne : ∀ k, (k, 0) ∈ varsOf [c] → k ≠ i := by rintro k hk rfl; exact hnd.1 hk
          refine ⟨Function.update D i d, Function.update ws i w₁, ?_, fun args h => ?_, ?_⟩
          · intro k hk
            rcases List.mem_cons.1 hk with hk | hk
            · simp at hk; subst hk; exact ⟨A, hA, by simpa using hd⟩
            · rw [Function.update_of_ne (hne k hk), Function.update_of_ne (hne k hk)]; exact h1 k hk
          · have h4 := h2 args fun k hk => by
              rw [h k (by simp [hk]), Function.update_of_ne (hne k hk)]
            have h5 := h i (by simp)
            unfold substAll at h4 ⊢
            obtain ⟨ys, hys, rfl⟩ := Option.map_eq_some_iff.1 h4
            simp [List.mapM_cons, subst, hys, h5]
          · rw [ruleWeight_append]
            simp only [List.cons_append, List.nil_append, List.map_cons, List.prod_cons, Function.update_self, hdw]
            congr 1
            rw [← h3]
            congr 1
            refine List.map_congr_left fun v hv => ?_
            by_cases hvi : v.1 = i
            · exfalso
              obtain ⟨v1, v2⟩ := v
              simp only at hvi
              subst hvi
              have h0 : v2 = 0 := by
                clear hnd h1 h2 h3 hlm2 hlm ihc ih hl hne
                induction c generalizing l' with
                | nil => simp [varsOf] at hv
                | cons x c ihx =>
                  rw [varsOf_cons] at hv
                  cases x with
                  | t a =>
                    simp only [cfgLetters] at hl'
                    obtain ⟨l'', hl'', rfl⟩ := Option.map_eq_some_iff.1 hl'
                    exact ihx _ hl'' (by simpa using hv)
                  | var i' j' =>
                    cases j' with
                    | succ j => simp [cfgLetters] at hl'
                    | zero =>
                      simp only [cfgLetters] at hl'
                      split at hl'
                      · cases hl'
                      · obtain ⟨l'', hl'', rfl⟩ := Option.map_eq_some_iff.1 hl'
                        rcases List.mem_append.1 hv with hv | hv
                        · simp at hv; exact hv.2
                        · exact ihx _ hl'' hv
              subst h0
              exact hnd.1 hv
            · rw [Function.update_of_ne hvi]

theorem compose_single {args : Nat → Option (List (List T))} {c : List (VarT T)} {w : List T} (h : substAll args c = some w) :
    compose args [c] = some [w] := by
  simp [compose, List.mapM_cons, h]

theorem leftmost_derives {g : PMCFG N T W} {g' : CFG N T W} (hg : CFG.ofPmcfg g = some g') (hs : ∀ r ∈ g.rules, Simple r)
    (n : Nat) {A rs w} (hn : rs.length ≤ n) (hlm : Leftmost g' [.label A] rs w) :
    ∃ d, Derives g.rules A d [w] ∧ d.weight = ruleWeight rs := by
  obtain ⟨_, hrules, _⟩ := mem_ofPmcfg hg
  induction n generalizing A rs w with
  | zero =>
    cases hlm; simp at hn
  | succ n ih =>
    cases hlm with
    | @expand r' _ rs w hr' hlm =>
      obtain ⟨r, hr, hrr'⟩ := hrules r' hr'
      obtain ⟨c, hc, hl, hh, hwt⟩ := cfgRule_some hrr'
      have hperm := hs r hr
      unfold Simple at hperm
      rw [hc] at hperm
      have hnd : (varsOf [c]).Nodup := by
        rw [hperm.nodup_iff]
        exact List.nodup_range.map fun a b h => by simpa using h
      obtain ⟨D, ws, h1, h2, h3⟩ := letters_backward (rules := g.rules) (.node r []) hl hnd (by simpa using hlm)
        (fun A rs₁ w₁ hle h => ih (by simp at hn; omega) h)
      have hmem : ∀ i, (i, 0) ∈ varsOf [c] ↔ i < r.tail.length := by
        intro i; rw [hperm.mem_iff]; simp
      refine ⟨.node r ((List.range r.tail.length).map D), ?_, ?_⟩
      · rw [hh]
        refine .node (args := (List.range r.tail.length).map fun i => [ws i]) hr ?_ ?_
        · have : ∀ (l : List N) (k : Nat), (∀ i, i < l.length → Derives g.rules (l[i]?.getD r.head) (D (k + i)) [ws (k + i)]) →
              DerivesAll g.rules l ((List.range' k l.length).map D) ((List.range' k l.length).map fun i => [ws i]) := by
            intro l
            induction l with
            | nil => intro k _; exact .nil
            | cons B l ihl =>
              intro k h
              simp only [List.length_cons, List.range'_succ, List.map_cons]
              refine .cons (by simpa using h 0 (by simp)) (ihl (k + 1) fun i hi => ?_)
              have := h (i + 1) (by simpa using hi)
              simpa [Nat.add_assoc, Nat.add_comm 1 i] using this
          have := this r.tail 0 fun i hi => by
            obtain ⟨A, hA, hd⟩ := h1 i ((hmem i).2 hi)
            rw [hA, Nat.zero_add]; exact hd
          simpa [List.range_eq_range'] using this
        · rw [hc]
          refine compose_single (h2 _ fun i hi => ?_)
          have := (hmem i).1 hi
          simp [this]
      · have : ruleWeight (r' :: rs) = r'.weight * ruleWeight rs := by simp [ruleWeight]
        rw [this, hwt, DTree.weight, weights_eq, ← h3, (hperm.map _).prod_eq, List.map_map, List.map_map]
        rfl

end

end Rustomata
