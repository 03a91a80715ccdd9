import Verif.Proofs.Components
import Verif.Spec.Visits

/-!
# Lemmas: the transitions of the automaton of any PMCFG
-/

namespace Rustomata
open Spec
variable {N T W : Type _}

/-! ### Renumbered variables -/

theorem varsOf_head (c : List (VarT T)) (cs : Composition T) : varsOf (c :: cs) = varsOf [c] ++ varsOf cs := varsOf_append [c] cs

theorem lastBefore_before (cs : Composition T) (j k i : Nat) : lastBefore cs j k i = (((before cs j k).filter (·.1 = i)).getLast?).map (·.2) := by
  unfold lastBefore before
  cases h : cs[j]? with
  | none => simp [varsOf]
  | some c => simp only [Option.toList, segs_vars]

/-- The components of the `i`-th nonterminal that are visited before a position. -/
def visBefore (cs : Composition T) (j k i : Nat) : List Nat := ((before cs j k).filter (·.1 = i)).map (·.2)

theorem visBefore_length (cs : Composition T) (j k i : Nat) : (visBefore cs j k i).length = cnt cs j k i := by simp [visBefore, cnt]

theorem visBefore_last (cs : Composition T) (j k i : Nat) : lastBefore cs j k i = (visBefore cs j k i).getLast? := by
  rw [lastBefore_before, visBefore, List.getLast?_map]

theorem visBefore_all (cs : Composition T) (i : Nat) : visBefore cs cs.length 0 i = visitsOf cs i := by
  rw [visBefore, before_all]; rfl

theorem visBefore_succ {cs : Composition T} {j k : Nat} {c : List (VarT T)} {b : List T} {i j₁ : Nat} (hc : cs[j]? = some c)
    (hs : (segs c [])[k]? = some (b, i, j₁)) (a : Nat) : visBefore cs j (k + 1) a = visBefore cs j k a ++ if a = i then [j₁] else [] := by
  unfold visBefore
  rw [before_succ hc hs, List.filter_append, List.map_append]
  by_cases h : a = i
  · subst h; simp
  · simp [h, Ne.symm h]

theorem visBefore_next {cs : Composition T} {j : Nat} {c : List (VarT T)} (hc : cs[j]? = some c) (i : Nat) :
    visBefore cs (j + 1) 0 i = visBefore cs j (segs c []).length i := by
  unfold visBefore; rw [before_next hc]

theorem visitNumbersIn_trail (n : Nat → Nat) (c : List (VarT T)) (buf : List T) : trail (visitNumbersIn n c) buf = trail c buf := by
  induction c generalizing n buf with
  | nil => rfl
  | cons x c ih => cases x <;> exact ih _ _

theorem visitNumbersIn_length (n : Nat → Nat) (c : List (VarT T)) (buf : List T) : (segs (visitNumbersIn n c) buf).length = (segs c buf).length := by
  induction c generalizing n buf with
  | nil => rfl
  | cons x c ih =>
    cases x with
    | t a => exact ih _ _
    | var i j => simp only [visitNumbersIn, segs, List.length_cons]; rw [ih]

theorem visitNumbersIn_fst (n : Nat → Nat) (c : List (VarT T)) : (varsOf [visitNumbersIn n c]).map Prod.fst = (varsOf [c]).map Prod.fst := by
  induction c generalizing n with
  | nil => rfl
  | cons x c ih =>
    cases x with
    | t a => simpa [varsOf, visitNumbersIn] using ih n
    | var i j => simpa [varsOf, visitNumbersIn] using ih _

theorem visitNumbersIn_segs (n : Nat → Nat) (c : List (VarT T)) (buf : List T) {k : Nat} {b : List T} {i j : Nat} (h : (segs c buf)[k]? = some (b, i, j)) :
    (segs (visitNumbersIn n c) buf)[k]? = some (b, i, n i + ((((segs c buf).map Prod.snd).take k).filter (·.1 = i)).length) := by
  induction c generalizing n buf k with
  | nil => simp [segs] at h
  | cons x c ih =>
    cases x with
    | t a => exact ih n _ h
    | var i' j' =>
      simp only [visitNumbersIn, segs] at h ⊢
      cases k with
      | zero =>
        simp only [List.getElem?_cons_zero, Option.some.injEq, Prod.mk.injEq] at h ⊢
        obtain ⟨rfl, rfl, rfl⟩ := h
        simp
      | succ k =>
        simp only [List.getElem?_cons_succ] at h ⊢
        rw [ih _ _ h]
        simp only [List.map_cons, List.take_succ_cons, Option.some.injEq, Prod.mk.injEq, true_and]
        by_cases hi : i' = i
        · subst hi; simp; omega
        · rw [if_neg (Ne.symm hi), List.filter_cons_of_neg (by simpa using hi)]

theorem visitNumbers_length (n : Nat → Nat) (cs : Composition T) : (visitNumbers n cs).length = cs.length := by
  induction cs generalizing n with
  | nil => rfl
  | cons c cs ih => simp [visitNumbers, ih]

theorem visitNumbers_append (n : Nat → Nat) (cs cs' : Composition T) :
    visitNumbers n (cs ++ cs') = visitNumbers n cs ++ visitNumbers (fun i => n i + (visitsOf cs i).length) cs' := by
  induction cs generalizing n with
  | nil => simp [visitNumbers, visitsOf, varsOf]
  | cons c cs ih =>
    simp only [List.cons_append, visitNumbers]
    rw [ih]
    congr 3
    funext i
    unfold visitsOf
    rw [varsOf_head c cs]
    simp; omega

theorem visitNumbers_take (n : Nat → Nat) (cs : Composition T) (a : Nat) : (visitNumbers n cs).take a = visitNumbers n (cs.take a) := by
  conv_lhs => rw [← List.take_append_drop a cs, visitNumbers_append]
  by_cases h : a ≤ cs.length
  · rw [List.take_append_of_le_length (by rw [visitNumbers_length]; simp [h]), List.take_of_length_le (by rw [visitNumbers_length]; simp)]
  · rw [List.drop_of_length_le (by omega)]
    simp only [visitNumbers, List.append_nil]
    rw [List.take_of_length_le (by rw [visitNumbers_length]; simp)]

theorem visitNumbers_fst (n : Nat → Nat) (cs : Composition T) : (varsOf (visitNumbers n cs)).map Prod.fst = (varsOf cs).map Prod.fst := by
  induction cs generalizing n with
  | nil => rfl
  | cons c cs ih =>
    simp only [visitNumbers]
    rw [varsOf_head, varsOf_head c cs, List.map_append, List.map_append, ih, visitNumbersIn_fst]

theorem visitNumbers_get (n : Nat → Nat) {cs : Composition T} {a : Nat} {c : List (VarT T)} (h : cs[a]? = some c) :
    (visitNumbers n cs)[a]? = some (visitNumbersIn (fun i => n i + (visitsOf (cs.take a) i).length) c) := by
  obtain ⟨ha, rfl⟩ := List.getElem?_eq_some_iff.1 h
  conv_lhs => rw [← List.take_append_drop a cs, visitNumbers_append]
  rw [List.getElem?_append_right (by rw [visitNumbers_length]; simp), visitNumbers_length, List.drop_eq_getElem_cons ha]
  rw [List.length_take, Nat.min_eq_left (by omega), Nat.sub_self]
  simp [visitNumbers]

theorem filter_fst_length {l l' : List (Nat × Nat)} (h : l.map Prod.fst = l'.map Prod.fst) (i : Nat) :
    (l.filter (·.1 = i)).length = (l'.filter (·.1 = i)).length := by
  have : ∀ l : List (Nat × Nat), (l.filter (·.1 = i)).length = ((l.map Prod.fst).filter (· = i)).length := by
    intro l
    rw [List.filter_map, List.length_map]
    rfl
  rw [this, this, h]

theorem visitNumbers_cnt (n : Nat → Nat) {cs : Composition T} (a k i : Nat) : cnt (visitNumbers n cs) a k i = cnt cs a k i := by
  unfold cnt
  refine filter_fst_length ?_ i
  unfold before
  rw [List.map_append, List.map_append, visitNumbers_take, visitNumbers_fst]
  congr 1
  cases h : cs[a]? with
  | none =>
    have : (visitNumbers n cs)[a]? = none := by rw [List.getElem?_eq_none_iff] at h ⊢; rw [visitNumbers_length]; exact h
    rw [this]
  | some c =>
    rw [visitNumbers_get n h]
    simp only [segs_vars, List.map_take]
    rw [visitNumbersIn_fst]

/-- The numbers of the variables of a renumbered composition. -/
theorem visitNumbers_seg {cs : Composition T} {a : Nat} {c : List (VarT T)} (h : cs[a]? = some c) : ∃ c', (visitNumbers (fun _ => 0) cs)[a]? = some c' ∧
    (segs c' []).length = (segs c []).length ∧ trail c' [] = trail c [] ∧
    ∀ (k : Nat) b i j, (segs c [])[k]? = some (b, i, j) → (segs c' [])[k]? = some (b, i, cnt cs a k i) := by
  refine ⟨_, visitNumbers_get _ h, visitNumbersIn_length _ _ _, visitNumbersIn_trail _ _ _, ?_⟩
  intro k b i j hk
  rw [visitNumbersIn_segs _ _ _ hk]
  unfold cnt before visitsOf
  rw [h]
  simp

/-! ### The composition of the automaton -/

theorem cutTrails_before (cs : Composition T) (j k : Nat) : before (cutTrails cs) j k = before cs j k := by
  have hmap := cutTrailsFrom_segs (T := T) [] (by simp) cs
  have hv : ∀ cs : Composition T, varsOf cs = (cs.map fun c => segs c []).flatMap fun l => l.map Prod.snd := by
    intro cs; rw [← allSegs_vars, List.flatMap_map]
  unfold before
  rw [hv, hv, List.map_take, List.map_take]
  unfold cutTrails at *
  rw [hmap]
  congr 1
  have := cutTrails_segs cs j
  unfold cutTrails at this
  cases h : cs[j]? with
  | none =>
    rw [h] at this
    rw [Option.map_eq_none_iff.1 this]
  | some c =>
    rw [h] at this
    obtain ⟨c', h1, h2⟩ := Option.map_eq_some_iff.1 this
    rw [h1]
    simp only
    rw [h2]

theorem cutTrails_length (cs : Composition T) : (cutTrails cs).length = cs.length := by
  have := congrArg List.length (cutTrailsFrom_segs (T := T) [] (by simp) cs)
  simpa [cutTrails] using this

section
variable [One W]

/-- The transitions of the automaton of any grammar. -/
inductive IsStep (g : PMCFG N T W) : TsaTransition N T W → Prop
  | init {r} : r ∈ g.rules → r.head ∈ g.initial → IsStep g ⟨[], r.weight, .push 0 .initial (.position r.key 0 0)⟩
  | fin {r c} : r ∈ g.rules → r.head ∈ g.initial → (cutTrails r.composition)[0]? = some c →
      IsStep g ⟨trail c [], 1, .down (.position r.key 0 (segs c []).length) .initial .designated⟩
  | push {r : PMCFGRule N T W} {j k c b i j₁} {ri : PMCFGRule N T W} : r ∈ g.rules → (cutTrails r.composition)[j]? = some c →
      (segs c [])[k]? = some (b, i, j₁) → lastBefore (cutTrails r.composition) j k i = none → ri ∈ g.rules → r.tail[i]? = some ri.head →
      IsStep g ⟨b, ri.weight, .push i (.position r.key j k) (.position ri.key j₁ 0)⟩
  | up {r : PMCFGRule N T W} {j k c b i j₁ j₀} {ri : PMCFGRule N T W} {c₀} : r ∈ g.rules → (cutTrails r.composition)[j]? = some c →
      (segs c [])[k]? = some (b, i, j₁) → lastBefore (cutTrails r.composition) j k i = some j₀ → ri ∈ g.rules → r.tail[i]? = some ri.head →
      (cutTrails ri.composition)[j₀]? = some c₀ →
      IsStep g ⟨b, 1, .up i (.position r.key j k) (.position ri.key j₀ (segs c₀ []).length) (.position ri.key j₁ 0)⟩
  | down {r : PMCFGRule N T W} {j k c b i j₁} {ri : PMCFGRule N T W} {c₁} : r ∈ g.rules → (cutTrails r.composition)[j]? = some c →
      (segs c [])[k]? = some (b, i, j₁) → ri ∈ g.rules → r.tail[i]? = some ri.head → (cutTrails ri.composition)[j₁]? = some c₁ →
      IsStep g ⟨trail c₁ [], 1, .down (.position ri.key j₁ (segs c₁ []).length) (.position r.key j k) (.position r.key j (k + 1))⟩

variable [DecidableEq N]

theorem tsaTransitions_step {g : PMCFG N T W} {ts : List (TsaTransition N T W)} (h : tsaTransitions g = some ts) : ∀ t, t ∈ ts ↔ IsStep g t := by
  unfold tsaTransitions at h
  split at h
  · rename_i a b ha hb
    simp only [Option.some_inj] at h
    subst h
    replace ha := mapM_some_iff.1 ha
    replace hb := mapM_some_iff.1 hb
    have hrss : ∀ r : PMCFGRule N T W, ∀ rss, r.tail.mapM (ruleMapGet g.rules) = some rss → ∀ (i : Nat) rs, rss[i]? = some rs →
        ∃ A, r.tail[i]? = some A ∧ rs = g.rules.filter (fun r => r.head = A) := by
      intro r rss hr i rs hi
      have := mapM_getElem? hr i
      rw [hi] at this
      obtain ⟨A, hA, hg⟩ := Option.bind_eq_some_iff.1 this.symm
      unfold ruleMapGet at hg
      split at hg
      · simp only [Option.some_inj] at hg
        exact ⟨A, hA, hg.symm⟩
      · cases hg
    have hrule : ∀ r ∈ g.rules, ∃ l ∈ b, ∃ rss, r.tail.mapM (ruleMapGet g.rules) = some rss ∧
        tsaComponents r rss r.composition 0 (List.replicate rss.length none) = some l := by
      intro r hr
      obtain ⟨l, hl, hrl⟩ := forall₂_mem_left hb hr
      unfold tsaRule at hrl
      split at hrl
      · cases hrl
      · rename_i rss hrss
        exact ⟨l, hl, rss, hrss, by rw [← hrl, List.map_const']⟩
    have hvar : ∀ r ∈ g.rules, ∀ (j : Nat) (k : Nat) (i₁ : Nat),
        ∀ rss, r.tail.mapM (ruleMapGet g.rules) = some rss → ∀ rs p, rss[i₁]? = some rs →
        (prevAfter (List.replicate rss.length none) (before r.composition j k))[i₁]? = some p →
        p = lastBefore (cutTrails r.composition) j k i₁ ∧ ∀ ri, ri ∈ rs ↔ ri ∈ g.rules ∧ r.tail[i₁]? = some ri.head := by
      intro r hr j k i₁ rss hrs rs p hi hp
      obtain ⟨A, hA, hrs'⟩ := hrss r rss hrs i₁ rs hi
      refine ⟨?_, ?_⟩
      · rw [((prevAfter_get _ _ _ _).1 hp).2, lastBefore_before, cutTrails_before]
      · intro ri
        rw [hrs', List.mem_filter, hA]
        simp only [decide_eq_true_eq, Option.some_inj]
        exact and_congr_right fun _ => eq_comm
    refine fun t => ⟨?_, ?_⟩
    · intro ht
      rcases List.mem_append.1 ht with ht | ht
      · obtain ⟨l, hl, ht⟩ := List.mem_flatten.1 ht
        obtain ⟨r, hr, hrl⟩ := forall₂_mem_right ha hl
        rw [List.mem_filter] at hr
        have hin : r.head ∈ g.initial := by simpa using hr.2
        unfold tsaInitial at hrl
        rw [downInfo_cut r] at hrl
        cases hc : (cutTrails r.composition)[0]? with
        | none => simp [hc] at hrl
        | some c =>
          simp only [hc, Option.map_some, Option.some_inj] at hrl
          subst hrl
          simp only [List.mem_cons, List.not_mem_nil, or_false] at ht
          rcases ht with rfl | rfl
          · exact .init hr.1 hin
          · exact .fin hr.1 hin hc
      · obtain ⟨l, hl, ht⟩ := List.mem_flatten.1 ht
        obtain ⟨r, hr, hrl⟩ := forall₂_mem_right hb hl
        unfold tsaRule at hrl
        split at hrl
        · cases hrl
        · rename_i rss hrs
          rw [List.map_const'] at hrl
          obtain ⟨_, h2⟩ := tsaComponents_mem _ _ _ _ _ hrl
          obtain ⟨j, c, k, b', i₁, j₁, g1, g2, rs, p, g3, g4, ri, g5, l', g6, g7⟩ := h2 t ht
          obtain ⟨hp, g9⟩ := hvar r hr j k i₁ rss hrs rs p g3 g4
          obtain ⟨g10, g11⟩ := (g9 ri).1 g5
          obtain ⟨c', e1, e2⟩ := cutTrails_seg.2 ⟨c, g1, g2⟩
          rw [Nat.zero_add] at g6
          unfold tsaVariable at g6
          simp only [downInfo_cut ri] at g6
          cases hc₁ : (cutTrails ri.composition)[j₁]? with
          | none => simp [hc₁] at g6
          | some c₁ =>
            simp only [hc₁, Option.map_some] at g6
            cases p with
            | none =>
              simp only [Option.some_inj] at g6
              subst g6
              simp only [List.mem_cons, List.not_mem_nil, or_false] at g7
              rcases g7 with rfl | rfl
              · exact .push hr e1 e2 hp.symm g10 g11
              · exact .down hr e1 e2 g10 g11 hc₁
            | some j₀ =>
              simp only at g6
              cases hc₀ : (cutTrails ri.composition)[j₀]? with
              | none => simp [hc₀] at g6
              | some c₀ =>
                simp only [hc₀, Option.map_some, Option.some_inj] at g6
                subst g6
                simp only [List.mem_cons, List.not_mem_nil, or_false] at g7
                rcases g7 with rfl | rfl
                · exact .up hr e1 e2 hp.symm g10 g11 hc₀
                · exact .down hr e1 e2 g10 g11 hc₁
    · intro ht
      have hgen : ∀ r ∈ g.rules, ∀ (j k : Nat) c b' (i : Nat) (j₁ : Nat) (ri : PMCFGRule N T W), (cutTrails r.composition)[j]? = some c →
          (segs c [])[k]? = some (b', i, j₁) →
          ri ∈ g.rules → r.tail[i]? = some ri.head → ∃ l, tsaVariable r j k b' i j₁ (lastBefore (cutTrails r.composition) j k i) ri = some l ∧
          ∀ t ∈ l, t ∈ a.flatten ++ b.flatten := by
        intro r hr j k c b' i j₁ ri hc hk hri hti
        obtain ⟨c', e1, e2⟩ := cutTrails_seg.1 ⟨c, hc, hk⟩
        obtain ⟨l, hl, rss, hrs, hcomp⟩ := hrule r hr
        obtain ⟨h1, _⟩ := tsaComponents_mem _ _ _ _ _ hcomp
        obtain ⟨rs, p, g1, g2, g3⟩ := h1 j c' k b' i j₁ e1 e2
        obtain ⟨rfl, g5⟩ := hvar r hr j k i rss hrs rs p g1 g2
        obtain ⟨l', g6, g7⟩ := g3 ri ((g5 ri).2 ⟨hri, hti⟩)
        rw [Nat.zero_add] at g6
        exact ⟨l', g6, fun t ht => List.mem_append_right _ (List.mem_flatten.2 ⟨l, hl, g7 t ht⟩)⟩
      have hinit : ∀ r ∈ g.rules, r.head ∈ g.initial → ∃ l, tsaInitial r = some l ∧ ∀ t ∈ l, t ∈ a.flatten ++ b.flatten := by
        intro r hr hi
        obtain ⟨l, hl, hrl⟩ := forall₂_mem_left ha (List.mem_filter.2 ⟨hr, by simpa using hi⟩)
        exact ⟨l, hrl, fun t ht => List.mem_append_left _ (List.mem_flatten.2 ⟨l, hl, ht⟩)⟩
      cases ht with
      | @init r hr hi =>
        obtain ⟨l, h1, h2⟩ := hinit r hr hi
        refine h2 _ ?_
        unfold tsaInitial at h1
        split at h1
        · cases h1
        · simp only [Option.some_inj] at h1
          subst h1; simp
      | @fin r c hr hi hc =>
        obtain ⟨l, h1, h2⟩ := hinit r hr hi
        refine h2 _ ?_
        unfold tsaInitial at h1
        rw [downInfo_cut r, hc] at h1
        simp only [Option.map_some, Option.some_inj] at h1
        subst h1; simp
      | @push r j k c b' i j₁ ri hr hc hk hp hri hti =>
        obtain ⟨l, h1, h2⟩ := hgen r hr j k c b' i j₁ ri hc hk hri hti
        refine h2 _ ?_
        rw [hp] at h1
        unfold tsaVariable at h1
        split at h1
        · cases h1
        · simp only [Option.some_inj] at h1
          subst h1; simp
      | @up r j k c b' i j₁ j₀ ri c₀ hr hc hk hp hri hti hc₀ =>
        obtain ⟨l, h1, h2⟩ := hgen r hr j k c b' i j₁ ri hc hk hri hti
        refine h2 _ ?_
        rw [hp] at h1
        unfold tsaVariable at h1
        split at h1
        · cases h1
        · simp only [downInfo_cut ri, hc₀, Option.map_some, Option.some_inj] at h1
          subst h1; simp
      | @down r j k c b' i j₁ ri c₁ hr hc hk hri hti hc₁ =>
        obtain ⟨l, h1, h2⟩ := hgen r hr j k c b' i j₁ ri hc hk hri hti
        refine h2 _ ?_
        unfold tsaVariable at h1
        simp only [downInfo_cut ri, hc₁, Option.map_some] at h1
        split at h1
        · simp only [Option.some_inj] at h1; subst h1; simp
        · split at h1
          · cases h1
          · simp only [Option.some_inj] at h1; subst h1; simp
  · cases h

end
end Rustomata
