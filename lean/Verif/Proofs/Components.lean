import Verif.Proofs.FromPmcfgAst
import Verif.Proofs.CfgAutomaton
import Verif.Spec.Components

/-!
# Lemmas: the automaton of a PMCFG, with a pushdown instead of the tree stack
-/

namespace Rustomata
open Spec
variable {N T W : Type _}

/-! ### The composition that the automaton has -/

theorem segs_append_t (l : List (VarT T)) (b : List (VarT T)) (hb : ∀ x ∈ b, isTerminal x = true) (buf : List T) : segs (l ++ b) buf = segs l buf := by
  induction l generalizing buf with
  | nil =>
    induction b generalizing buf with
    | nil => rfl
    | cons x b ih =>
      cases x with
      | t a => exact ih (fun x hx => hb x (by simp [hx])) _
      | var i j => exact absurd (hb (.var i j) (by simp)) (by simp [isTerminal])
  | cons x l ih =>
    cases x with
    | t a => exact ih _
    | var i j => simp only [List.cons_append, segs]; rw [ih]

theorem trail_terminals (b : List (VarT T)) (hb : ∀ x ∈ b, isTerminal x = true) (buf : List T) :
    (trail b buf).map VarT.t = buf.map VarT.t ++ b := by
  induction b generalizing buf with
  | nil => simp [trail]
  | cons x b ih =>
    cases x with
    | t a => rw [trail, ih fun x hx => hb x (by simp [hx])]; simp
    | var i j => exact absurd (hb (.var i j) (by simp)) (by simp [isTerminal])

theorem trail_append_terminals (l b : List (VarT T)) (hb : ∀ x ∈ b, isTerminal x = true) (buf : List T) :
    (trail (l ++ b) buf).map VarT.t = (trail l buf).map VarT.t ++ b := by
  induction l generalizing buf with
  | nil => rw [List.nil_append, trail_terminals b hb]; rfl
  | cons x l ih => cases x <;> exact ih _

theorem rdropWhile_split (c : List (VarT T)) : ∃ b, c = c.rdropWhile isTerminal ++ b ∧ ∀ x ∈ b, isTerminal x = true := by
  refine ⟨c.rtakeWhile isTerminal, ?_, ?_⟩
  · unfold List.rdropWhile List.rtakeWhile
    rw [← List.reverse_append, List.takeWhile_append_dropWhile, List.reverse_reverse]
  · intro x hx
    exact List.mem_rtakeWhile_imp hx

theorem trail_rdropWhile (c : List (VarT T)) : trail (c.rdropWhile isTerminal) ([] : List T) = [] := by
  rcases List.eq_nil_or_concat (c.rdropWhile isTerminal) with h | ⟨l, x, h⟩
  · rw [h]; rfl
  · have := List.rdropWhile_last_not isTerminal c (by rw [h]; simp)
    simp only [h, List.concat_eq_append, List.getLast_append_singleton] at this
    rw [h]
    cases x with
    | t a => simp [isTerminal] at this
    | var i j => rw [List.concat_eq_append, trail_var]

theorem keptEnd_terminals {left c : List (VarT T)} (hl : ∀ x ∈ left, isTerminal x = true) : ∀ x ∈ keptEnd left c, isTerminal x = true := by
  unfold keptEnd
  split
  · exact hl
  · simp [isTerminal]
  · simp

theorem cut_segs {left c : List (VarT T)} (hl : ∀ x ∈ left, isTerminal x = true) :
    segs (c.rdropWhile isTerminal ++ keptEnd left c) [] = segs c [] := by
  rw [segs_append_t _ _ (keptEnd_terminals hl)]
  obtain ⟨b, h1, h2⟩ := rdropWhile_split c
  conv_rhs => rw [h1]
  rw [segs_append_t _ _ h2]

theorem cut_trail {left c : List (VarT T)} (hl : ∀ x ∈ left, isTerminal x = true) :
    (trail (c.rdropWhile isTerminal ++ keptEnd left c) []).map VarT.t = keptEnd left c := by
  rw [trail_append_terminals _ _ (keptEnd_terminals hl), trail_rdropWhile]
  rfl

theorem t_injective : Function.Injective (VarT.t : T → VarT T) := fun _ _ h => by cases h; rfl

theorem downComponent_kept (buf : List T) (c : List (VarT T)) (i : Nat) : (downComponent buf c i).2.map VarT.t = keptEnd (buf.map VarT.t) c := by
  rcases List.eq_nil_or_concat c with rfl | ⟨l, x, rfl⟩
  · rfl
  · rw [List.concat_eq_append, downComponent_append]
    unfold keptEnd
    cases x <;> simp

theorem downInfoFrom_cut (buf : List T) (cs : Composition T) :
    downInfoFrom buf cs = (cutTrailsFrom (buf.map VarT.t) cs).map fun c => ((segs c []).length, trail c []) := by
  induction cs generalizing buf with
  | nil => rfl
  | cons c cs ih =>
    have hl : ∀ x ∈ buf.map VarT.t, isTerminal x = true := by
      intro x hx
      obtain ⟨a, _, rfl⟩ := List.mem_map.1 hx
      rfl
    simp only [downInfoFrom, cutTrailsFrom, List.map_cons]
    rw [ih, downComponent_kept]
    congr 1
    refine Prod.ext ?_ (t_injective.list_map ?_)
    · simp only
      rw [cut_segs hl, downComponent_fst buf c 0 [], Nat.zero_add]
    · simp only
      rw [cut_trail hl, downComponent_kept]

theorem downInfo_cut (r : PMCFGRule N T W) (j : Nat) : (downInfo r)[j]? = ((cutTrails r.composition)[j]?).map fun c => ((segs c []).length, trail c []) := by
  unfold downInfo cutTrails
  rw [downInfoFrom_cut, List.getElem?_map]
  rfl

theorem cutTrailsFrom_segs (left : List (VarT T)) (hl : ∀ x ∈ left, isTerminal x = true) (cs : Composition T) :
    (cutTrailsFrom left cs).map (fun c => segs c []) = cs.map fun c => segs c [] := by
  induction cs generalizing left with
  | nil => rfl
  | cons c cs ih => simp only [cutTrailsFrom, List.map_cons]; rw [cut_segs hl, ih _ (keptEnd_terminals hl)]

theorem cutTrails_segs (cs : Composition T) (j : Nat) : ((cutTrails cs)[j]?).map (fun c => segs c []) = (cs[j]?).map fun c => segs c [] := by
  have := congrArg (fun l => l[j]?) (cutTrailsFrom_segs (T := T) [] (by simp) cs)
  simpa [cutTrails] using this

/-- Nothing is cut if the trails are short. -/
theorem cutTrails_short {cs : Composition T} (h : ShortTrails cs) : cutTrails cs = cs := by
  have key : ∀ (cs : Composition T) (left : List (VarT T)), (∀ comp ∈ cs, ∀ l a b, comp ≠ l ++ [.t a, .t b]) →
      (∀ (j : Nat), cs[j + 1]? = some [] → ∀ l a, cs[j]? ≠ some (l ++ [.t a])) → (∀ cs', cs = [] :: cs' → left = []) → cutTrailsFrom left cs = cs := by
    intro cs
    induction cs with
    | nil => intros; rfl
    | cons c cs ih =>
      intro left h1 h2 h3
      have hkept : c.rdropWhile isTerminal ++ keptEnd left c = c := by
        rcases List.eq_nil_or_concat c with rfl | ⟨l, x, rfl⟩
        · simp [keptEnd, h3 cs rfl]
        · rw [List.concat_eq_append] at h1 ⊢
          cases x with
          | var i j =>
            rw [List.rdropWhile_concat_neg isTerminal l _ (by simp [isTerminal])]
            simp [keptEnd]
          | t a =>
            rw [List.rdropWhile_concat_pos isTerminal l _ (by simp [isTerminal])]
            have hl : l.rdropWhile isTerminal = l := by
              rcases List.eq_nil_or_concat l with rfl | ⟨l', y, rfl⟩
              · rfl
              · rw [List.concat_eq_append] at h1 ⊢
                cases y with
                | var i j => rw [List.rdropWhile_concat_neg isTerminal l' _ (by simp [isTerminal])]
                | t b => exact absurd (by simp) (h1 (l' ++ [.t b] ++ [.t a]) (by simp) l' b a)
            rw [hl]
            simp [keptEnd]
      simp only [cutTrailsFrom]
      rw [hkept, ih _ (fun comp hc => h1 comp (by simp [hc])) (fun j hj => by simpa using h2 (j + 1) (by simpa using hj))]
      rintro cs' rfl
      unfold keptEnd
      split
      · rename_i hc
        rw [List.getLast?_eq_none_iff] at hc
        exact h3 _ (by rw [hc])
      · rename_i a hc
        obtain ⟨l, hl⟩ := List.getLast?_eq_some_iff.1 hc
        exact absurd (by rw [← hl]; simp) (h2 0 (by simp) l a)
      · rfl
  exact key cs [] h.1 h.2 fun _ _ => rfl

/-! ### The part of a component after some variables -/

/-- The part of a component after its first `k` variables. -/
def afterVars : Nat → List (VarT T) → List (VarT T)
  | 0, c => c
  | _ + 1, [] => []
  | k + 1, .t _ :: c => afterVars (k + 1) c
  | k + 1, .var _ _ :: c => afterVars k c

theorem segs_cons_t (a : T) (c : List (VarT T)) (buf : List T) :
    segs c (a :: buf) = match segs c buf with | [] => [] | (b, p) :: l => (a :: b, p) :: l := by
  induction c generalizing buf with
  | nil => rfl
  | cons x c ih =>
    cases x with
    | t d => simp only [segs, List.cons_append]; exact ih _
    | var i j => rfl

theorem trail_cons_t (c : List (VarT T)) (buf : List T) (a : T) : trail c (a :: buf) = (if (segs c []) = [] then a :: trail c buf else trail c buf) := by
  induction c generalizing buf with
  | nil => simp [trail, segs]
  | cons x c ih =>
    cases x with
    | t d =>
      simp only [trail, List.cons_append]
      rw [ih]
      have : segs (.t d :: c) [] = [] ↔ segs c [] = [] := by
        simp only [segs, List.nil_append]
        rw [segs_cons_t]
        cases segs c [] with
        | nil => simp
        | cons p l => simp
      by_cases h : segs c [] = []
      · rw [if_pos h, if_pos (this.2 h)]
      · rw [if_neg h, if_neg (fun e => h (this.1 e))]
    | var i j => simp [trail, segs]

theorem afterVars_segs (c : List (VarT T)) (k : Nat) (b : List T) (i j : Nat) (h : (segs c [])[k]? = some (b, i, j)) :
    afterVars k c = b.map VarT.t ++ .var i j :: afterVars (k + 1) c := by
  induction c generalizing k b with
  | nil => simp [segs] at h
  | cons x c ih =>
    cases x with
    | t a =>
      simp only [segs, List.nil_append] at h
      rw [segs_cons_t] at h
      cases hs : segs c [] with
      | nil => rw [hs] at h; simp at h
      | cons p l =>
        obtain ⟨b', p⟩ := p
        rw [hs] at h
        cases k with
        | zero =>
          simp only [List.getElem?_cons_zero, Option.some.injEq, Prod.mk.injEq] at h
          obtain ⟨rfl, rfl⟩ := h
          have := ih 0 b' (by rw [hs]; rfl)
          simp only [afterVars, List.map_cons, List.cons_append] at this ⊢
          rw [← this]
        | succ k =>
          simp only [List.getElem?_cons_succ] at h
          exact ih (k + 1) b (by rw [hs]; simpa using h)
    | var i' j' =>
      simp only [segs] at h
      cases k with
      | zero =>
        simp only [List.getElem?_cons_zero, Option.some.injEq, Prod.mk.injEq] at h
        obtain ⟨rfl, rfl, rfl⟩ := h
        cases c <;> rfl
      | succ k =>
        simp only [List.getElem?_cons_succ] at h
        exact ih k b h

theorem afterVars_trail (c : List (VarT T)) : afterVars (segs c []).length c = (trail c []).map VarT.t := by
  induction c with
  | nil => rfl
  | cons x c ih =>
    cases x with
    | t a =>
      simp only [segs, List.nil_append, trail]
      rw [segs_cons_t, trail_cons_t]
      cases hs : segs c [] with
      | nil =>
        rw [hs] at ih
        simp only [List.length_nil, afterVars, if_true, List.map_cons] at ih ⊢
        rw [← ih]
      | cons p l =>
        obtain ⟨b', p⟩ := p
        rw [hs] at ih
        simp only [List.length_cons, afterVars] at ih ⊢
        rw [ih, if_neg (by simp)]
    | var i j => simp only [segs, List.length_cons, afterVars, trail]; exact ih

theorem mem_afterVars {k : Nat} {c : List (VarT T)} {x : VarT T} (hx : x ∈ afterVars k c) : x ∈ c := by
  induction c generalizing k with
  | nil => cases k <;> simpa [afterVars] using hx
  | cons y c ih =>
    cases k with
    | zero => exact hx
    | succ k => cases y <;> exact List.mem_cons_of_mem _ (ih hx)

/-- The terminals before a variable. -/
theorem mem_of_segs {c : List (VarT T)} {k : Nat} {b : List T} {i j : Nat} (h : (segs c [])[k]? = some (b, i, j)) {a : T} (ha : a ∈ b) : .t a ∈ c := by
  refine mem_afterVars (k := k) ?_
  rw [afterVars_segs c k b i j h]
  exact List.mem_append_left _ (List.mem_map.2 ⟨a, ha, rfl⟩)

/-- The terminals at the end. -/
theorem mem_of_trail {c : List (VarT T)} {a : T} (ha : a ∈ trail c []) : .t a ∈ c := by
  refine mem_afterVars (k := (segs c []).length) ?_
  rw [afterVars_trail]
  exact List.mem_map.2 ⟨a, ha, rfl⟩

/-! ### The transitions of the approximated automaton -/

/-- The words and instructions of the transitions of the approximated automaton. -/
inductive IsTts (g : PMCFG N T W) : List T × PdInstr (TsaSymbol N T) → Prop
  | init {r} : r ∈ g.rules → r.head ∈ g.initial → IsTts g ([], ⟨[.initial], [.initial, .position r.key 0 0]⟩)
  | fin {r c} : r ∈ g.rules → r.head ∈ g.initial → (cutTrails r.composition)[0]? = some c →
      IsTts g (trail c [], ⟨[.position r.key 0 (segs c []).length, .initial], [.designated]⟩)
  | push {r : PMCFGRule N T W} {j k c b i j₁} {ri : PMCFGRule N T W} : r ∈ g.rules → (cutTrails r.composition)[j]? = some c →
      (segs c [])[k]? = some (b, i, j₁) → ri ∈ g.rules → r.tail[i]? = some ri.head →
      IsTts g (b, ⟨[.position r.key j k], [.position r.key j k, .position ri.key j₁ 0]⟩)
  | down {r : PMCFGRule N T W} {j k c b i j₁} {ri : PMCFGRule N T W} {c₁} : r ∈ g.rules → (cutTrails r.composition)[j]? = some c →
      (segs c [])[k]? = some (b, i, j₁) → ri ∈ g.rules → r.tail[i]? = some ri.head → (cutTrails ri.composition)[j₁]? = some c₁ →
      IsTts g (trail c₁ [], ⟨[.position ri.key j₁ (segs c₁ []).length, .position r.key j k], [.position r.key j (k + 1)]⟩)

section
variable [One W] [DecidableEq N]

theorem cutTrails_seg {cs : Composition T} {j : Nat} {k : Nat} {x : List T × Nat × Nat} :
    (∃ c, (cutTrails cs)[j]? = some c ∧ (segs c [])[k]? = some x) ↔ ∃ c, cs[j]? = some c ∧ (segs c [])[k]? = some x := by
  have := cutTrails_segs cs j
  constructor
  · rintro ⟨c, h1, h2⟩
    rw [h1] at this
    obtain ⟨c', h3, h4⟩ := Option.map_eq_some_iff.1 this.symm
    exact ⟨c', h3, by rw [h4]; exact h2⟩
  · rintro ⟨c, h1, h2⟩
    rw [h1] at this
    obtain ⟨c', h3, h4⟩ := Option.map_eq_some_iff.1 this
    exact ⟨c', h3, by rw [h4]; exact h2⟩

/-- The key of a transition after the approximation. -/
def ttsKey (t : TsaTransition N T W) : List T × PdInstr (TsaSymbol N T) := (t.word, tts.instruction t.instruction)

omit [DecidableEq N] in
theorem tsaVariable_keys {r : PMCFGRule N T W} {j k : Nat} {b : List T} {i₁ j₁ : Nat} {p : Option Nat} {ri : PMCFGRule N T W} {l : List (TsaTransition N T W)}
    (h : tsaVariable r j k b i₁ j₁ p ri = some l) : ∃ c₁, (cutTrails ri.composition)[j₁]? = some c₁ ∧
      l.map ttsKey = [(b, ⟨[.position r.key j k], [.position r.key j k, .position ri.key j₁ 0]⟩),
        (trail c₁ [], ⟨[.position ri.key j₁ (segs c₁ []).length, .position r.key j k], [.position r.key j (k + 1)]⟩)] := by
  unfold tsaVariable at h
  rw [downInfo_cut] at h
  cases hc : (cutTrails ri.composition)[j₁]? with
  | none => rw [hc] at h; cases h
  | some c₁ =>
    rw [hc] at h
    simp only [Option.map_some] at h
    refine ⟨c₁, rfl, ?_⟩
    cases p with
    | none => cases h; rfl
    | some j₀ =>
      simp only at h
      split at h
      · cases h
      · cases h; rfl

theorem tsaTransitions_keys {g : PMCFG N T W} {ts : List (TsaTransition N T W)} (h : tsaTransitions g = some ts) :
    (∀ x, x ∈ ts.map ttsKey ↔ IsTts g x) ∧ (∀ r ∈ g.rules, r.head ∈ g.initial → ∃ c, (cutTrails r.composition)[0]? = some c) ∧
    ∀ r ∈ g.rules, ∀ (j : Nat) c (k : Nat) b i j₁, (cutTrails r.composition)[j]? = some c → (segs c [])[k]? = some (b, i, j₁) → ∀ ri ∈ g.rules, r.tail[i]? = some ri.head →
      ∃ c₁, (cutTrails ri.composition)[j₁]? = some c₁ := by
  unfold tsaTransitions at h
  split at h
  · rename_i a b ha hb
    simp only [Option.some_inj] at h
    subst h
    replace ha := mapM_some_iff.1 ha
    replace hb := mapM_some_iff.1 hb
    have hrss : ∀ r : PMCFGRule N T W, ∀ rss, r.tail.mapM (ruleMapGet g.rules) = some rss → ∀ (i : Nat) rs, rss[i]? = some rs →
        ∀ ri, ri ∈ rs ↔ ri ∈ g.rules ∧ r.tail[i]? = some ri.head := by
      intro r rss hr i rs hi ri
      have := mapM_getElem? hr i
      rw [hi] at this
      obtain ⟨A, hA, hg⟩ := Option.bind_eq_some_iff.1 this.symm
      unfold ruleMapGet at hg
      split at hg
      · simp only [Option.some_inj] at hg
        rw [← hg, List.mem_filter, hA]
        simp only [decide_eq_true_eq, Option.some_inj]
        exact and_congr_right fun _ => eq_comm
      · cases hg
    have hini : ∀ r ∈ g.rules, r.head ∈ g.initial → ∃ l ∈ a, tsaInitial r = some l := by
      intro r hr hin
      obtain ⟨l, hl, hrl⟩ := forall₂_mem_left ha (List.mem_filter.2 ⟨hr, by simpa using hin⟩)
      exact ⟨l, hl, hrl⟩
    have hinit : ∀ (r : PMCFGRule N T W) l, tsaInitial r = some l → ∃ c, (cutTrails r.composition)[0]? = some c ∧
        l.map ttsKey = [([], ⟨[.initial], [.initial, .position r.key 0 0]⟩), (trail c [], ⟨[.position r.key 0 (segs c []).length, .initial], [.designated]⟩)] := by
      intro r l hl
      unfold tsaInitial at hl
      rw [downInfo_cut] at hl
      cases hc : (cutTrails r.composition)[0]? with
      | none => rw [hc] at hl; cases hl
      | some c => rw [hc] at hl; cases hl; exact ⟨c, rfl, rfl⟩
    have hrule : ∀ r ∈ g.rules, ∃ l ∈ b, ∃ rss, r.tail.mapM (ruleMapGet g.rules) = some rss ∧
        tsaComponents r rss r.composition 0 (List.replicate rss.length none) = some l := by
      intro r hr
      obtain ⟨l, hl, hrl⟩ := forall₂_mem_left hb hr
      unfold tsaRule at hrl
      split at hrl
      · cases hrl
      · rename_i rss hrss
        exact ⟨l, hl, rss, hrss, by rw [← hrl, List.map_const']⟩
    have hvar : ∀ r ∈ g.rules, ∀ (j : Nat) c (k : Nat) b' i j₁, (cutTrails r.composition)[j]? = some c → (segs c [])[k]? = some (b', i, j₁) → ∀ ri ∈ g.rules,
        r.tail[i]? = some ri.head → ∃ p l, tsaVariable r j k b' i j₁ p ri = some l ∧ ∀ t ∈ l, t ∈ b.flatten := by
      intro r hr j c k b' i j₁ hc hk ri hri hA
      obtain ⟨c', hc', hk'⟩ := cutTrails_seg.1 ⟨c, hc, hk⟩
      obtain ⟨l, hl, rss, hrs, hcomp⟩ := hrule r hr
      obtain ⟨rs, p, g1, _, g3⟩ := (tsaComponents_mem _ _ _ _ _ hcomp).1 j c' k b' i j₁ hc' hk'
      obtain ⟨l', g4, g5⟩ := g3 ri ((hrss r rss hrs i rs g1 ri).2 ⟨hri, hA⟩)
      rw [Nat.zero_add] at g4
      exact ⟨p, l', g4, fun t ht => List.mem_flatten.2 ⟨l, hl, g5 t ht⟩⟩
    refine ⟨fun x => ⟨?_, ?_⟩, ?_, ?_⟩
    · intro hx
      obtain ⟨t, ht, rfl⟩ := List.mem_map.1 hx
      rcases List.mem_append.1 ht with ht | ht
      · obtain ⟨l, hl, ht⟩ := List.mem_flatten.1 ht
        obtain ⟨r, hr, hrl⟩ := forall₂_mem_right ha hl
        rw [List.mem_filter] at hr
        have hin : r.head ∈ g.initial := by simpa using hr.2
        obtain ⟨c, hc, hk⟩ := hinit r l hrl
        have := List.mem_map.2 ⟨t, ht, (rfl : ttsKey t = ttsKey t)⟩
        rw [hk] at this
        simp only [List.mem_cons, List.not_mem_nil, or_false] at this
        rcases this with h | h
        · rw [h]; exact .init hr.1 hin
        · rw [h]; exact .fin hr.1 hin hc
      · obtain ⟨l, hl, ht⟩ := List.mem_flatten.1 ht
        obtain ⟨r, hr, hrl⟩ := forall₂_mem_right hb hl
        unfold tsaRule at hrl
        split at hrl
        · cases hrl
        · rename_i rss hrs
          rw [List.map_const'] at hrl
          obtain ⟨_, h2⟩ := tsaComponents_mem _ _ _ _ _ hrl
          obtain ⟨j, c, k, b', i₁, j₁, g1, g2, rs, p, g3, g4, ri, g5, l', g6, g7⟩ := h2 t ht
          rw [Nat.zero_add] at g6
          obtain ⟨hri, hA⟩ := (hrss r rss hrs i₁ rs g3 ri).1 g5
          obtain ⟨c₁, hc₁, hk⟩ := tsaVariable_keys g6
          obtain ⟨c', hc', hs'⟩ := cutTrails_seg.2 ⟨c, g1, g2⟩
          have := List.mem_map.2 ⟨t, g7, (rfl : ttsKey t = ttsKey t)⟩
          rw [hk] at this
          simp only [List.mem_cons, List.not_mem_nil, or_false] at this
          rcases this with h | h
          · rw [h]; exact .push hr hc' hs' hri hA
          · rw [h]; exact .down hr hc' hs' hri hA hc₁
    · intro hx
      have hmem : ∀ (l : List (TsaTransition N T W)) (ll : List (List (TsaTransition N T W))), l ∈ ll → ∀ x ∈ l.map ttsKey, x ∈ ll.flatten.map ttsKey := by
        intro l ll hl x hx
        obtain ⟨t, ht, rfl⟩ := List.mem_map.1 hx
        exact List.mem_map.2 ⟨t, List.mem_flatten.2 ⟨l, hl, ht⟩, rfl⟩
      rw [List.map_append, List.mem_append]
      cases hx with
      | @init r hr hin =>
        obtain ⟨l, hl, hrl⟩ := hini r hr hin
        obtain ⟨c, hc, hk⟩ := hinit r l hrl
        exact .inl (hmem l a hl _ (by rw [hk]; simp))
      | @fin r c hr hin hc =>
        obtain ⟨l, hl, hrl⟩ := hini r hr hin
        obtain ⟨c', hc', hk⟩ := hinit r l hrl
        obtain rfl : c = c' := by rw [hc] at hc'; exact Option.some.inj hc'
        exact .inl (hmem l a hl _ (by rw [hk]; simp))
      | @push r j k c b' i j₁ ri hr hc hs hri hA =>
        obtain ⟨p, l, h1, h2⟩ := hvar r hr j c k b' i j₁ hc hs ri hri hA
        obtain ⟨c₁, hc₁, hk⟩ := tsaVariable_keys h1
        have : (b', (⟨[.position r.key j k], [.position r.key j k, .position ri.key j₁ 0]⟩ : PdInstr (TsaSymbol N T))) ∈ l.map ttsKey := by rw [hk]; simp
        obtain ⟨t, ht, he⟩ := List.mem_map.1 this
        exact .inr (List.mem_map.2 ⟨t, h2 t ht, he⟩)
      | @down r j k c b' i j₁ ri c₁ hr hc hs hri hA hc₁ =>
        obtain ⟨p, l, h1, h2⟩ := hvar r hr j c k b' i j₁ hc hs ri hri hA
        obtain ⟨c', hc', hk⟩ := tsaVariable_keys h1
        obtain rfl : c₁ = c' := by rw [hc₁] at hc'; exact Option.some.inj hc'
        have : (trail c₁ [], (⟨[.position ri.key j₁ (segs c₁ []).length, .position r.key j k], [.position r.key j (k + 1)]⟩ : PdInstr (TsaSymbol N T))) ∈ l.map ttsKey := by
          rw [hk]; simp
        obtain ⟨t, ht, he⟩ := List.mem_map.1 this
        exact .inr (List.mem_map.2 ⟨t, h2 t ht, he⟩)
    · intro r hr hin
      obtain ⟨l, hl, hrl⟩ := hini r hr hin
      obtain ⟨c, hc, _⟩ := hinit r l hrl
      exact ⟨c, hc⟩
    · intro r hr j c k b' i j₁ hc hk ri hri hA
      obtain ⟨p, l, h1, h2⟩ := hvar r hr j c k b' i j₁ hc hk ri hri hA
      obtain ⟨c₁, hc₁, _⟩ := tsaVariable_keys h1
      exact ⟨c₁, hc₁⟩
  · cases h

end

end Rustomata
