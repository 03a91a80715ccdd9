import Verif.Model.FromPmcfg
import Verif.Proofs.McfgLcfrs
import Verif.Proofs.Tsa

/-!
# Proofs about the tree stack automaton of a PMCFG: the transitions
-/

namespace Rustomata
open Spec
variable {N T W : Type _}

/-- A component as a list of variables, each with the terminals before it. -/
def segs : List (VarT T) → List T → List (List T × Nat × Nat)
  | [], _ => []
  | .t a :: c, buf => segs c (buf ++ [a])
  | .var i j :: c, buf => (buf, i, j) :: segs c []

/-- The terminals after the last variable. -/
def trail : List (VarT T) → List T → List T
  | [], buf => buf
  | .t a :: c, buf => trail c (buf ++ [a])
  | .var _ _ :: c, _ => trail c []

theorem trail_t (c : List (VarT T)) (buf : List T) (a : T) : trail (c ++ [.t a]) buf = trail c buf ++ [a] := by
  induction c generalizing buf with
  | nil => rfl
  | cons x c ih => cases x <;> exact ih _

theorem trail_var (c : List (VarT T)) (buf : List T) (i j : Nat) : trail (c ++ [.var i j]) buf = [] := by
  induction c generalizing buf with
  | nil => rfl
  | cons x c ih => cases x <;> exact ih _

theorem downComponent_fst (buf : List T) (c : List (VarT T)) (i : Nat) (b : List T) : (downComponent buf c i).1 = i + (segs c b).length := by
  induction c generalizing buf i b with
  | nil => rfl
  | cons x c ih =>
    cases x with
    | t a => exact ih _ _ _
    | var i' j => simp only [downComponent, segs, List.length_cons]; rw [ih [] (i + 1) []]; omega

theorem downComponent_append (buf : List T) (c : List (VarT T)) (x : VarT T) (i : Nat) :
    (downComponent buf (c ++ [x]) i).2 = match x with | .t a => [a] | .var _ _ => [] := by
  induction c generalizing buf i with
  | nil => cases x <;> rfl
  | cons y c ih => cases y <;> exact ih _ _

theorem downComponent_trail (buf : List T) (c : List (VarT T)) (hne : c = [] → buf = []) (h : ∀ l a b, c ≠ l ++ [.t a, .t b]) (i : Nat) :
    (downComponent buf c i).2 = trail c [] := by
  rcases List.eq_nil_or_concat c with rfl | ⟨l, x, rfl⟩
  · simp [downComponent, trail, hne rfl]
  · rw [List.concat_eq_append, downComponent_append]
    cases x with
    | var i j => rw [trail_var]
    | t a =>
      rw [trail_t]
      rcases List.eq_nil_or_concat l with rfl | ⟨l', y, rfl⟩
      · rfl
      · cases y with
        | var i j => rw [List.concat_eq_append, trail_var]; rfl
        | t b => exact absurd (by simp) (h l' b a)

theorem downInfoFrom_get (buf : List T) (cs : Composition T) (h : ∀ comp ∈ cs, ∀ l a b, comp ≠ l ++ [.t a, .t b])
    (h' : ∀ (j : Nat), cs[j + 1]? = some [] → ∀ l a, cs[j]? ≠ some (l ++ [.t a])) (hb : ∀ cs', cs = [] :: cs' → buf = []) (j : Nat) :
    (downInfoFrom buf cs)[j]? = (cs[j]?).map fun c => ((segs c []).length, trail c []) := by
  induction cs generalizing buf j with
  | nil => rfl
  | cons c cs ih =>
    have hd := downComponent_trail buf c (fun hc => hb cs (by rw [hc])) (h c (by simp)) 0
    have hf := downComponent_fst buf c 0 []
    rw [Nat.zero_add] at hf
    simp only [downInfoFrom]
    cases j with
    | zero =>
      simp only [List.getElem?_cons_zero, Option.map_some]
      rw [← hd, ← hf]
    | succ j =>
      simp only [List.getElem?_cons_succ]
      refine ih _ (fun comp hc => h comp (by simp [hc])) (fun j hj => by simpa using h' (j + 1) (by simpa using hj)) ?_ j
      rintro cs' rfl
      rw [hd]
      rcases List.eq_nil_or_concat c with rfl | ⟨l, x, rfl⟩
      · rfl
      · cases x with
        | var i j => rw [List.concat_eq_append, trail_var]
        | t a => exact absurd (by simp) (h' 0 (by simp) l a)

theorem downInfo_get (r : PMCFGRule N T W) (h : ShortTrails r.composition) (j : Nat) :
    (downInfo r)[j]? = (r.composition[j]?).map fun c => ((segs c []).length, trail c []) :=
  downInfoFrom_get [] _ h.1 h.2 (fun _ _ => rfl) j

theorem varsOf_append (c c' : Composition T) : varsOf (c ++ c') = varsOf c ++ varsOf c' := by
  unfold varsOf; simp

theorem segs_vars (c : List (VarT T)) (buf : List T) : (segs c buf).map Prod.snd = varsOf [c] := by
  induction c generalizing buf with
  | nil => rfl
  | cons x c ih =>
    cases x with
    | t a => simp only [segs]; rw [ih]; simp [varsOf]
    | var i j => simp only [segs, List.map_cons]; rw [ih]; simp [varsOf]

theorem allSegs_vars (cs : Composition T) : (cs.flatMap fun c => (segs c []).map Prod.snd) = varsOf cs := by
  induction cs with
  | nil => rfl
  | cons c cs ih =>
    rw [List.flatMap_cons, ih, segs_vars]
    exact (varsOf_append [c] cs).symm

/-- The variables before the `k`-th variable of the `j`-th component. -/
def before (cs : Composition T) (j k : Nat) : List (Nat × Nat) :=
  varsOf (cs.take j) ++ match cs[j]? with
    | some c => ((segs c []).map Prod.snd).take k
    | none => []

/-- How many of them belong to the `i`-th nonterminal. -/
def cnt (cs : Composition T) (j k i : Nat) : Nat := ((before cs j k).filter (·.1 = i)).length

theorem before_zero (cs : Composition T) : before cs 0 0 = [] := by
  unfold before; cases cs <;> simp [varsOf]

theorem before_succ {cs : Composition T} {j k : Nat} {c : List (VarT T)} {b : List T} {i j₁ : Nat} (hc : cs[j]? = some c)
    (hs : (segs c [])[k]? = some (b, i, j₁)) : before cs j (k + 1) = before cs j k ++ [(i, j₁)] := by
  unfold before
  rw [hc]
  simp only
  rw [List.take_add_one, List.getElem?_map, hs]
  simp

theorem before_next {cs : Composition T} {j : Nat} {c : List (VarT T)} (hc : cs[j]? = some c) :
    before cs (j + 1) 0 = before cs j (segs c []).length := by
  unfold before
  rw [List.take_add_one, hc, varsOf_append]
  simp only
  rw [List.take_of_length_le (l := (segs c []).map Prod.snd) (by simp), segs_vars]
  cases cs[j + 1]? <;> simp

theorem before_all (cs : Composition T) : before cs cs.length 0 = varsOf cs := by
  unfold before; simp

theorem before_split {cs : Composition T} {j k : Nat} {c : List (VarT T)} {b : List T} {i j₁ : Nat} (hc : cs[j]? = some c)
    (hs : (segs c [])[k]? = some (b, i, j₁)) : ∃ l, varsOf cs = before cs j k ++ (i, j₁) :: l := by
  obtain ⟨hj, rfl⟩ := List.getElem?_eq_some_iff.1 hc
  have h1 : varsOf cs = varsOf (cs.take j) ++ ((segs cs[j] []).map Prod.snd ++ varsOf (cs.drop (j + 1))) := by
    conv_lhs => rw [← List.take_append_drop j cs, varsOf_append, List.drop_eq_getElem_cons hj]
    rw [segs_vars, show cs[j] :: cs.drop (j + 1) = [cs[j]] ++ cs.drop (j + 1) from rfl, varsOf_append]
  have hs' : ((segs cs[j] []).map Prod.snd)[k]? = some (i, j₁) := by rw [List.getElem?_map, hs]; rfl
  obtain ⟨hk, he⟩ := List.getElem?_eq_some_iff.1 hs'
  refine ⟨((segs cs[j] []).map Prod.snd).drop (k + 1) ++ varsOf (cs.drop (j + 1)), ?_⟩
  rw [h1]
  unfold before
  rw [hc]
  simp only
  conv_lhs => rw [← List.take_append_drop k ((segs cs[j] []).map Prod.snd), List.drop_eq_getElem_cons hk, he]
  simp

/-- In ordered grammars, the component of a variable is the number of previous variables of the nonterminal. -/
theorem ordered_cnt {cs : Composition T} {j k : Nat} {c : List (VarT T)} {b : List T} {i j₁ n : Nat} (hc : cs[j]? = some c)
    (hs : (segs c [])[k]? = some (b, i, j₁)) (ho : ((varsOf cs).filter (·.1 = i)).map (·.2) = List.range n) :
    j₁ = cnt cs j k i ∧ j₁ < n ∧ (((before cs j k).filter (·.1 = i)).getLast?).map (·.2) = if j₁ = 0 then none else some (j₁ - 1) := by
  obtain ⟨l, hl⟩ := before_split hc hs
  rw [hl, List.filter_append, List.map_append, List.filter_cons_of_pos (by simp), List.map_cons] at ho
  have hlen : (List.map (·.2) ((before cs j k).filter (·.1 = i))).length = cnt cs j k i := by simp [cnt]
  have h1 : (List.range n)[cnt cs j k i]? = some j₁ := by
    rw [← ho, List.getElem?_append_right (by omega), hlen, Nat.sub_self]; rfl
  obtain ⟨h2, h3⟩ := List.getElem?_eq_some_iff.1 h1
  rw [List.getElem_range] at h3
  rw [List.length_range] at h2
  refine ⟨h3.symm, by omega, ?_⟩
  rw [← List.getLast?_map, List.getLast?_eq_getElem?, hlen]
  split
  · rename_i h0
    rw [List.getElem?_eq_none_iff]
    omega
  · rename_i h0
    have : (List.range n)[cnt cs j k i - 1]? = some (cnt cs j k i - 1) := List.getElem?_range (by omega)
    rw [← ho, List.getElem?_append_left (by omega), h3] at this
    rw [h3]; exact this

/-! ### The transitions -/

/-- `previous_component` after some variables. -/
def prevAfter (prev : List (Option Nat)) (l : List (Nat × Nat)) : List (Option Nat) := l.foldl (fun p s => p.set s.1 (some s.2)) prev

theorem prevAfter_append (prev : List (Option Nat)) (l l' : List (Nat × Nat)) : prevAfter prev (l ++ l') = prevAfter (prevAfter prev l) l' := by
  unfold prevAfter; rw [List.foldl_append]

theorem prevAfter_get (n : Nat) (l : List (Nat × Nat)) (i : Nat) (p : Option Nat) :
    (prevAfter (List.replicate n none) l)[i]? = some p ↔ i < n ∧ p = ((l.filter (·.1 = i)).getLast?).map (·.2) := by
  have hlen : ∀ l, (prevAfter (List.replicate n none) l).length = n := by
    intro l
    induction l using List.reverseRecOn with
    | nil => simp [prevAfter]
    | append_singleton l x ih => rw [prevAfter_append]; simp [prevAfter] at ih ⊢; exact ih
  induction l using List.reverseRecOn generalizing p with
  | nil =>
    simp only [prevAfter, List.foldl_nil, List.getElem?_replicate]
    simp only [List.filter_nil, List.getLast?_nil, Option.map_none]
    split
    · rename_i h; simp [h, eq_comm]
    · rename_i h; simp [h]
  | append_singleton l x ih =>
    rw [prevAfter_append]
    show ((prevAfter (List.replicate n none) l).set x.1 (some x.2))[i]? = some p ↔ _
    rw [List.getElem?_set, hlen, List.filter_append]
    by_cases hx : x.1 = i
    · simp only [hx, if_true]
      rw [List.filter_cons_of_pos (by simp [hx]), List.filter_nil, List.getLast?_append]
      simp only [List.getLast?_singleton, Option.some_or, Option.map_some]
      split
      · rename_i h; simp [h, eq_comm]
      · rename_i h; simp [h]
    · rw [if_neg hx, List.filter_cons_of_neg (by simp [hx]), List.filter_nil, List.append_nil]
      exact ih p

section
variable [One W]

theorem tsaTokens_mem (r : PMCFGRule N T W) (rss : List (List (PMCFGRule N T W))) (j : Nat) (c : List (VarT T)) (k : Nat) (buf : List T)
    (prev : List (Option Nat)) {ts : List (TsaTransition N T W)} {prev' : List (Option Nat)} (h : tsaTokens r rss j c k buf prev = some (ts, prev')) :
    prev' = prevAfter prev ((segs c buf).map Prod.snd) ∧
    (∀ k' b i₁ j₁, (segs c buf)[k']? = some (b, i₁, j₁) → ∃ rs p, rss[i₁]? = some rs ∧
      (prevAfter prev (((segs c buf).map Prod.snd).take k'))[i₁]? = some p ∧
      ∀ ri ∈ rs, ∃ l, tsaVariable r j (k + k') b i₁ j₁ p ri = some l ∧ ∀ t ∈ l, t ∈ ts) ∧
    ∀ t ∈ ts, ∃ k' b i₁ j₁, (segs c buf)[k']? = some (b, i₁, j₁) ∧ ∃ rs p, rss[i₁]? = some rs ∧
      (prevAfter prev (((segs c buf).map Prod.snd).take k'))[i₁]? = some p ∧
      ∃ ri ∈ rs, ∃ l, tsaVariable r j (k + k') b i₁ j₁ p ri = some l ∧ t ∈ l := by
  induction c generalizing k buf prev ts prev' with
  | nil => simp [tsaTokens] at h; obtain ⟨rfl, rfl⟩ := h; simp [segs, prevAfter]
  | cons x c ih =>
    cases x with
    | t a => exact ih _ _ _ h
    | var i₁ j₁ =>
      simp only [tsaTokens] at h
      split at h
      · rename_i rs p hrs hp
        split at h
        · rename_i tss ts' pr hm hrec
          simp only [Option.some_inj, Prod.mk.injEq] at h
          obtain ⟨rfl, rfl⟩ := h
          obtain ⟨h1, h2, h3⟩ := ih _ _ _ hrec
          replace hm := mapM_some_iff.1 hm
          refine ⟨?_, ?_, ?_⟩
          · rw [h1]; rfl
          · intro k' b i' j' hk
            cases k' with
            | zero =>
              simp only [segs, List.getElem?_cons_zero, Option.some_inj, Prod.mk.injEq] at hk
              obtain ⟨rfl, rfl, rfl⟩ := hk
              refine ⟨rs, p, hrs, by simpa [prevAfter] using hp, fun ri hri => ?_⟩
              obtain ⟨l, hl, hrl⟩ := forall₂_mem_left hm hri
              exact ⟨l, hrl, fun t ht => List.mem_append_left _ (List.mem_flatten.2 ⟨l, hl, ht⟩)⟩
            | succ k' =>
              simp only [segs, List.getElem?_cons_succ] at hk
              obtain ⟨rs', p', g1, g2, g3⟩ := h2 k' b i' j' hk
              refine ⟨rs', p', g1, g2, fun ri hri => ?_⟩
              obtain ⟨l, hl, hm⟩ := g3 ri hri
              exact ⟨l, by rw [← hl]; congr 1; omega, fun t ht => List.mem_append_right _ (hm t ht)⟩
          · intro t ht
            rcases List.mem_append.1 ht with ht | ht
            · obtain ⟨l, hl, ht⟩ := List.mem_flatten.1 ht
              obtain ⟨ri, hri, hrl⟩ := forall₂_mem_right hm hl
              exact ⟨0, buf, i₁, j₁, rfl, rs, p, hrs, by simpa [prevAfter] using hp, ri, hri, l, hrl, ht⟩
            · obtain ⟨k', b, i', j', g1, rs', p', g2, g3, ri, g4, l, g5, g6⟩ := h3 t ht
              exact ⟨k' + 1, b, i', j', g1, rs', p', g2, g3, ri, g4, l, by rw [← g5]; congr 1; omega, g6⟩
        · cases h
      · cases h

theorem tsaComponents_mem (r : PMCFGRule N T W) (rss : List (List (PMCFGRule N T W))) (cs : Composition T) (j : Nat) (prev : List (Option Nat))
    {ts : List (TsaTransition N T W)} (h : tsaComponents r rss cs j prev = some ts) :
    (∀ j' c k b i₁ j₁, cs[j']? = some c → (segs c [])[k]? = some (b, i₁, j₁) → ∃ rs p, rss[i₁]? = some rs ∧
      (prevAfter prev (before cs j' k))[i₁]? = some p ∧
      ∀ ri ∈ rs, ∃ l, tsaVariable r (j + j') k b i₁ j₁ p ri = some l ∧ ∀ t ∈ l, t ∈ ts) ∧
    ∀ t ∈ ts, ∃ j' c k b i₁ j₁, cs[j']? = some c ∧ (segs c [])[k]? = some (b, i₁, j₁) ∧ ∃ rs p, rss[i₁]? = some rs ∧
      (prevAfter prev (before cs j' k))[i₁]? = some p ∧
      ∃ ri ∈ rs, ∃ l, tsaVariable r (j + j') k b i₁ j₁ p ri = some l ∧ t ∈ l := by
  induction cs generalizing j prev ts with
  | nil => simp [tsaComponents] at h; subst h; simp
  | cons c cs ih =>
    simp only [tsaComponents] at h
    split at h
    · cases h
    · rename_i ts₁ prev' ht
      obtain ⟨ts₂, hts₂, rfl⟩ := Option.map_eq_some_iff.1 h
      obtain ⟨h1, h2, h3⟩ := tsaTokens_mem _ _ _ _ _ _ _ ht
      obtain ⟨h4, h5⟩ := ih _ _ hts₂
      have hb0 : ∀ k, before (c :: cs) 0 k = ((segs c []).map Prod.snd).take k := by intro k; simp [before, varsOf]
      have hbs : ∀ j' k, before (c :: cs) (j' + 1) k = (segs c []).map Prod.snd ++ before cs j' k := by
        intro j' k
        unfold before
        rw [List.take_succ_cons, List.getElem?_cons_succ, segs_vars, show c :: cs.take j' = [c] ++ cs.take j' from rfl, varsOf_append, List.append_assoc]
      constructor
      · intro j' c' k b i₁ j₁ hc hs
        cases j' with
        | zero =>
          simp only [List.getElem?_cons_zero, Option.some_inj] at hc
          subst hc
          obtain ⟨rs, p, g1, g2, g3⟩ := h2 k b i₁ j₁ hs
          refine ⟨rs, p, g1, by rw [hb0]; exact g2, fun ri hri => ?_⟩
          obtain ⟨l, hl, hm⟩ := g3 ri hri
          exact ⟨l, by rw [← hl]; simp, fun t ht => List.mem_append_left _ (hm t ht)⟩
        | succ j' =>
          obtain ⟨rs, p, g1, g2, g3⟩ := h4 j' c' k b i₁ j₁ (by simpa using hc) hs
          refine ⟨rs, p, g1, by rw [hbs, prevAfter_append, ← h1]; exact g2, fun ri hri => ?_⟩
          obtain ⟨l, hl, hm⟩ := g3 ri hri
          exact ⟨l, by rw [← hl]; congr 1; omega, fun t ht => List.mem_append_right _ (hm t ht)⟩
      · intro t ht
        rcases List.mem_append.1 ht with ht | ht
        · obtain ⟨k, b, i₁, j₁, g1, rs, p, g2, g3, ri, g4, l, g5, g6⟩ := h3 t ht
          exact ⟨0, c, k, b, i₁, j₁, rfl, g1, rs, p, g2, by rw [hb0]; exact g3, ri, g4, l, by rw [← g5]; simp, g6⟩
        · obtain ⟨j', c', k, b, i₁, j₁, g0, g1, rs, p, g2, g3, ri, g4, l, g5, g6⟩ := h5 t ht
          exact ⟨j' + 1, c', k, b, i₁, j₁, by simpa using g0, g1, rs, p, g2, by rw [hbs, prevAfter_append, ← h1]; exact g3, ri, g4, l,
            by rw [← g5]; congr 1; omega, g6⟩

/-- The transitions of the automaton of an ordered grammar with short trails. -/
inductive IsTrans (g : PMCFG N T W) : TsaTransition N T W → Prop
  | init {r} : r ∈ g.rules → r.head ∈ g.initial → IsTrans g ⟨[], r.weight, .push 0 .initial (.position r.key 0 0)⟩
  | fin {r c} : r ∈ g.rules → r.head ∈ g.initial → r.composition[0]? = some c →
      IsTrans g ⟨trail c [], 1, .down (.position r.key 0 (segs c []).length) .initial .designated⟩
  | push {r : PMCFGRule N T W} {j k c b i} {ri : PMCFGRule N T W} : r ∈ g.rules → r.composition[j]? = some c → (segs c [])[k]? = some (b, i, 0) →
      ri ∈ g.rules → r.tail[i]? = some ri.head →
      IsTrans g ⟨b, ri.weight, .push i (.position r.key j k) (.position ri.key 0 0)⟩
  | up {r : PMCFGRule N T W} {j k c b i j₀} {ri : PMCFGRule N T W} {c₀} : r ∈ g.rules → r.composition[j]? = some c →
      (segs c [])[k]? = some (b, i, j₀ + 1) → ri ∈ g.rules → r.tail[i]? = some ri.head → ri.composition[j₀]? = some c₀ →
      IsTrans g ⟨b, 1, .up i (.position r.key j k) (.position ri.key j₀ (segs c₀ []).length) (.position ri.key (j₀ + 1) 0)⟩
  | down {r : PMCFGRule N T W} {j k c b i j₁} {ri : PMCFGRule N T W} {c₁} : r ∈ g.rules → r.composition[j]? = some c →
      (segs c [])[k]? = some (b, i, j₁) → ri ∈ g.rules → r.tail[i]? = some ri.head → ri.composition[j₁]? = some c₁ →
      IsTrans g ⟨trail c₁ [], 1, .down (.position ri.key j₁ (segs c₁ []).length) (.position r.key j k) (.position r.key j (k + 1))⟩

variable [DecidableEq N]

theorem tsaTransitions_mem {g : PMCFG N T W} {ts : List (TsaTransition N T W)} (h : tsaTransitions g = some ts) (ho : Ordered g.rules)
    (hs : ∀ r ∈ g.rules, ShortTrails r.composition) : (∀ t, t ∈ ts ↔ IsTrans g t) ∧
    ∀ r ∈ g.rules, (∀ i j, (i, j) ∈ varsOf r.composition → i < r.tail.length) ∧ ∀ A ∈ r.tail, ∃ r' ∈ g.rules, r'.head = A := by
  unfold tsaTransitions at h
  split at h
  · rename_i a b ha hb
    simp only [Option.some_inj] at h
    subst h
    replace ha := mapM_some_iff.1 ha
    replace hb := mapM_some_iff.1 hb
    have hrss : ∀ r : PMCFGRule N T W, ∀ rss, r.tail.mapM (ruleMapGet g.rules) = some rss → ∀ (i : Nat) rs, rss[i]? = some rs →
        ∃ A, r.tail[i]? = some A ∧ rs = g.rules.filter (fun r => r.head = A) ∧ ∃ r' ∈ g.rules, r'.head = A := by
      intro r rss hr i rs hi
      have := mapM_getElem? hr i
      rw [hi] at this
      obtain ⟨A, hA, hg⟩ := Option.bind_eq_some_iff.1 this.symm
      unfold ruleMapGet at hg
      split at hg
      · rename_i hm
        obtain ⟨r', hr', he⟩ := List.mem_map.1 hm
        simp only [Option.some_inj] at hg
        exact ⟨A, hA, hg.symm, r', hr', he⟩
      · cases hg
    -- each rule
    have hrule : ∀ r ∈ g.rules, ∃ l ∈ b, ∃ rss, r.tail.mapM (ruleMapGet g.rules) = some rss ∧
        tsaComponents r rss r.composition 0 (List.replicate rss.length none) = some l := by
      intro r hr
      obtain ⟨l, hl, hrl⟩ := forall₂_mem_left hb hr
      unfold tsaRule at hrl
      split at hrl
      · cases hrl
      · rename_i rss hrss
        exact ⟨l, hl, rss, hrss, by rw [← hrl, List.map_const']⟩
    have hvar : ∀ r ∈ g.rules, ∀ (j : Nat) c (k : Nat) b' (i₁ : Nat) j₁, r.composition[j]? = some c → (segs c [])[k]? = some (b', i₁, j₁) →
        ∀ rss, r.tail.mapM (ruleMapGet g.rules) = some rss → ∀ rs p, rss[i₁]? = some rs →
        (prevAfter (List.replicate rss.length none) (before r.composition j k))[i₁]? = some p →
        p = (if j₁ = 0 then none else some (j₁ - 1)) ∧ ∀ ri, ri ∈ rs ↔ ri ∈ g.rules ∧ r.tail[i₁]? = some ri.head := by
      intro r hr j c k b' i₁ j₁ hc hk rss hrs rs p hi hp
      obtain ⟨A, hA, hrs', r', hr', he⟩ := hrss r rss hrs i₁ rs hi
      have hor := ho r hr i₁ A hA r' hr' he
      obtain ⟨g1, g2, g3⟩ := ordered_cnt hc hk hor
      refine ⟨?_, ?_⟩
      · rw [((prevAfter_get _ _ _ _).1 hp).2, g3]
      · intro ri
        rw [hrs', List.mem_filter, hA]
        simp only [decide_eq_true_eq, Option.some_inj]
        exact and_congr_right fun _ => eq_comm
    refine ⟨fun t => ⟨?_, ?_⟩, ?_⟩
    · intro ht
      rcases List.mem_append.1 ht with ht | ht
      · obtain ⟨l, hl, ht⟩ := List.mem_flatten.1 ht
        obtain ⟨r, hr, hrl⟩ := forall₂_mem_right ha hl
        rw [List.mem_filter] at hr
        have hin : r.head ∈ g.initial := by simpa using hr.2
        unfold tsaInitial at hrl
        rw [downInfo_get r (hs r hr.1)] at hrl
        cases hc : r.composition[0]? with
        | none => simp [hc] at hrl
        | some c =>
          simp only [hc, Option.map_some, Option.some_inj] at hrl
          subst hrl
          simp only [List.mem_cons, List.not_mem_nil, or_false] at ht
          rcases ht with rfl | rfl
          · exact .init hr.1 hin
          · exact .fin hr.1 hin hc
      · obtain ⟨l, hl, ht⟩ := List.mem_flatten.1 ht
        obtain ⟨r, hr, hrl⟩ := forall₂_mem_right hb hl
        unfold tsaRule at hrl
        split at hrl
        · cases hrl
        · rename_i rss hrs
          rw [List.map_const'] at hrl
          obtain ⟨_, h2⟩ := tsaComponents_mem _ _ _ _ _ hrl
          obtain ⟨j, c, k, b', i₁, j₁, g1, g2, rs, p, g3, g4, ri, g5, l', g6, g7⟩ := h2 t ht
          obtain ⟨rfl, g9⟩ := hvar r hr j c k b' i₁ j₁ g1 g2 rss hrs rs p g3 g4
          obtain ⟨g10, g11⟩ := (g9 ri).1 g5
          rw [Nat.zero_add] at g6
          unfold tsaVariable at g6
          simp only [downInfo_get ri (hs ri g10)] at g6
          cases hc₁ : ri.composition[j₁]? with
          | none => simp [hc₁] at g6
          | some c₁ =>
            simp only [hc₁, Option.map_some] at g6
            cases j₁ with
            | zero =>
              simp only [if_true, Option.some_inj] at g6
              subst g6
              simp only [List.mem_cons, List.not_mem_nil, or_false] at g7
              rcases g7 with rfl | rfl
              · exact .push hr g1 g2 g10 g11
              · exact .down hr g1 g2 g10 g11 hc₁
            | succ j₀ =>
              simp only [Nat.add_one_ne_zero, if_false, Nat.add_sub_cancel] at g6
              cases hc₀ : ri.composition[j₀]? with
              | none => simp [hc₀] at g6
              | some c₀ =>
                simp only [hc₀, Option.map_some, Option.some_inj] at g6
                subst g6
                simp only [List.mem_cons, List.not_mem_nil, or_false] at g7
                rcases g7 with rfl | rfl
                · exact .up hr g1 g2 g10 g11 hc₀
                · exact .down hr g1 g2 g10 g11 hc₁
    · intro ht
      have hgen : ∀ r ∈ g.rules, ∀ (j k : Nat) c b' (i : Nat) (j₁ : Nat) (ri : PMCFGRule N T W), r.composition[j]? = some c → (segs c [])[k]? = some (b', i, j₁) →
          ri ∈ g.rules → r.tail[i]? = some ri.head → ∃ l, tsaVariable r j k b' i j₁ (if j₁ = 0 then none else some (j₁ - 1)) ri = some l ∧
          ∀ t ∈ l, t ∈ a.flatten ++ b.flatten := by
        intro r hr j k c b' i j₁ ri hc hk hri hti
        obtain ⟨l, hl, rss, hrs, hcomp⟩ := hrule r hr
        obtain ⟨h1, _⟩ := tsaComponents_mem _ _ _ _ _ hcomp
        obtain ⟨rs, p, g1, g2, g3⟩ := h1 j c k b' i j₁ hc hk
        obtain ⟨rfl, g5⟩ := hvar r hr j c k b' i j₁ hc hk rss hrs rs p g1 g2
        obtain ⟨l', g6, g7⟩ := g3 ri ((g5 ri).2 ⟨hri, hti⟩)
        rw [Nat.zero_add] at g6
        exact ⟨l', g6, fun t ht => List.mem_append_right _ (List.mem_flatten.2 ⟨l, hl, g7 t ht⟩)⟩
      have hinit : ∀ r ∈ g.rules, r.head ∈ g.initial → ∃ l, tsaInitial r = some l ∧ ∀ t ∈ l, t ∈ a.flatten ++ b.flatten := by
        intro r hr hi
        obtain ⟨l, hl, hrl⟩ := forall₂_mem_left ha (List.mem_filter.2 ⟨hr, by simpa using hi⟩)
        exact ⟨l, hrl, fun t ht => List.mem_append_left _ (List.mem_flatten.2 ⟨l, hl, ht⟩)⟩
      cases ht with
      | @init r hr hi =>
        obtain ⟨l, h1, h2⟩ := hinit r hr hi
        refine h2 _ ?_
        unfold tsaInitial at h1
        split at h1
        · cases h1
        · simp only [Option.some_inj] at h1
          subst h1; simp
      | @fin r c hr hi hc =>
        obtain ⟨l, h1, h2⟩ := hinit r hr hi
        refine h2 _ ?_
        unfold tsaInitial at h1
        rw [downInfo_get r (hs r hr), hc] at h1
        simp only [Option.map_some, Option.some_inj] at h1
        subst h1; simp
      | @push r j k c b' i ri hr hc hk hri hti =>
        obtain ⟨l, h1, h2⟩ := hgen r hr j k c b' i 0 ri hc hk hri hti
        refine h2 _ ?_
        unfold tsaVariable at h1
        split at h1
        · cases h1
        · simp only [if_true, Option.some_inj] at h1
          subst h1; simp
      | @up r j k c b' i j₀ ri c₀ hr hc hk hri hti hc₀ =>
        obtain ⟨l, h1, h2⟩ := hgen r hr j k c b' i (j₀ + 1) ri hc hk hri hti
        refine h2 _ ?_
        unfold tsaVariable at h1
        split at h1
        · cases h1
        · simp only [Nat.add_one_ne_zero, if_false, Nat.add_sub_cancel, downInfo_get ri (hs ri hri), hc₀, Option.map_some, Option.some_inj] at h1
          subst h1; simp
      | @down r j k c b' i j₁ ri c₁ hr hc hk hri hti hc₁ =>
        obtain ⟨l, h1, h2⟩ := hgen r hr j k c b' i j₁ ri hc hk hri hti
        refine h2 _ ?_
        unfold tsaVariable at h1
        simp only [downInfo_get ri (hs ri hri), hc₁, Option.map_some] at h1
        split at h1
        · simp only [Option.some_inj] at h1; subst h1; simp
        · split at h1
          · cases h1
          · simp only [Option.some_inj] at h1; subst h1; simp
    · intro r hr
      obtain ⟨l, hl, rss, hrs, hcomp⟩ := hrule r hr
      have hlen := mapM_length hrs
      constructor
      · intro i j hij
        obtain ⟨h1, _⟩ := tsaComponents_mem _ _ _ _ _ hcomp
        rw [← allSegs_vars, List.mem_flatMap] at hij
        obtain ⟨c, hc, hij⟩ := hij
        obtain ⟨j', hj'⟩ := List.getElem?_of_mem hc
        obtain ⟨⟨b', i', j''⟩, hx, he⟩ := List.mem_map.1 hij
        simp only [Prod.mk.injEq] at he
        obtain ⟨rfl, rfl⟩ := he
        obtain ⟨k, hk⟩ := List.getElem?_of_mem hx
        obtain ⟨rs, p, g1, _⟩ := h1 j' c k b' i' j'' hj' hk
        have := (List.getElem?_eq_some_iff.1 g1).1
        omega
      · intro A hA
        obtain ⟨i, hi⟩ := List.getElem?_of_mem hA
        have hi' := (List.getElem?_eq_some_iff.1 hi).1
        obtain ⟨A', hA', _, h⟩ := hrss r rss hrs i _ (List.getElem?_eq_getElem (by omega))
        rw [hi, Option.some_inj] at hA'
        subst hA'
        exact h
  · cases h

end
end Rustomata
