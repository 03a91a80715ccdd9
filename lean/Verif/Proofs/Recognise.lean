import Verif.Spec.Recognise
import Verif.Proofs.Search
import Verif.Proofs.Heaps
import Verif.Proofs.Util
import Mathlib.Data.Multiset.Bind
import Mathlib.Data.Multiset.Filter
import Mathlib.Algebra.Order.Monoid.Defs

/-!
# Helper lemmas for recognition
-/

set_option linter.unusedSectionVars false
set_option linter.unusedSimpArgs false

namespace Rustomata
open Spec

variable {A X K S I T W : Type _}

/-- A total successor function: no successors instead of a panic. -/
def noPanic (succ : X → Option (List X)) (x : X) : List X := match succ x with
  | some l => l
  | none => []

theorem Search.runP_run {G : Agenda A X} {succ : X → Option (List X)} {n : Nat} {a b : A} {r : List X}
    (h : Search.runP G succ n a = some (r, b)) :
    Search.run G (noPanic succ) n a = (r, b) ∧ ∀ x ∈ r, ∃ ys, succ x = some ys := by
  induction n generalizing a r with
  | zero => simp [Search.runP] at h; simp [Search.run, h]
  | succ n ih =>
    unfold Search.runP at h
    unfold Search.run Search.next
    split at h
    · rename_i hp
      simp only [Option.some.injEq, Prod.mk.injEq] at h
      obtain ⟨rfl, rfl⟩ := h
      simp [hp]
    · rename_i x a' hp
      rw [hp]
      split at h
      · simp at h
      · rename_i ys hys
        split at h
        · simp at h
        · rename_i r' b' hr
          simp only [Option.some.injEq, Prod.mk.injEq] at h
          obtain ⟨rfl, rfl⟩ := h
          have := ih hr
          have hn : noPanic succ x = ys := by simp [noPanic, hys]
          simp only [hn, this.1, true_and]
          intro y hy
          rcases List.mem_cons.1 hy with rfl | hy
          · exact ⟨ys, hys⟩
          · exact this.2 y hy

theorem Search.runP_none {G : Agenda A X} {succ : X → Option (List X)} {n : Nat} {a : A}
    (h : Search.runP G succ n a = none) :
    ∃ m, ∃ x ∈ (Search.run G (noPanic succ) m a).1, succ x = none := by
  induction n generalizing a with
  | zero => simp [Search.runP] at h
  | succ n ih =>
    unfold Search.runP at h
    split at h
    · simp at h
    · rename_i x a' hp
      split at h
      · rename_i hx
        exact ⟨1, x, by simp [Search.run, Search.next, hp], hx⟩
      · rename_i ys hys
        split at h
        · rename_i hr
          obtain ⟨m, y, hy, hn⟩ := ih hr
          refine ⟨m + 1, y, ?_, hn⟩
          have hns : noPanic succ x = ys := by simp [noPanic, hys]
          simp only [Search.run, Search.next, hp, hns]
          exact List.mem_cons_of_mem _ hy
        · simp at h

/-- A non-panicking run is the run of the total successor function. -/
theorem Search.runP_of_no_panic {G : Agenda A X} {succ : X → Option (List X)} {n : Nat} {a : A}
    (h : ∀ x ∈ (Search.run G (noPanic succ) n a).1, ∃ ys, succ x = some ys) :
    Search.runP G succ n a = some (Search.run G (noPanic succ) n a) := by
  induction n generalizing a with
  | zero => rfl
  | succ n ih =>
    unfold Search.run Search.next at h ⊢
    unfold Search.runP
    cases hp : G.pop a with
    | none => rfl
    | some p =>
      obtain ⟨x, a'⟩ := p
      rw [hp] at h
      simp only at h ⊢
      obtain ⟨ys, hys⟩ := h x (by simp)
      have hns : noPanic succ x = ys := by simp [noPanic, hys]
      rw [hys]
      simp only
      rw [hns] at h ⊢
      rw [ih (fun y hy => h y (List.mem_cons_of_mem _ hy))]

/-! ### executions -/

theorem storages_append (ap : I → S → List S) (is js : List I) (s : S) :
    storages ap (is ++ js) s = (storages ap is s).flatMap (storages ap js) := by
  induction is generalizing s with
  | nil => simp [storages]
  | cons i is ih =>
    simp only [List.cons_append, storages, List.flatMap_assoc]
    congr 1; funext s'; exact ih s'

theorem storages_snoc (ap : I → S → List S) (is : List I) (i : I) (s : S) :
    storages ap (is ++ [i]) s = (storages ap is s).flatMap (ap i) := by
  rw [storages_append]; congr 1; funext s'; simp [storages]

theorem wordOf_append (ts us : List (Transition I T W)) : wordOf (ts ++ us) = wordOf ts ++ wordOf us := by
  simp [wordOf]

theorem weightFrom_eq [Monoid W] (w : W) (ts : List (Transition I T W)) : weightFrom w ts = w * (ts.map Transition.weight).prod := by
  induction ts generalizing w with
  | nil => simp [weightFrom]
  | cons t ts ih =>
    have := ih (w * t.weight)
    simp only [weightFrom, List.foldl_cons, List.map_cons, List.prod_cons, mul_assoc] at this ⊢
    exact this

/-- If the multiplication is associative, then the weight of a sequence of transitions is the product of their weights. -/
theorem weightOf_eq [Monoid W] (ts : List (Transition I T W)) : weightOf ts = (ts.map Transition.weight).prod := by
  rw [weightOf, weightFrom_eq, one_mul]

theorem weightOf_append [Monoid W] (ts us : List (Transition I T W)) :
    weightOf (ts ++ us) = weightOf ts * weightOf us := by
  simp [weightOf_eq]

theorem weightOf_snoc [Mul W] [One W] (ts : List (Transition I T W)) (t : Transition I T W) : weightOf (ts ++ [t]) = weightOf ts * t.weight := by
  simp [weightOf, weightFrom]

/-- Executions in terms of word, storage and weight. -/
theorem exec_iff_from [Mul W] (ap : I → S → List S) (ts : List (Transition I T W)) (c c' : Configuration S T W) :
    Exec ap c ts c' ↔ c.word = wordOf ts ++ c'.word ∧
      c'.storage ∈ storages ap (ts.map Transition.instruction) c.storage ∧ c'.weight = weightFrom c.weight ts := by
  induction ts generalizing c with
  | nil =>
    constructor
    · intro h; cases h; simp [wordOf, storages, weightFrom]
    · rintro ⟨h1, h2, h3⟩
      simp only [wordOf, storages, weightFrom, List.flatMap_nil, List.nil_append, List.map_nil, List.mem_singleton,
        List.foldl_nil] at h1 h2 h3
      have : c = c' := by cases c; cases c'; simp_all
      rw [this]; exact .nil _
  | cons t ts ih =>
    constructor
    · intro h
      cases h with
      | cons hs he =>
        rename_i c1
        obtain ⟨h1, h2, h3⟩ := (ih c1).1 he
        refine ⟨?_, ?_, ?_⟩
        · rw [hs.word, h1]; simp [wordOf]
        · simp only [List.map_cons, storages, List.mem_flatMap]
          exact ⟨_, hs.storage, h2⟩
        · rw [h3, hs.weight]; rfl
    · rintro ⟨h1, h2, h3⟩
      simp only [List.map_cons, storages, List.mem_flatMap] at h2
      obtain ⟨s1, hs1, h2⟩ := h2
      refine .cons (c' := ⟨wordOf ts ++ c'.word, s1, c.weight * t.weight⟩) ⟨?_, hs1, rfl⟩ ?_
      · rw [h1]; simp [wordOf]
      · rw [ih]
        refine ⟨rfl, h2, ?_⟩
        rw [h3]; rfl

theorem exec_iff [Monoid W] (ap : I → S → List S) (ts : List (Transition I T W)) (c c' : Configuration S T W) :
    Exec ap c ts c' ↔ c.word = wordOf ts ++ c'.word ∧
      c'.storage ∈ storages ap (ts.map Transition.instruction) c.storage ∧ c'.weight = c.weight * weightOf ts := by
  rw [exec_iff_from, weightFrom_eq, weightOf_eq]

theorem Spec.Exec.snoc [Mul W] {ap : I → S → List S} {ts : List (Transition I T W)} {c c' c'' : Configuration S T W}
    {t : Transition I T W} (h : Exec ap c ts c') (hs : Step ap t c' c'') : Exec ap c (ts ++ [t]) c'' := by
  induction h with
  | nil => exact .cons hs (.nil _)
  | cons hs' _ ih => exact .cons hs' (ih hs)

theorem exec_append [Mul W] {ap : I → S → List S} {ts us : List (Transition I T W)} {c c'' : Configuration S T W} :
    Exec ap c (ts ++ us) c'' ↔ ∃ c', Exec ap c ts c' ∧ Exec ap c' us c'' := by
  induction ts generalizing c with
  | nil => exact ⟨fun h => ⟨c, .nil _, h⟩, fun ⟨c', h1, h2⟩ => by cases h1; exact h2⟩
  | cons t ts ih =>
    constructor
    · intro h
      cases h with
      | cons hs he =>
        obtain ⟨c', h1, h2⟩ := ih.1 he
        exact ⟨c', .cons hs h1, h2⟩
    · rintro ⟨c', h1, h2⟩
      cases h1 with
      | cons hs he => exact .cons hs (ih.2 ⟨c', he, h2⟩)

theorem mem_apply [DecidableEq T] [Mul W] {ap : I → S → List S} {t : Transition I T W}
    {c c' : Configuration S T W} : c' ∈ t.apply ap c ↔ Step ap t c c' := by
  unfold Transition.apply
  constructor
  · intro h
    split at h
    · simp at h
    · rename_i hp
      rw [not_not, List.isPrefixOf_iff_prefix] at hp
      obtain ⟨s1, hs1, rfl⟩ := List.mem_map.1 h
      refine ⟨?_, hs1, rfl⟩
      obtain ⟨u, hu⟩ := hp
      rw [← hu]; simp
  · intro h
    have hp : t.word <+: c.word := ⟨c'.word, h.word.symm⟩
    rw [if_neg (by simpa using hp)]
    refine List.mem_map.2 ⟨c'.storage, h.storage, ?_⟩
    cases c'
    simp only [Configuration.mk.injEq, true_and]
    refine ⟨?_, h.weight.symm⟩
    rw [h.word]; simp

namespace Automaton
variable [DecidableEq K] [DecidableEq T]

/-- The transition map is a map, and a transition that is applicable is stored under the key of the configuration. -/
structure Coherent [Mul W] (M : Automaton K S I T W) : Prop where
  nodup : (M.table.map Prod.fst).Nodup
  key : ∀ k ts, (k, ts) ∈ M.table → ∀ t ∈ ts, ∀ c c', Step M.apply t c c' → ∀ k', M.key c = some k' → k' = k

theorem lookup_mem {M : Automaton K S I T W} {k : K} {t : Transition I T W} (h : t ∈ M.lookup k) :
    ∃ ts, (k, ts) ∈ M.table ∧ t ∈ ts := by
  unfold lookup at h
  split at h
  · rename_i p hp
    have h1 := List.find?_some hp
    have h2 := List.mem_of_find?_eq_some hp
    simp only [decide_eq_true_eq] at h1
    exact ⟨p.2, h1 ▸ h2, h⟩
  · simp at h

theorem lookup_sub {M : Automaton K S I T W} {k : K} {t : Transition I T W} (h : t ∈ M.lookup k) :
    t ∈ M.transitions := by
  obtain ⟨ts, h1, h2⟩ := lookup_mem h
  exact List.mem_flatMap.2 ⟨_, h1, h2⟩

theorem count_lookup [Mul W] [DecidableEq (Transition I T W)] {M : Automaton K S I T W} (hM : M.Coherent)
    {t : Transition I T W} {c c' : Configuration S T W} (hs : Step M.apply t c c') {k : K} (hk : M.key c = some k) :
    (M.lookup k).count t = M.transitions.count t := by
  have hkey := fun k' ts h ht => hM.key k' ts h t ht c c' hs k hk
  have hnd := hM.nodup
  unfold lookup transitions
  generalize M.table = tb at hkey hnd
  induction tb with
  | nil => simp
  | cons p tb ih =>
    obtain ⟨k', ts⟩ := p
    rw [List.map_cons, List.nodup_cons] at hnd
    have h0 : ∀ k' ts, (k', ts) ∈ tb → t ∈ ts → k = k' := fun a b h ht => hkey a b (by simp [h]) ht
    simp only [List.find?_cons, List.flatMap_cons, List.count_append]
    by_cases hkk : k' = k
    · subst hkk
      simp only [decide_true]
      have : (tb.flatMap Prod.snd).count t = 0 := by
        rw [List.count_eq_zero]
        intro hm
        obtain ⟨⟨k2, ts2⟩, h1, h2⟩ := List.mem_flatMap.1 hm
        have := h0 k2 ts2 h1 h2
        subst this
        exact hnd.1 (List.mem_map.2 ⟨_, h1, rfl⟩)
      omega
    · simp only [hkk, decide_false]
      have : ts.count t = 0 := by
        rw [List.count_eq_zero]
        intro hm
        exact hkk (hkey k' ts (by simp) hm).symm
      rw [this, ih h0 hnd.2]
      simp

theorem mem_successors [Mul W] {M : Automaton K S I T W} {i j : Item S I T W} (h : j ∈ noPanic M.successors i) :
    ∃ t ∈ M.transitions, Step M.apply t i.conf j.conf ∧ j.run = i.run.push t := by
  unfold noPanic successors at h
  cases hk : M.key i.conf with
  | none => simp [hk] at h
  | some k =>
    simp only [hk, List.mem_flatMap, List.mem_map] at h
    obtain ⟨t, ht, c1, hc, rfl⟩ := h
    exact ⟨t, lookup_sub ht, mem_apply.1 hc, rfl⟩

theorem mem_successors_iff [Mul W] {M : Automaton K S I T W} (hM : M.Coherent) {i j : Item S I T W}
    (hp : ∃ k, M.key i.conf = some k) : j ∈ noPanic M.successors i ↔
    ∃ t ∈ M.transitions, Step M.apply t i.conf j.conf ∧ j.run = i.run.push t := by
  refine ⟨mem_successors, ?_⟩
  rintro ⟨t, ht, hs, hr⟩
  obtain ⟨k, hk⟩ := hp
  unfold noPanic successors
  simp only [hk, List.mem_flatMap, List.mem_map]
  refine ⟨t, ?_, j.conf, mem_apply.2 hs, by cases j; simp_all⟩
  obtain ⟨⟨k', ts⟩, h1, h2⟩ := List.mem_flatMap.1 ht
  have := hM.key k' ts h1 t h2 _ _ hs k hk
  subst this
  unfold lookup
  have hf : M.table.find? (fun p => p.1 = k) = some (k, ts) := by
    have hnd := hM.nodup
    generalize M.table = tb at hnd h1
    induction tb with
    | nil => simp at h1
    | cons p tb ih =>
      rw [List.map_cons, List.nodup_cons] at hnd
      rw [List.find?_cons]
      rcases List.mem_cons.1 h1 with rfl | h1
      · simp
      · have : p.1 ≠ k := fun e => hnd.1 (e ▸ List.mem_map.2 ⟨_, h1, rfl⟩)
        simp [this, ih hnd.2 h1]
  rw [hf]; exact h2

/-- Everything reachable in the search is a run. -/
theorem reach_isRun [Mul W] [One W] {M : Automaton K S I T W} {w : Option (List T)} {i : Item S I T W}
    (h : Reach (noPanic M.successors) (· ∈ M.initItem w) i) :
    ∃ w', w = some w' ∧ IsRun M.apply M.transitions M.initial w' i.run.toVec i.conf := by
  induction h with
  | base h =>
    unfold initItem at h
    cases w with
    | none => simp at h
    | some w' =>
      simp only [List.mem_singleton] at h
      subst h
      exact ⟨w', rfl, .nil _, by simp [Pushdown.new]⟩
  | step _ hy ih =>
    obtain ⟨w', hw, he, hm⟩ := ih
    obtain ⟨t, ht, hs, hr⟩ := mem_successors hy
    refine ⟨w', hw, ?_⟩
    rw [hr]
    simp only [Pushdown.push, Pushdown.toVec_cons]
    refine ⟨he.snoc hs, ?_⟩
    intro u hu
    rcases List.mem_append.1 hu with hu | hu
    · exact hm u hu
    · rw [List.mem_singleton] at hu; subst hu; exact ht

/-- Every run is reachable in the search, if no configuration on the way panics. -/
theorem isRun_reach [Mul W] [One W] {M : Automaton K S I T W} (hM : M.Coherent) {w : List T}
    (hp : ∀ i, Reach (noPanic M.successors) (· ∈ M.initItem (some w)) i → ∃ k, M.key i.conf = some k)
    (p : Pushdown (Transition I T W)) (c : Configuration S T W)
    (h : IsRun M.apply M.transitions M.initial w p.toVec c) :
    Reach (noPanic M.successors) (· ∈ M.initItem (some w)) ⟨c, p⟩ := by
  induction p generalizing c with
  | empty =>
    obtain ⟨he, _⟩ := h
    simp only [Pushdown.toVec_empty] at he
    cases he
    exact .base (by simp [initItem, Pushdown.new])
  | cons t p ih =>
    obtain ⟨he, hm⟩ := h
    simp only [Pushdown.toVec_cons] at he hm
    obtain ⟨c1, h1, h2⟩ := exec_append.1 he
    cases h2 with
    | cons hs hn =>
      cases hn
      have hr := ih c1 ⟨h1, fun u hu => hm u (by simp [hu])⟩
      exact .step hr ((mem_successors_iff hM (hp _ hr)).2 ⟨t, hm t (by simp), hs, rfl⟩)

/-! ### multiplicities -/

omit [DecidableEq K] [DecidableEq T] in
theorem bind_nsmul_left {α β : Type _} (n : Nat) (s : Multiset α) (f : α → Multiset β) :
    (n • s).bind f = n • s.bind f := by
  induction n with
  | zero => simp
  | succ n ih => rw [succ_nsmul, Multiset.add_bind, ih, succ_nsmul]

omit [DecidableEq K] [DecidableEq T] in
theorem bind_nsmul_right {α β : Type _} (n : Nat) (s : Multiset α) (f : α → Multiset β) :
    (s.bind fun a => n • f a) = n • s.bind f := by
  induction n with
  | zero => simp
  | succ n ih => simp only [succ_nsmul, Multiset.bind_add, ih]

omit [DecidableEq K] [DecidableEq T] in
theorem coe_flatMap_map {α β γ : Type _} (l : List α) (g : α → List β) (f : β → γ) :
    (((l.flatMap g).map f : List γ) : Multiset γ) = (l : Multiset α).bind fun a => ((g a).map f : Multiset γ) := by
  induction l with
  | nil => rfl
  | cons a l ih =>
    rw [List.flatMap_cons, List.map_append, ← Multiset.coe_add, ih, ← Multiset.cons_coe, Multiset.cons_bind]

variable [DecidableEq S] [DecidableEq I] [DecidableEq W]

/-- How often a sequence of transitions can be chosen: transitions listed several times count several times. -/
def mult (all : List (Transition I T W)) (ts : List (Transition I T W)) : Nat :=
  (ts.map fun t => all.count t).prod

/-- All items for the run `p` on the word `w`, with multiplicities. -/
def itemsOf [Mul W] [One W] (M : Automaton K S I T W) (w : List T) (p : Pushdown (Transition I T W)) :
    Multiset (Item S I T W) :=
  if (wordOf p.toVec).isPrefixOf w then
    mult M.transitions p.toVec • ((storages M.apply (p.toVec.map Transition.instruction) M.initial).map fun s =>
      (⟨⟨w.drop (wordOf p.toVec).length, s, weightOf p.toVec⟩, p⟩ : Item S I T W) : Multiset (Item S I T W))
  else 0

theorem filter_successors [Mul W] [One W] (M : Automaton K S I T W) (hM : M.Coherent) (i : Item S I T W)
    (hk : ∃ k, M.key i.conf = some k) (t : Transition I T W) (p : Pushdown (Transition I T W)) :
    ((noPanic M.successors i : Multiset (Item S I T W)).filter (·.run = .cons t p)) =
      if i.run = p then
        M.transitions.count t • ((t.apply M.apply i.conf).map fun c => (⟨c, .cons t p⟩ : Item S I T W) : Multiset (Item S I T W))
      else 0 := by
  obtain ⟨k, hk⟩ := hk
  unfold noPanic successors
  simp only [hk]
  by_cases hp : i.run = p
  · rw [if_pos hp]
    by_cases ha : t.apply M.apply i.conf = []
    · rw [ha]
      simp only [List.map_nil, Multiset.coe_nil, nsmul_zero, Multiset.filter_eq_nil]
      intro j hj he
      simp only [Multiset.mem_coe, List.mem_flatMap, List.mem_map] at hj
      obtain ⟨r, _, c, hc, rfl⟩ := hj
      simp only [Pushdown.push, Pushdown.cons.injEq] at he
      rw [he.1, ha] at hc
      simp at hc
    · obtain ⟨c', hc'⟩ := List.exists_mem_of_ne_nil _ ha
      rw [← count_lookup hM (mem_apply.1 hc') hk]
      generalize M.lookup k = rs
      induction rs with
      | nil => simp
      | cons r rs ih =>
        rw [List.flatMap_cons, ← Multiset.coe_add, Multiset.filter_add, ih, List.count_cons]
        by_cases hr : r = t
        · subst hr
          simp only [beq_self_eq_true, if_true, add_nsmul, one_nsmul]
          rw [add_comm]
          congr 1
          rw [Multiset.filter_eq_self.2]
          · simp [Pushdown.push, hp]
          · intro j hj
            simp only [Multiset.mem_coe, List.mem_map] at hj
            obtain ⟨c, _, rfl⟩ := hj
            simp [Pushdown.push, hp]
        · have : (r == t) = false := by simpa using hr
          simp only [this, Bool.false_eq_true, if_false, add_zero]
          rw [Multiset.filter_eq_nil.2, zero_add]
          intro j hj he
          simp only [Multiset.mem_coe, List.mem_map] at hj
          obtain ⟨c, _, rfl⟩ := hj
          simp only [Pushdown.push, Pushdown.cons.injEq] at he
          exact hr he.1
  · rw [if_neg hp, Multiset.filter_eq_nil]
    intro j hj he
    simp only [Multiset.mem_coe, List.mem_flatMap, List.mem_map] at hj
    obtain ⟨r, _, c, _, rfl⟩ := hj
    simp only [Pushdown.push, Pushdown.cons.injEq] at he
    exact hp he.2

theorem mult_snoc (all ts : List (Transition I T W)) (t : Transition I T W) :
    mult all (ts ++ [t]) = mult all ts * all.count t := by
  simp [mult]

theorem itemsOf_cons [Mul W] [One W] (M : Automaton K S I T W) (w : List T) (t : Transition I T W)
    (p : Pushdown (Transition I T W)) :
    itemsOf M w (.cons t p) = (itemsOf M w p).bind fun i =>
      M.transitions.count t • ((t.apply M.apply i.conf).map fun c => (⟨c, .cons t p⟩ : Item S I T W) : Multiset (Item S I T W)) := by
  unfold itemsOf
  simp only [Pushdown.toVec_cons, wordOf_append, weightOf_snoc, mult_snoc, List.map_append, List.map_cons, List.map_nil,
    storages_snoc]
  have hwt : wordOf [t] = t.word := by simp [wordOf]
  rw [hwt]
  by_cases h1 : (wordOf p.toVec).isPrefixOf w
  · rw [if_pos h1]
    obtain ⟨u, hu⟩ := List.isPrefixOf_iff_prefix.1 h1
    rw [← hu]
    simp only [List.drop_left]
    have hd : ∀ s : S, Transition.apply M.apply t ⟨u, s, weightOf p.toVec⟩ =
        if ¬ t.word.isPrefixOf u then [] else (M.apply t.instruction s).map fun s1 =>
          ⟨u.drop t.word.length, s1, weightOf p.toVec * t.weight⟩ := fun s => rfl
    by_cases h2 : t.word.isPrefixOf u
    · have h3 : (wordOf p.toVec ++ t.word).isPrefixOf (wordOf p.toVec ++ u) := by
        rw [List.isPrefixOf_iff_prefix, List.prefix_append_right_inj]
        exact List.isPrefixOf_iff_prefix.1 h2
      rw [if_pos h3]
      generalize storages M.apply (p.toVec.map Transition.instruction) M.initial = ss
      rw [bind_nsmul_left, bind_nsmul_right, ← mul_nsmul']
      congr 1
      rw [coe_flatMap_map, ← Multiset.map_coe, Multiset.bind_map]
      congr 1
      funext s
      rw [hd, if_neg (by simpa using h2), List.map_map]
      have : (List.drop (wordOf p.toVec ++ t.word).length (wordOf p.toVec ++ u)) = List.drop t.word.length u := by
        rw [List.length_append, ← List.drop_drop, List.drop_left]
      rw [this]
      rfl
    · have h3 : ¬ (wordOf p.toVec ++ t.word).isPrefixOf (wordOf p.toVec ++ u) := by
        rw [List.isPrefixOf_iff_prefix, List.prefix_append_right_inj]
        exact fun h => h2 (List.isPrefixOf_iff_prefix.2 h)
      rw [if_neg h3, bind_nsmul_left, bind_nsmul_right, ← Multiset.map_coe, Multiset.bind_map]
      simp only [hd, h2]
      simp
  · have h3 : ¬ (wordOf p.toVec ++ t.word).isPrefixOf w := by
      intro h
      apply h1
      rw [List.isPrefixOf_iff_prefix] at h ⊢
      exact (List.prefix_append _ _).trans h
    rw [if_neg h1, if_neg h3]; simp

theorem bind_le_left {α β : Type _} {s s' : Multiset α} (h : s ≤ s') (f : α → Multiset β) :
    s.bind f ≤ s'.bind f := by
  obtain ⟨u, rfl⟩ := Multiset.le_iff_exists_add.1 h
  rw [Multiset.add_bind]
  exact Multiset.le_add_right _ _

theorem coe_flatMap {α β : Type _} (l : List α) (g : α → List β) :
    ((l.flatMap g : List β) : Multiset β) = (l : Multiset α).bind fun a => (g a : Multiset β) := by
  simp

theorem filter_bind_run [Mul W] [One W] (M : Automaton K S I T W) (hM : M.Coherent) (Y : List (Item S I T W))
    (hY : ∀ i ∈ Y, ∃ k, M.key i.conf = some k) (t : Transition I T W) (p : Pushdown (Transition I T W)) :
    (((Y.flatMap (noPanic M.successors) : List _) : Multiset (Item S I T W)).filter (·.run = .cons t p)) =
      ((Y : Multiset (Item S I T W)).filter (·.run = p)).bind fun i =>
      M.transitions.count t • ((t.apply M.apply i.conf).map fun c => (⟨c, .cons t p⟩ : Item S I T W) : Multiset (Item S I T W)) := by
  induction Y with
  | nil => rfl
  | cons y Y ih =>
    rw [List.flatMap_cons, ← Multiset.coe_add, Multiset.filter_add, ih (fun i hi => hY i (by simp [hi])),
      filter_successors M hM y (hY y (by simp)), ← Multiset.cons_coe, Multiset.filter_cons, Multiset.add_bind]
    congr 1
    split <;> simp

/-- In every state of the search, a run is returned or pending at most as often as it can be executed. -/
theorem filter_run_le [Mul W] [One W] (M : Automaton K S I T W) (hM : M.Coherent) (w : List T) (Y : List (Item S I T W))
    (P : Multiset (Item S I T W)) (hY : ∀ i ∈ Y, ∃ k, M.key i.conf = some k)
    (hb : (Y : Multiset (Item S I T W)) + P = M.initItem (some w) + (Y.flatMap (noPanic M.successors) : List _))
    (p : Pushdown (Transition I T W)) :
    ((Y : Multiset (Item S I T W)) + P).filter (·.run = p) ≤ itemsOf M w p := by
  induction p with
  | empty =>
    rw [hb, Multiset.filter_add]
    have h2 : ((Y.flatMap (noPanic M.successors) : List _) : Multiset (Item S I T W)).filter (·.run = .empty) = 0 := by
      rw [Multiset.filter_eq_nil]
      intro j hj he
      obtain ⟨i, _, hi⟩ := List.mem_flatMap.1 (Multiset.mem_coe.1 hj)
      obtain ⟨t, _, _, hr⟩ := mem_successors hi
      rw [hr] at he
      simp [Pushdown.push] at he
    rw [h2, add_zero]
    simp [initItem, itemsOf, wordOf, weightOf, weightFrom, mult, storages, Pushdown.new, one_nsmul, Multiset.filter_singleton]
  | cons t p ih =>
    rw [hb, Multiset.filter_add, filter_bind_run M hM Y hY, itemsOf_cons]
    have h1 : ((M.initItem (some w) : List _) : Multiset (Item S I T W)).filter (·.run = .cons t p) = 0 := by
      rw [Multiset.filter_eq_nil]
      intro j hj he
      simp only [initItem, Multiset.mem_coe, List.mem_singleton] at hj
      subst hj
      simp [Pushdown.new] at he
    rw [h1, zero_add]
    refine bind_le_left (le_trans ?_ ih) _
    exact Multiset.filter_le_filter _ (Multiset.le_add_right _ _)

/-- After the search has ended, every run was returned exactly as often as it can be executed. -/
theorem filter_run_eq [Mul W] [One W] (M : Automaton K S I T W) (hM : M.Coherent) (w : List T) (Y : List (Item S I T W))
    (hY : ∀ i ∈ Y, ∃ k, M.key i.conf = some k)
    (hb : (Y : Multiset (Item S I T W)) = M.initItem (some w) + (Y.flatMap (noPanic M.successors) : List _))
    (p : Pushdown (Transition I T W)) :
    (Y : Multiset (Item S I T W)).filter (·.run = p) = itemsOf M w p := by
  induction p with
  | empty =>
    rw [hb, Multiset.filter_add]
    have h2 : ((Y.flatMap (noPanic M.successors) : List _) : Multiset (Item S I T W)).filter (·.run = .empty) = 0 := by
      rw [Multiset.filter_eq_nil]
      intro j hj he
      obtain ⟨i, _, hi⟩ := List.mem_flatMap.1 (Multiset.mem_coe.1 hj)
      obtain ⟨t, _, _, hr⟩ := mem_successors hi
      rw [hr] at he
      simp [Pushdown.push] at he
    rw [h2, add_zero]
    simp [initItem, itemsOf, wordOf, weightOf, weightFrom, mult, storages, Pushdown.new, one_nsmul, Multiset.filter_singleton]
  | cons t p ih =>
    rw [hb, Multiset.filter_add, filter_bind_run M hM Y hY, itemsOf_cons, ih]
    have h1 : ((M.initItem (some w) : List _) : Multiset (Item S I T W)).filter (·.run = .cons t p) = 0 := by
      rw [Multiset.filter_eq_nil]
      intro j hj he
      simp only [initItem, Multiset.mem_coe, List.mem_singleton] at hj
      subst hj
      simp [Pushdown.new] at he
    rw [h1, zero_add]

theorem count_filter_of {α : Type _} [DecidableEq α] (p : α → Prop) [DecidablePred p] (s : Multiset α) (a : α) (h : p a) :
    s.count a = (s.filter p).count a := by
  rw [Multiset.count_filter, if_pos h]

/-- The number of ways to obtain an item, in terms of the specification. -/
theorem count_itemsOf [Mul W] [One W] (M : Automaton K S I T W) (w : List T) (i : Item S I T W) :
    (itemsOf M w i.run).count i =
      if w = wordOf i.run.toVec ++ i.conf.word ∧ i.conf.weight = weightOf i.run.toVec then
        mult M.transitions i.run.toVec * (storages M.apply (i.run.toVec.map Transition.instruction) M.initial).count i.conf.storage
      else 0 := by
  obtain ⟨⟨cw, cs, cwt⟩, p⟩ := i
  unfold itemsOf
  simp only
  by_cases h1 : (wordOf p.toVec).isPrefixOf w
  · obtain ⟨u, rfl⟩ := List.isPrefixOf_iff_prefix.1 h1
    rw [if_pos h1, List.drop_left, Multiset.count_nsmul, Multiset.coe_count]
    by_cases h2 : u = cw ∧ cwt = weightOf p.toVec
    · obtain ⟨rfl, rfl⟩ := h2
      rw [if_pos ⟨rfl, rfl⟩]
      congr 1
      rw [← List.count_map_of_injective _ (fun s => (⟨⟨u, s, weightOf p.toVec⟩, p⟩ : Item S I T W))]
      intro a b hab
      simpa using hab
    · rw [if_neg (by simpa using h2)]
      rw [List.count_eq_zero.2, Nat.mul_zero]
      intro hm
      obtain ⟨s, _, hs⟩ := List.mem_map.1 hm
      simp only [Item.mk.injEq, Configuration.mk.injEq, and_true] at hs
      exact h2 ⟨hs.1, hs.2.2.symm⟩
  · rw [if_neg h1, if_neg]
    · simp
    · rintro ⟨h, _⟩
      exact h1 (List.isPrefixOf_iff_prefix.2 ⟨cw, h.symm⟩)

end Automaton
end Rustomata

namespace Rustomata
open Spec
variable {A X K S I T W : Type _}

/-! ### check_run -/

theorem checkRunLoop_eq [Mul W] (ap : I → S → List S) (ts : List (Transition I T W)) (w : W) (ss : List S) :
    Automaton.checkRunLoop ap ts (w, ss) =
      (weightFrom w ts, ss.flatMap (storages ap (ts.map Transition.instruction))) := by
  induction ts generalizing w ss with
  | nil =>
    simp only [Automaton.checkRunLoop, weightFrom, List.map_nil, List.foldl_nil]
    congr 1
    induction ss with
    | nil => rfl
    | cons s ss ih => rw [List.flatMap_cons, ← ih]; rfl
  | cons t ts ih =>
    have hf : ss.foldl (fun acc s => acc ++ ap t.instruction s) [] = ss.flatMap (ap t.instruction) := by
      have : ∀ acc : List S, ss.foldl (fun acc s => acc ++ ap t.instruction s) acc = acc ++ ss.flatMap (ap t.instruction) := by
        intro acc
        induction ss generalizing acc with
        | nil => simp
        | cons s ss ih => simp [ih]
      simpa using this []
    rw [Automaton.checkRunLoop, hf, ih]
    simp only [weightFrom, List.foldl_cons, List.map_cons, List.flatMap_assoc]
    rfl

/-! ### limited heaps without discarding -/

/-- The agenda of an unlimited min-max heap. -/
def MinMaxHeap.agenda {H : Type _} (M : MinMaxHeap H X) : Agenda H X := ⟨M.push, M.popMax⟩

theorem MinMaxLaws.heapLaws {H : Type _} [LE W] {M : MinMaxHeap H X} {c : H → Multiset X} {prio : X → W}
    (h : MinMaxLaws M c prio) : HeapLaws M.agenda c prio :=
  ⟨⟨h.push, h.pop_none, h.pop_some⟩, h.pop_max⟩

theorem LimitedHeap.extend_eq {H : Type _} [LE W] {M : MinMaxHeap H X} {c : H → Multiset X} {prio : X → W}
    (h : MinMaxLaws M c prio) (k : Nat) (xs : List X) (a : H)
    (hle : (c (M.agenda.extend a xs)).card ≤ k) :
    (LimitedHeap.agenda M).extend ⟨a, k⟩ xs = ⟨M.agenda.extend a xs, k⟩ := by
  induction xs generalizing a with
  | nil => rfl
  | cons x xs ih =>
    have hl := h.heapLaws.lossless
    have h1 : M.agenda.extend a (x :: xs) = M.agenda.extend (M.push a x) xs := rfl
    have h2 : (LimitedHeap.agenda M).extend ⟨a, k⟩ (x :: xs) =
        (LimitedHeap.agenda M).extend (LimitedHeap.push M ⟨a, k⟩ x).2 xs := rfl
    rw [h1] at hle ⊢
    rw [h2]
    have hc : (c (M.push a x)).card ≤ k := by
      refine le_trans ?_ hle
      rw [hl.extend]
      simp
    have hlt : k > M.len a := by
      rw [h.len]
      rw [h.push] at hc
      simp at hc
      omega
    have : (LimitedHeap.push M ⟨a, k⟩ x).2 = ⟨M.push a x, k⟩ := by
      unfold LimitedHeap.push; simp only; rw [if_pos hlt]
    rw [this, ih _ hle]

theorem LimitedHeap.runP_eq {H : Type _} [LE W] {M : MinMaxHeap H X} {c : H → Multiset X} {prio : X → W}
    (h : MinMaxLaws M c prio) (k : Nat) (succ : X → Option (List X)) (n : Nat) (a : H)
    (hle : ∀ m ≤ n, ∀ r b, Search.runP M.agenda succ m a = some (r, b) → (c b).card ≤ k) :
    Search.runP (LimitedHeap.agenda M) succ n ⟨a, k⟩ =
      (Search.runP M.agenda succ n a).map fun r => (r.1, ⟨r.2, k⟩) := by
  induction n generalizing a with
  | zero => rfl
  | succ n ih =>
    unfold Search.runP
    have hpop : (LimitedHeap.agenda M).pop ⟨a, k⟩ = (M.agenda.pop a).map fun (x, h) => (x, ⟨h, k⟩) := rfl
    rw [hpop]
    cases hp : M.agenda.pop a with
    | none => rfl
    | some q =>
      obtain ⟨x, a'⟩ := q
      simp only [Option.map_some]
      cases hs : succ x with
      | none => rfl
      | some ys =>
        simp only
        have hstep : ∀ m ≤ n, ∀ r b, Search.runP M.agenda succ m (M.agenda.extend a' ys) = some (r, b) → (c b).card ≤ k := by
          intro m hm r b hr
          refine hle (m + 1) (by omega) (x :: r) b ?_
          simp only [Search.runP, hp, hs, hr]
        have h0 := hstep 0 (by omega) [] (M.agenda.extend a' ys) rfl
        rw [LimitedHeap.extend_eq h k ys a' h0, ih _ hstep]
        cases Search.runP M.agenda succ n (M.agenda.extend a' ys) <;> rfl

theorem LimitedHeap.extend_card {H : Type _} [LE W] {M : MinMaxHeap H X} {c : H → Multiset X} {prio : X → W}
    (h : MinMaxLaws M c prio) (xs : List X) (l : LimitedHeap H) (hl : (c l.heap).card ≤ l.capacity) :
    (c ((LimitedHeap.agenda M).extend l xs).heap).card ≤ l.capacity ∧
      ((LimitedHeap.agenda M).extend l xs).capacity = l.capacity := by
  induction xs generalizing l with
  | nil => exact ⟨hl, rfl⟩
  | cons x xs ih =>
    have key : (c (LimitedHeap.push M l x).2.heap).card ≤ l.capacity ∧ (LimitedHeap.push M l x).2.capacity = l.capacity := by
      unfold LimitedHeap.push
      split
      · rename_i hlt
        rw [h.len] at hlt
        simp only [h.push, Multiset.card_cons]
        exact ⟨hlt, trivial⟩
      · have := congrArg Multiset.card (h.ppm l.heap x)
        simp only [Multiset.card_cons] at this
        exact ⟨by simp only; omega, rfl⟩
    have := ih (LimitedHeap.push M l x).2 (by rw [key.2]; exact key.1)
    rw [key.2] at this
    exact this

theorem LimitedHeap.runP_card {H : Type _} [LE W] {M : MinMaxHeap H X} {c : H → Multiset X} {prio : X → W}
    (h : MinMaxLaws M c prio) (succ : X → Option (List X)) (n : Nat) (l : LimitedHeap H)
    (hl : (c l.heap).card ≤ l.capacity) (r : List X) (b : LimitedHeap H)
    (hr : Search.runP (LimitedHeap.agenda M) succ n l = some (r, b)) :
    (c b.heap).card ≤ l.capacity ∧ b.capacity = l.capacity := by
  induction n generalizing l r with
  | zero =>
    simp only [Search.runP, Option.some.injEq, Prod.mk.injEq] at hr
    exact hr.2 ▸ ⟨hl, rfl⟩
  | succ n ih =>
    unfold Search.runP at hr
    have hpop : (LimitedHeap.agenda M).pop l = (M.popMax l.heap).map fun (x, h) => (x, ⟨h, l.capacity⟩) := rfl
    rw [hpop] at hr
    cases hp : M.popMax l.heap with
    | none =>
      simp only [hp, Option.map_none, Option.some.injEq, Prod.mk.injEq] at hr
      exact hr.2 ▸ ⟨hl, rfl⟩
    | some q =>
      obtain ⟨x, a'⟩ := q
      simp only [hp, Option.map_some] at hr
      have hc := congrArg Multiset.card (h.pop_some _ _ _ hp)
      rw [Multiset.card_cons] at hc
      cases hs : succ x with
      | none => simp [hs] at hr
      | some ys =>
        simp only [hs] at hr
        split at hr
        · simp at hr
        · rename_i r' b' hr'
          simp only [Option.some.injEq, Prod.mk.injEq] at hr
          obtain ⟨rfl, rfl⟩ := hr
          have he := LimitedHeap.extend_card h ys ⟨a', l.capacity⟩ (by simp only; omega)
          have := ih _ (by rw [he.2]; exact he.1) _ hr'
          rw [he.2] at this
          exact this

end Rustomata
