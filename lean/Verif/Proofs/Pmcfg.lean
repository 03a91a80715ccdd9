import Verif.Spec.Pmcfg
import Verif.Proofs.TreeStack

/-!
# Proofs about evaluation of terms
-/

namespace Rustomata

theorem mapM_some_iff {A B : Type _} {f : A → Option B} {l : List A} {r : List B} :
    l.mapM f = some r ↔ List.Forall₂ (fun x y => f x = some y) l r := by
  induction l generalizing r with
  | nil => cases r <;> simp
  | cons x l ih =>
    rw [List.mapM_cons]
    cases hx : f x with
    | none =>
      refine ⟨by simp, ?_⟩
      rintro (_ | ⟨h, _⟩); simp [hx] at h
    | some y =>
      cases hl : l.mapM f with
      | none =>
        refine ⟨by simp, ?_⟩
        rintro (_ | ⟨_, h⟩)
        rw [← ih, hl] at h; exact absurd h (by simp)
      | some ys =>
        rw [hl] at ih
        cases r with
        | nil => simp
        | cons z zs =>
          have := ih (r := zs)
          rw [Option.some_inj] at this
          simp [hx, this]

theorem mapM_none_iff {A B : Type _} {f : A → Option B} {l : List A} :
    l.mapM f = none ↔ ∃ x ∈ l, f x = none := by
  induction l with
  | nil => simp
  | cons x l ih =>
    rw [List.mapM_cons]
    cases hx : f x with
    | none => simp [hx]
    | some y =>
      cases hl : l.mapM f with
      | none => simpa [hx] using ih.1 hl
      | some ys =>
        have : ¬ ∃ x ∈ l, f x = none := by rw [← ih, hl]; simp
        simpa [hx] using this

theorem mapM_congr_mem {A B : Type _} {f g : A → Option B} {l : List A} (h : ∀ x ∈ l, f x = g x) :
    l.mapM f = l.mapM g := by
  induction l with
  | nil => rfl
  | cons x l ih =>
    rw [List.mapM_cons, List.mapM_cons, h x (by simp), ih fun y hy => h y (by simp [hy])]

theorem mapM_map_some {A B C : Type _} {f : A → Option B} {g : B → C} {l : List A} :
    l.mapM (fun x => (f x).map g) = (l.mapM f).map (List.map g) := by
  induction l with
  | nil => rfl
  | cons x l ih =>
    rw [List.mapM_cons, List.mapM_cons, ih]
    cases f x <;> cases l.mapM f <;> rfl

theorem mapM_length {A B : Type _} {f : A → Option B} {l : List A} {r : List B} (h : l.mapM f = some r) :
    r.length = l.length := (mapM_some_iff.1 h).length_eq.symm

theorem mapM_getElem? {A B : Type _} {f : A → Option B} {l : List A} {r : List B} (h : l.mapM f = some r) (i : Nat) :
    r[i]? = (l[i]?).bind f := by
  replace h := mapM_some_iff.1 h
  induction h generalizing i with
  | nil => simp
  | cons hx _ ih => cases i <;> simp [hx, ih]

/-- Tuples of words as compositions. -/
def embed {T : Type _} (v : List (List T)) : Composition T := v.map (·.map .t)

theorem embed_injective {T : Type _} : Function.Injective (embed (T := T)) := by
  have h1 : Function.Injective (VarT.t (T := T)) := fun a b h => by simpa using h
  exact List.map_injective_iff.2 (List.map_injective_iff.2 h1)

section Eval
variable {T : Type _}

theorem mem_varsOf {c : Composition T} {i j : Nat} : (i, j) ∈ Spec.varsOf c ↔ ∃ comp ∈ c, VarT.var i j ∈ comp := by
  simp only [Spec.varsOf, List.mem_filterMap, List.mem_flatten]
  constructor
  · rintro ⟨x, ⟨l, hl, hx⟩, h⟩
    cases x with
    | var i' j' => simp at h; obtain ⟨rfl, rfl⟩ := h; exact ⟨l, hl, hx⟩
    | t a => simp at h
  · rintro ⟨l, hl, hx⟩
    exact ⟨_, ⟨l, hl, hx⟩, rfl⟩

theorem vars_eq (c : Composition T) : Composition.vars c = Spec.varsOf c := by
  unfold Composition.vars Spec.varsOf componentVars
  induction c with
  | nil => rfl
  | cons x c ih => simp only [List.flatMap_cons, List.flatten_cons, List.filterMap_append, ih]; rfl

/-- The value of a symbol, without the cache. -/
def symVal (child : Nat → Option (Composition T)) : VarT T → Option (List (VarT T))
  | .var i j => (child i).bind fun v => v[j]?
  | .t a => some [.t a]

/-- Every entry of the cache is the value of the child. -/
def CacheOk (child : Nat → Option (Composition T)) (cache : AMap Nat (Composition T)) : Prop :=
  ∀ i c, cache.get i = some c → child i = some c

/-- The result of `evalSymbols` in terms of the values without a cache. -/
def SymRes (child : Nat → Option (Composition T)) (s : List (VarT T)) (acc : List (VarT T)) :
    Option (List (VarT T) × AMap Nat (Composition T)) → Prop
  | none => s.mapM (symVal child) = none
  | some (r, cache') => CacheOk child cache' ∧ (s.mapM (symVal child)).map (fun l => acc ++ l.flatten) = some r

theorem SymRes.cons {child : Nat → Option (Composition T)} {x : VarT T} {y : List (VarT T)} (hx : symVal child x = some y)
    {s acc : List (VarT T)} {res} (h : SymRes child s (acc ++ y) res) : SymRes child (x :: s) acc res := by
  unfold SymRes at h ⊢
  rw [List.mapM_cons]
  split <;> rename_i heq <;> simp only at h
  · simp [hx, h]
  · refine ⟨h.1, ?_⟩
    cases hm : s.mapM (symVal child) with
    | none => simp [hm] at h
    | some l => simpa [hm, hx] using h.2

theorem evalSymbols_eq (child : Nat → Option (Composition T)) (s : List (VarT T)) (cache : AMap Nat (Composition T))
    (hc : CacheOk child cache) (acc : List (VarT T)) : SymRes child s acc (evalSymbols child s cache acc) := by
  induction s generalizing cache acc with
  | nil => simp [evalSymbols, SymRes, hc]
  | cons x s ih =>
    cases x with
    | t a => exact (ih cache hc (acc ++ [.t a])).cons (x := .t a) rfl
    | var i j =>
      have key : ∀ c cache', CacheOk child cache' → cache'.get i = some c → child i = some c →
          SymRes child (VarT.var i j :: s) acc (match c[j]? with
            | none => none
            | some compon => evalSymbols child s cache' (acc ++ compon)) := by
        intro c cache' hok hg hch
        cases hj : c[j]? with
        | none => simp [SymRes, List.mapM_cons, symVal, hch, hj]
        | some compon => exact (ih cache' hok (acc ++ compon)).cons (by simp [symVal, hch, hj])
      cases hg : cache.get i with
      | some c =>
        have := key c cache hc hg (hc i c hg)
        unfold evalSymbols
        simp only [hg, Option.isNone_some, Bool.false_eq_true, if_false]
        exact this
      | none =>
        cases hch : child i with
        | none => simp [evalSymbols, SymRes, hg, hch, List.mapM_cons, symVal]
        | some c =>
          have hok : CacheOk child (cache.set i c) := by
            intro k d hd
            rw [AMap.get_set] at hd
            split at hd
            · subst_vars; simpa [hch] using hd
            · exact hc k d hd
          have := key c (cache.set i c) hok (AMap.get_set_self _ _ _) hch
          unfold evalSymbols
          simp only [hg, hch, Option.isNone_none, if_true, Option.map_some, AMap.get_set_self]
          exact this

theorem evalComponents_eq (child : Nat → Option (Composition T)) (c : Composition T) (cache : AMap Nat (Composition T))
    (hc : CacheOk child cache) (acc : Composition T) :
    evalComponents child c cache acc =
      (c.mapM fun comp : List (VarT T) => (comp.mapM (symVal child)).map List.flatten).map (acc ++ ·) := by
  induction c generalizing cache acc with
  | nil => simp [evalComponents]
  | cons x c ih =>
    have hs := evalSymbols_eq child x cache hc []
    simp only [evalComponents]
    split <;> rename_i heq <;> rw [heq] at hs <;> simp only [SymRes] at hs
    · simp [List.mapM_cons, hs]
    · rename_i c' cache'
      rw [ih cache' hs.1, List.mapM_cons]
      obtain ⟨l, hl, h2⟩ := Option.map_eq_some_iff.1 hs.2
      simp only [hl]
      simp only [List.nil_append] at h2
      cases hm : c.mapM (fun comp : List (VarT T) => (comp.mapM (symVal child)).map List.flatten) with
      | none => simp
      | some l => simp [h2]

theorem symVal_embed {child : Nat → Option (Composition T)} {args : Nat → Option (List (List T))}
    (h : ∀ i, child i = (args i).map embed) (x : VarT T) : symVal child x = (Spec.subst args x).map (List.map .t) := by
  cases x with
  | t a => rfl
  | var i j =>
    simp only [symVal, Spec.subst, h]
    cases args i with
    | none => rfl
    | some v => simp [embed, List.getElem?_map]

theorem evalComponents_embed {child : Nat → Option (Composition T)} {args : Nat → Option (List (List T))}
    (h : ∀ i, child i = (args i).map embed) (c : Composition T) :
    evalComponents child c [] [] = (Spec.compose args c).map embed := by
  rw [evalComponents_eq child c [] (by intro i c h; simp [AMap.get] at h) []]
  have : (fun comp : List (VarT T) => (comp.mapM (symVal child)).map List.flatten) =
      fun comp => (Spec.substAll args comp).map (List.map .t) := by
    funext comp
    rw [show symVal child = fun x => (Spec.subst args x).map (List.map .t) from funext (symVal_embed h), mapM_map_some]
    unfold Spec.substAll
    cases comp.mapM (Spec.subst args) with
    | none => rfl
    | some l => simp [List.map_flatten]
  rw [this, mapM_map_some]
  unfold Spec.compose
  cases c.mapM (Spec.substAll args) <;> simp [embed]

/-- Evaluation with bounded depth, without the cache. -/
def evalN (m : List Nat → Option (Composition T)) : Nat → List Nat → Option (List (List T))
  | 0, _ => none
  | n + 1, a => (m a).bind fun c => Spec.compose (fun i => evalN m n (a ++ [i])) c

theorem evaluatePos_eq (m : GornTree (Composition T)) (n : Nat) (a : List Nat) :
    evaluatePos m n a = (evalN m.get n a).map embed := by
  induction n generalizing a with
  | zero => rfl
  | succ n ih =>
    simp only [evaluatePos, evalN]
    cases m.get a with
    | none => rfl
    | some c => exact evalComponents_embed (fun i => ih _) c

theorem compose_mono {args args' : Nat → Option (List (List T))} {c : Composition T} {v : List (List T)}
    (h : ∀ i j, (i, j) ∈ Spec.varsOf c → ∀ x, args i = some x → args' i = some x) (hv : Spec.compose args c = some v) :
    Spec.compose args' c = some v := by
  unfold Spec.compose at hv ⊢
  rw [mapM_some_iff] at hv ⊢
  rw [List.forall₂_iff_get] at hv ⊢
  refine ⟨hv.1, fun k h1 h2 => ?_⟩
  have hk := hv.2 k h1 h2
  unfold Spec.substAll at hk ⊢
  rw [Option.map_eq_some_iff] at hk ⊢
  obtain ⟨l, hl, hlv⟩ := hk
  refine ⟨l, ?_, hlv⟩
  rw [mapM_some_iff] at hl ⊢
  rw [List.forall₂_iff_get] at hl ⊢
  refine ⟨hl.1, fun q h3 h4 => ?_⟩
  have hq := hl.2 q h3 h4
  generalize hx : (c.get ⟨k, h1⟩).get ⟨q, h3⟩ = x at hq ⊢
  cases x with
  | t a => exact hq
  | var i j =>
    have hmem : (i, j) ∈ Spec.varsOf c := mem_varsOf.2 ⟨_, List.get_mem _ ⟨k, h1⟩, by rw [← hx]; exact List.get_mem _ _⟩
    simp only [Spec.subst, Option.bind_eq_some_iff] at hq ⊢
    obtain ⟨x, hx, hj⟩ := hq
    exact ⟨x, h i j hmem x hx, hj⟩

theorem compose_some_of {args : Nat → Option (List (List T))} {c : Composition T} {v : List (List T)}
    (hv : Spec.compose args c = some v) {i j : Nat} (hij : (i, j) ∈ Spec.varsOf c) :
    ∃ x, args i = some x ∧ j < x.length := by
  obtain ⟨comp, hc, hx⟩ := mem_varsOf.1 hij
  by_contra hne
  have h1 : Spec.subst args (.var i j) = none := by
    simp only [Spec.subst]
    cases ha : args i with
    | none => rfl
    | some x =>
      have : x.length ≤ j := by
        by_contra hj
        exact hne ⟨x, ha, by omega⟩
      simpa using this
  have h2 : Spec.substAll args comp = none := by
    unfold Spec.substAll
    rw [mapM_none_iff.2 ⟨_, hx, h1⟩]; rfl
  have h3 : Spec.compose args c = none := mapM_none_iff.2 ⟨comp, hc, h2⟩
  rw [h3] at hv; cases hv

theorem compose_none {args : Nat → Option (List (List T))} {c : Composition T} (hv : Spec.compose args c = none) :
    ∃ i j, (i, j) ∈ Spec.varsOf c ∧ ∀ x, args i = some x → x.length ≤ j := by
  obtain ⟨comp, hc, h⟩ := mapM_none_iff.1 hv
  unfold Spec.substAll at h
  rw [Option.map_eq_none_iff] at h
  obtain ⟨x, hx, h⟩ := mapM_none_iff.1 h
  cases x with
  | t a => simp [Spec.subst] at h
  | var i j =>
    refine ⟨i, j, mem_varsOf.2 ⟨comp, hc, hx⟩, fun x ha => ?_⟩
    simpa [Spec.subst, ha] using h

theorem compose_length {args : Nat → Option (List (List T))} {c : Composition T} {v : List (List T)}
    (hv : Spec.compose args c = some v) : v.length = c.length := mapM_length hv

theorem evalN_mono {m : List Nat → Option (Composition T)} {n n' : Nat} (h : n ≤ n') {a : List Nat} {v : List (List T)}
    (hv : evalN m n a = some v) : evalN m n' a = some v := by
  induction n generalizing n' a v with
  | zero => simp [evalN] at hv
  | succ n ih =>
    obtain ⟨n', rfl⟩ : ∃ k, n' = k + 1 := ⟨n' - 1, by omega⟩
    simp only [evalN, Option.bind_eq_some_iff] at hv ⊢
    obtain ⟨c, hc, hv⟩ := hv
    exact ⟨c, hc, compose_mono (fun i j _ x hx => ih (by omega) hx) hv⟩

theorem eval_of_evalN {m : List Nat → Option (Composition T)} {n : Nat} {a : List Nat} {v : List (List T)}
    (hv : evalN m n a = some v) : Spec.Eval m a v := by
  induction n generalizing a v with
  | zero => simp [evalN] at hv
  | succ n ih =>
    simp only [evalN, Option.bind_eq_some_iff] at hv
    obtain ⟨c, hc, hv⟩ := hv
    refine .node (sub := fun i => (evalN m n (a ++ [i])).getD []) hc (fun i j hij => ?_) ?_
    · obtain ⟨x, hx, _⟩ := compose_some_of hv hij
      simp only [hx, Option.getD_some]
      exact ih hx
    · refine compose_mono (fun i j _ x hx => ?_) hv
      simp [hx]

theorem evalN_of_eval {m : List Nat → Option (Composition T)} {a : List Nat} {v : List (List T)}
    (hv : Spec.Eval m a v) : ∃ n, evalN m n a = some v := by
  induction hv with
  | @node a c v sub hc hsub hv ih =>
    have : ∃ n, ∀ i j, (i, j) ∈ Spec.varsOf c → evalN m n (a ++ [i]) = some (sub i) := by
      generalize Spec.varsOf c = l at ih
      clear hsub hv
      induction l with
      | nil => exact ⟨0, by simp⟩
      | cons p l ihl =>
        obtain ⟨n₁, h₁⟩ := ihl fun i j h => ih i j (List.mem_cons_of_mem _ h)
        obtain ⟨n₂, h₂⟩ := ih p.1 p.2 (by simp)
        refine ⟨max n₁ n₂, fun i j h => ?_⟩
        rcases List.mem_cons.1 h with rfl | h
        · exact evalN_mono (le_max_right _ _) h₂
        · exact evalN_mono (le_max_left _ _) (h₁ i j h)
    obtain ⟨n, hn⟩ := this
    refine ⟨n + 1, ?_⟩
    simp only [evalN, hc, Option.bind_some]
    refine compose_mono (fun i j hij x hx => ?_) hv
    rw [hn i j hij]; exact hx

theorem foldl_max_le (l : List Nat) (a : Nat) : a ≤ l.foldl max a ∧ ∀ x ∈ l, x ≤ l.foldl max a := by
  induction l generalizing a with
  | nil => simp
  | cons y l ih =>
    have := ih (max a y)
    simp only [List.foldl_cons, List.mem_cons, forall_eq_or_imp]
    exact ⟨by omega, by omega, this.2⟩

theorem GornTree.mem_of_get {V : Type _} {m : GornTree V} {a : List Nat} {v : V} (h : m.get a = some v) : (a, v) ∈ m := by
  induction m with
  | nil => simp [GornTree.get] at h
  | cons p m ih =>
    obtain ⟨k, v'⟩ := p
    simp only [GornTree.get] at h
    split at h
    · simp_all
    · exact List.mem_cons_of_mem _ (ih h)

theorem GornTree.get_depth {V : Type _} {m : GornTree V} {a : List Nat} (h : m.depth < a.length) : m.get a = none := by
  cases hg : m.get a with
  | none => rfl
  | some v =>
    have := (foldl_max_le (m.map fun p => p.1.length) 0).2 a.length
      (List.mem_map.2 ⟨_, GornTree.mem_of_get hg, rfl⟩)
    unfold GornTree.depth at h; omega

theorem evalN_depth {m : GornTree (Composition T)} {n : Nat} {a : List Nat} (h : m.depth < a.length + n) :
    ∀ k, evalN m.get (n + k) a = evalN m.get n a := by
  induction n generalizing a with
  | zero =>
    intro k
    cases k with
    | zero => rfl
    | succ k => simp [evalN, GornTree.get_depth (m := m) (a := a) (by omega)]
  | succ n ih =>
    intro k
    rw [show n + 1 + k = (n + k) + 1 by omega]
    simp only [evalN]
    congr 1; funext c; congr 1; funext i
    exact ih (by simp; omega) k

theorem evaluate_iff (m : GornTree (Composition T)) (c : Composition T) :
    evaluate m = some c ↔ ∃ v, c = embed v ∧ Spec.Eval m.get [] v := by
  unfold evaluate
  rw [evaluatePos_eq, Option.map_eq_some_iff]
  constructor
  · rintro ⟨v, hv, rfl⟩
    exact ⟨v, rfl, eval_of_evalN hv⟩
  · rintro ⟨v, rfl, hv⟩
    refine ⟨v, ?_, rfl⟩
    obtain ⟨n, hn⟩ := evalN_of_eval hv
    rw [← evalN_depth (m := m) (a := []) (n := m.depth + 1) (by simp) n]
    exact evalN_mono (by omega) hn

theorem evalN_none {m : List Nat → Option (Composition T)} (n : Nat) {a : List Nat}
    (ha : Spec.UsedAddr m a) (hn : evalN m n a = none) :
    (∃ a', Spec.UsedAddr m a' ∧ m a' = none) ∨
    (∃ a' c i j c', Spec.UsedAddr m a' ∧ m a' = some c ∧ (i, j) ∈ Spec.varsOf c ∧ m (a' ++ [i]) = some c' ∧ c'.length ≤ j) ∨
    (∃ a', Spec.UsedAddr m a' ∧ (m a').isSome ∧ a'.length = a.length + n) := by
  induction n generalizing a with
  | zero =>
    cases hm : m a with
    | none => exact Or.inl ⟨a, ha, hm⟩
    | some c => exact Or.inr (Or.inr ⟨a, ha, by simp [hm], rfl⟩)
  | succ n ih =>
    simp only [evalN] at hn
    cases hm : m a with
    | none => exact Or.inl ⟨a, ha, hm⟩
    | some c =>
      rw [hm] at hn
      obtain ⟨i, j, hij, h⟩ := compose_none hn
      have hu := Spec.UsedAddr.child ha hm hij
      cases hi : evalN m n (a ++ [i]) with
      | none =>
        rcases ih hu hi with h | h | ⟨a', h1, h2, h3⟩
        · exact Or.inl h
        · exact Or.inr (Or.inl h)
        · exact Or.inr (Or.inr ⟨a', h1, h2, by simp at h3; omega⟩)
      | some x =>
        have hx := h x hi
        cases n with
        | zero => simp [evalN] at hi
        | succ n =>
          simp only [evalN, Option.bind_eq_some_iff] at hi
          obtain ⟨c', hc', hi⟩ := hi
          exact Or.inr (Or.inl ⟨a, c, i, j, c', ha, hm, hij, hc', by rw [← compose_length hi]; exact hx⟩)

theorem eval_used {m : List Nat → Option (Composition T)} {v : List (List T)} (h : Spec.Eval m [] v) {a : List Nat}
    (ha : Spec.UsedAddr m a) : ∃ v, Spec.Eval m a v := by
  induction ha with
  | root => exact ⟨v, h⟩
  | @child a c i j _ hc hij ih =>
    obtain ⟨v', hv'⟩ := ih
    cases hv' with
    | node hc' hsub hv' =>
      rw [hc] at hc'; cases hc'
      exact ⟨_, hsub i j hij⟩

theorem eval_not_missing {m : List Nat → Option (Composition T)} {v : List (List T)} (h : Spec.Eval m [] v) :
    (¬ ∃ a', Spec.UsedAddr m a' ∧ m a' = none) ∧
    ¬ ∃ a' c i j c', Spec.UsedAddr m a' ∧ m a' = some c ∧ (i, j) ∈ Spec.varsOf c ∧ m (a' ++ [i]) = some c' ∧ c'.length ≤ j := by
  constructor
  · rintro ⟨a, ha, hn⟩
    obtain ⟨v, hv⟩ := eval_used h ha
    cases hv with
    | node hc _ _ => rw [hn] at hc; cases hc
  · rintro ⟨a, c, i, j, c', ha, hc, hij, hc', hj⟩
    obtain ⟨v, hv⟩ := eval_used h ha
    cases hv with
    | @node _ c₁ _ sub hc₁ hsub hv =>
      rw [hc] at hc₁; cases hc₁
      obtain ⟨x, hx, hjx⟩ := compose_some_of hv hij
      cases hx
      have := hsub i j hij
      generalize hsi : sub i = y at this hjx
      cases this with
      | node hc₂ _ hv₂ =>
        rw [hc'] at hc₂; cases hc₂
        have := compose_length hv₂
        omega

theorem toTerm_get {N W : Type _} {m : GornTree (PMCFGRule N T W)} (hm : m.Sorted) (a : List Nat) :
    (toTerm m).1.get a = (m.get a).map PMCFGRule.composition ∧ (toTerm m).2.get a = (m.get a).map PMCFGRule.head := by
  have aux : ∀ (m : GornTree (PMCFGRule N T W)) (r : GornTree (Composition T) × GornTree N), m.Sorted →
      let r' := m.foldl (fun r p => (r.1.insert p.1 p.2.composition, r.2.insert p.1 p.2.head)) r
      r'.1.get a = (match m.get a with | some x => some x.composition | none => r.1.get a) ∧
      r'.2.get a = (match m.get a with | some x => some x.head | none => r.2.get a) := by
    intro m
    induction m with
    | nil => intro r _; simp [GornTree.get]
    | cons p m ih =>
      intro r hs
      obtain ⟨k, x⟩ := p
      have hs' : GornTree.Sorted m := (List.pairwise_cons.1 hs).2
      have hk : ∀ y ∈ m.map Prod.fst, k < y := (List.pairwise_cons.1 hs).1
      have := ih (r.1.insert k x.composition, r.2.insert k x.head) hs'
      simp only [List.foldl_cons, GornTree.get]
      simp only [GornTree.get_insert] at this
      by_cases h : a = k
      · subst h
        have hn : GornTree.get m a = none := by
          cases hg : GornTree.get m a with
          | none => rfl
          | some v => exact absurd (hk a (List.mem_map.2 ⟨_, GornTree.mem_of_get hg, rfl⟩)) (lt_irrefl _)
        simpa [hn] using this
      · simpa [h, Ne.symm h] using this
  have := aux m ([], []) hm
  constructor
  · rw [show (toTerm m).1.get a = _ from this.1]
    cases m.get a <;> simp [GornTree.get]
  · rw [show (toTerm m).2.get a = _ from this.2]
    cases m.get a <;> simp [GornTree.get]

end Eval

section Derive
variable {N T W : Type _} {rules : List (PMCFGRule N T W)}

/-- Induction over derivations. -/
theorem Derives.induct {P : N → Spec.DTree (PMCFGRule N T W) → List (List T) → Prop}
    (h : ∀ r ds args v, r ∈ rules → List.Forall₂ (fun A (p : _ × _) => Spec.Derives rules A p.1 p.2 ∧ P A p.1 p.2) r.tail (ds.zip args) →
      ds.length = r.tail.length → args.length = r.tail.length →
      Spec.compose (fun i => args[i]?) r.composition = some v → P r.head (.node r ds) v)
    {A : N} {d} {v} (hd : Spec.Derives rules A d v) : P A d v := by
  refine Spec.Derives.rec (motive_1 := fun A d v _ => P A d v)
    (motive_2 := fun As ds vs _ => List.Forall₂ (fun A (p : _ × _) => Spec.Derives rules A p.1 p.2 ∧ P A p.1 p.2) As (ds.zip vs) ∧
      ds.length = As.length ∧ vs.length = As.length) ?_ ?_ ?_ hd
  · intro r ds args v hr _ hv ih
    exact h r ds args v hr ih.1 ih.2.1 ih.2.2 hv
  · simp
  · intro A As d ds v vs h1 _ ih1 ih2
    exact ⟨.cons ⟨h1, ih1⟩ ih2.1, by simp [ih2.2.1], by simp [ih2.2.2]⟩

theorem derives_eval {A : N} {d} {v : List (List T)} (hd : Spec.Derives rules A d v)
    {m : List Nat → Option (Composition T)} (a : List Nat)
    (hm : ∀ p, m (a ++ p) = (d.at? p).map PMCFGRule.composition) : Spec.Eval m a v := by
  revert a
  refine Derives.induct (P := fun _ d v => ∀ a, (∀ p, m (a ++ p) = (d.at? p).map PMCFGRule.composition) → Spec.Eval m a v) ?_ hd
  · intro r ds args v hr hch hl1 hl2 hv a hm
    refine .node (c := r.composition) (sub := fun i => args[i]?.getD []) ?_ ?_ ?_
    · simpa [Spec.DTree.at?] using hm []
    · intro i j hij
      obtain ⟨x, hx, hj⟩ := compose_some_of hv hij
      have hi : i < args.length := (List.getElem?_eq_some_iff.1 hx).1
      have := List.forall₂_iff_get.1 hch
      have h2 := this.2 i (by omega) (by simp; omega)
      simp only [List.get_eq_getElem, List.getElem_zip] at h2
      rw [hx, Option.getD_some]
      rw [List.getElem?_eq_getElem hi, Option.some_inj] at hx
      rw [hx] at h2
      refine h2.2 (a ++ [i]) fun p => ?_
      rw [List.append_assoc]
      rw [hm ([i] ++ p)]
      simp [Spec.DTree.at?, List.getElem?_eq_getElem (show i < ds.length by omega)]
    · refine compose_mono (fun i j _ x hx => ?_) hv
      simp [hx]

end Derive

end Rustomata
