import Verif.Proofs.Pmcfg

/-!
# Proofs about `separate_terminal_rules`
-/

namespace Rustomata
open Spec

theorem GornTree.mem_insert {V : Type _} {m : GornTree V} {k : List Nat} {v : V} {p : List Nat × V} (h : p ∈ m.insert k v) :
    p = (k, v) ∨ p ∈ m := by
  induction m with
  | nil => simp [GornTree.insert] at h; exact Or.inl h
  | cons q m ih =>
    obtain ⟨k', v'⟩ := q
    simp only [GornTree.insert] at h
    split at h
    · rcases List.mem_cons.1 h with h | h
      · exact Or.inl h
      · exact Or.inr (by simp [h])
    · split at h
      · rcases List.mem_cons.1 h with h | h
        · exact Or.inl h
        · exact Or.inr h
      · rcases List.mem_cons.1 h with h | h
        · exact Or.inr (by simp [h])
        · rcases ih h with h | h
          · exact Or.inl h
          · exact Or.inr (by simp [h])

section
variable {HT W : Type _} [DecidableEq HT]

/-- The new symbol for a symbol. -/
def SepSym (num : AMap HT Nat) : VarT HT → VarT HT → Prop
  | .var i j, y => y = .var i j
  | .t a, y => ∃ n, num.get a = some n ∧ y = .var n 0

/-- Invariant of the loop over the symbols; `n₀` is the number of nonterminals on the right-hand side. -/
structure SepInv (n₀ : Nat) (s : SepState HT) : Prop where
  le : n₀ ≤ s.next
  range : ∀ a n, s.childNum.get a = some n → n₀ ≤ n ∧ n < s.next
  inj : ∀ a b n, s.childNum.get a = some n → s.childNum.get b = some n → a = b
  children : ∀ a, a ∈ s.children ↔ ∃ n, s.childNum.get a = some n

theorem SepSym.mono {m m' : AMap HT Nat} (h : ∀ a n, m.get a = some n → m'.get a = some n) {x y : VarT HT}
    (hs : SepSym m x y) : SepSym m' x y := by
  cases x with
  | var i j => exact hs
  | t a => obtain ⟨n, h1, h2⟩ := hs; exact ⟨n, h a n h1, h2⟩

theorem sepSymbol_spec {n₀ : Nat} {s : SepState HT} (hs : SepInv n₀ s) (x : VarT HT) :
    SepInv n₀ (sepSymbol s x).1 ∧ SepSym (sepSymbol s x).1.childNum x (sepSymbol s x).2 ∧
    (∀ a n, s.childNum.get a = some n → (sepSymbol s x).1.childNum.get a = some n) := by
  cases x with
  | var i j => exact ⟨⟨hs.le, hs.range, hs.inj, hs.children⟩, rfl, fun _ _ h => h⟩
  | t a =>
    unfold sepSymbol
    simp only
    split
    · rename_i n hn
      exact ⟨⟨hs.le, hs.range, hs.inj, hs.children⟩, ⟨n, hn, rfl⟩, fun _ _ h => h⟩
    · rename_i hn
      refine ⟨⟨?_, ?_, ?_, ?_⟩, ⟨s.next, AMap.get_set_self _ _ _, rfl⟩, ?_⟩
      · have := hs.le; simp; omega
      · intro b n h
        simp only [AMap.get_set] at h
        split at h
        · have := hs.le; simp at h; simp; omega
        · have := hs.range b n h; simp; omega
      · intro b c n h1 h2
        simp only [AMap.get_set] at h1 h2
        split at h1 <;> split at h2
        · subst_vars; rfl
        · have := hs.range c n h2; simp at h1; omega
        · have := hs.range b n h1; simp at h2; omega
        · exact hs.inj b c n h1 h2
      · intro b
        simp only [AMap.get_set, List.mem_append, List.mem_singleton, hs.children b]
        constructor
        · rintro (⟨n, h⟩ | rfl)
          · refine ⟨n, ?_⟩
            rw [if_neg, h]
            rintro rfl; rw [hn] at h; cases h
          · exact ⟨s.next, by simp⟩
        · rintro ⟨n, h⟩
          split at h
          · right; subst_vars; rfl
          · exact Or.inl ⟨n, h⟩
      · intro b n h
        simp only [AMap.get_set]
        rw [if_neg, h]
        rintro rfl; rw [hn] at h; cases h

theorem sepComponent_spec {n₀ : Nat} {s : SepState HT} (hs : SepInv n₀ s) (c : List (VarT HT)) :
    SepInv n₀ (sepComponent s c).1 ∧ List.Forall₂ (SepSym (sepComponent s c).1.childNum) c (sepComponent s c).2 ∧
    (∀ a n, s.childNum.get a = some n → (sepComponent s c).1.childNum.get a = some n) := by
  induction c generalizing s with
  | nil => exact ⟨hs, .nil, fun _ _ h => h⟩
  | cons x c ih =>
    obtain ⟨h1, h2, h3⟩ := sepSymbol_spec hs x
    obtain ⟨h4, h5, h6⟩ := ih h1
    exact ⟨h4, .cons (h2.mono h6) h5, fun a n h => h6 a n (h3 a n h)⟩

theorem sepComposition_spec {n₀ : Nat} {s : SepState HT} (hs : SepInv n₀ s) (c : Composition HT) :
    SepInv n₀ (sepComposition s c).1 ∧ List.Forall₂ (List.Forall₂ (SepSym (sepComposition s c).1.childNum)) c (sepComposition s c).2 ∧
    (∀ a n, s.childNum.get a = some n → (sepComposition s c).1.childNum.get a = some n) := by
  induction c generalizing s with
  | nil => exact ⟨hs, .nil, fun _ _ h => h⟩
  | cons x c ih =>
    obtain ⟨h1, h2, h3⟩ := sepComponent_spec hs x
    obtain ⟨h4, h5, h6⟩ := ih h1
    exact ⟨h4, .cons (h2.imp fun _ _ h => h.mono h6) h5, fun a n h => h6 a n (h3 a n h)⟩

theorem sepInit (n₀ : Nat) : SepInv n₀ (⟨n₀, [], [], true, false⟩ : SepState HT) :=
  ⟨le_rfl, by simp [AMap.get], by simp [AMap.get], by simp [AMap.get]⟩

/-! #### the flag -/

theorem sepComponent_append (s : SepState HT) (c c' : List (VarT HT)) :
    sepComponent s (c ++ c') = ((sepComponent (sepComponent s c).1 c').1, (sepComponent s c).2 ++ (sepComponent (sepComponent s c).1 c').2) := by
  induction c generalizing s with
  | nil => simp [sepComponent]
  | cons x c ih => simp [sepComponent, ih]

theorem sepComposition_state (s : SepState HT) (c : Composition HT) :
    (sepComposition s c).1 = (sepComponent s c.flatten).1 := by
  induction c generalizing s with
  | nil => simp [sepComposition, sepComponent]
  | cons x c ih => simp [sepComposition, ih, sepComponent_append]

theorem sepSymbol_first (s : SepState HT) (x : VarT HT) : (sepSymbol s x).1.firstVariable = false := by
  cases x with
  | var i j => rfl
  | t a => unfold sepSymbol; simp only; split <;> rfl

theorem sepSymbol_only (s : SepState HT) (x : VarT HT) :
    (sepSymbol s x).1.onlyOne = match x with | .var _ _ => s.onlyOne | .t _ => s.firstVariable := by
  cases x with
  | var i j => rfl
  | t a => unfold sepSymbol; simp only; split <;> rfl

theorem sepComponent_only_false (s : SepState HT) (hf : s.firstVariable = false) (c : List (VarT HT)) :
    (sepComponent s c).1.onlyOne = (s.onlyOne && c.all VarT.isVar) := by
  induction c generalizing s with
  | nil => simp [sepComponent]
  | cons x c ih =>
    simp only [sepComponent]
    rw [ih _ (sepSymbol_first s x), sepSymbol_only]
    cases x <;> simp [VarT.isVar, hf]

/-- The rule is kept iff its first symbol is a terminal and all others are variables. -/
theorem sepComposition_only (n₀ : Nat) (c : Composition HT) :
    (sepComposition (⟨n₀, [], [], true, false⟩ : SepState HT) c).1.onlyOne = true ↔
      ∃ a rest, c.flatten = .t a :: rest ∧ ∀ x ∈ rest, x.isVar = true := by
  rw [sepComposition_state]
  cases hc : c.flatten with
  | nil => simp [sepComponent]
  | cons x rest =>
    simp only [sepComponent]
    rw [sepComponent_only_false _ (sepSymbol_first _ x), sepSymbol_only]
    cases x <;> simp

/-! #### the new tree -/

theorem sepChildren_get {ext : HT → HT → HT} {old : List HT} {a : List Nat} {w : W} {num : AMap HT Nat} {ts : List HT}
    {m m' : GornTree (PMCFGRule HT HT W)} {us : List HT} (h : sepChildren ext old a w num ts m = some (m', us))
    (hinj : ∀ t t' n, num.get t = some n → num.get t' = some n → t = t') (b : List Nat) :
    (∃ t ∈ ts, ∃ n t', num.get t = some n ∧ b = a ++ [n] ∧ m'.get b = some ⟨t', [], [[.t t]], w⟩) ∨
    ((∀ t ∈ ts, ∀ n, num.get t = some n → b ≠ a ++ [n]) ∧ m'.get b = m.get b) := by
  induction ts generalizing m us with
  | nil => simp [sepChildren] at h; right; simp [h.1]
  | cons t ts ih =>
    simp only [sepChildren] at h
    split at h
    · rename_i t' n ht hn
      split at h
      · cases h
      · rename_i m'' us' hrec
        simp only [Option.some_inj, Prod.mk.injEq] at h
        obtain ⟨rfl, rfl⟩ := h
        rcases ih hrec with ⟨t₁, h1, n₁, t₁', h2, h3, h4⟩ | ⟨h1, h2⟩
        · exact Or.inl ⟨t₁, by simp [h1], n₁, t₁', h2, h3, h4⟩
        · by_cases hb : b = a ++ [n]
          · left
            refine ⟨t, by simp, n, t', hn, hb, ?_⟩
            rw [h2, GornTree.get_insert, if_pos hb]
          · right
            refine ⟨?_, ?_⟩
            · intro t₁ ht₁ n₁ hn₁
              rcases List.mem_cons.1 ht₁ with rfl | ht₁
              · rw [hn] at hn₁; cases hn₁; exact hb
              · exact h1 t₁ ht₁ n₁ hn₁
            · rw [h2, GornTree.get_insert, if_neg hb]
    · cases h

/-- The result for one rule. -/
def sepNew (r : PMCFGRule HT HT W) : SepState HT × Composition HT := sepComposition ⟨r.tail.length, [], [], true, false⟩ r.composition

theorem sepRule_get {ext : HT → HT → HT} {old : List HT} {a : List Nat} {r : PMCFGRule HT HT W}
    {m m' : GornTree (PMCFGRule HT HT W)} (h : sepRule ext old m a r = some m') (b : List Nat) :
    (b = a → (m'.get b).map PMCFGRule.composition = some (if (sepNew r).1.onlyOne then r.composition else (sepNew r).2)) ∧
    (∀ t n, (sepNew r).1.onlyOne = false → (sepNew r).1.childNum.get t = some n → b = a ++ [n] →
      (m'.get b).map PMCFGRule.composition = some [[.t t]]) ∧
    (b ≠ a → (∀ n, r.tail.length ≤ n → b ≠ a ++ [n]) → m'.get b = m.get b) := by
  have hinv := (sepComposition_spec (sepInit (HT := HT) r.tail.length) r.composition).1
  unfold sepRule at h
  simp only at h
  change (if (sepNew r).1.onlyOne then _ else match sepChildren ext old a r.weight (sepNew r).1.childNum (sepNew r).1.children m with
    | none => none | some (m', us) => some (m'.insert a ⟨r.head, r.tail ++ us, (sepNew r).2, r.weight⟩)) = _ at h
  change SepInv r.tail.length (sepNew r).1 at hinv
  split at h
  · rename_i ho
    simp only [Option.some_inj] at h
    subst h
    simp only [ho, if_true, GornTree.get_insert]
    refine ⟨fun hb => by simp [hb], fun t n hf => by simp at hf, fun hb _ => by simp [hb]⟩
  · rename_i ho
    split at h
    · cases h
    · rename_i m'' us hch
      simp only [Option.some_inj] at h
      subst h
      have hg := sepChildren_get hch hinv.inj b
      simp only [ho, GornTree.get_insert]
      have hself : ∀ n, a ≠ a ++ [n] := fun n h => by simpa using congrArg List.length h
      refine ⟨fun hb => by simp [hb], fun t n _ htn hb => ?_, fun hb hn => ?_⟩
      · rw [if_neg (by rw [hb]; exact Ne.symm (hself n))]
        rcases hg with ⟨t₁, h1, n₁, t₁', h2, h3, h4⟩ | ⟨h1, _⟩
        · rw [hb] at h3
          have : n = n₁ := by simpa using h3
          subst this
          rw [h4, hinv.inj t₁ t n h2 htn]
          rfl
        · exact absurd hb (h1 t ((hinv.children t).2 ⟨n, htn⟩) n htn)
      · rw [if_neg hb]
        rcases hg with ⟨t₁, h1, n₁, t₁', h2, h3, h4⟩ | ⟨_, h2⟩
        · exact absurd h3 (hn n₁ (hinv.range t₁ n₁ h2).1)
        · exact h2

theorem sepRules_get {ext : HT → HT → HT} {old : List HT} {l : List (List Nat × PMCFGRule HT HT W)}
    {m m' : GornTree (PMCFGRule HT HT W)} (h : sepRules ext old l m = some m')
    (hkeys : (l.map Prod.fst).Nodup) (hl : ∀ p ∈ l, ∀ q ∈ l, ∀ n, p.2.tail.length ≤ n → q.1 ≠ p.1 ++ [n]) :
    (∀ p ∈ l, (m'.get p.1).map PMCFGRule.composition = some (if (sepNew p.2).1.onlyOne then p.2.composition else (sepNew p.2).2)) ∧
    (∀ p ∈ l, ∀ t n, (sepNew p.2).1.onlyOne = false → (sepNew p.2).1.childNum.get t = some n →
      (m'.get (p.1 ++ [n])).map PMCFGRule.composition = some [[.t t]]) ∧
    (∀ b, (∀ p ∈ l, b ≠ p.1 ∧ ∀ n, p.2.tail.length ≤ n → b ≠ p.1 ++ [n]) → m'.get b = m.get b) := by
  induction l generalizing m with
  | nil => simp [sepRules] at h; simp [h]
  | cons p l ih =>
    obtain ⟨a, r⟩ := p
    simp only [sepRules] at h
    split at h
    · cases h
    · rename_i m₁ hm₁
      have hk := List.nodup_cons.1 hkeys
      obtain ⟨h1, h2, h3⟩ := ih h hk.2 (fun p hp q hq => hl p (by simp [hp]) q (by simp [hq]))
      have hget := sepRule_get hm₁
      have hne : ∀ q ∈ l, a ≠ q.1 := by
        rintro q hq rfl; exact hk.1 (List.mem_map.2 ⟨q, hq, rfl⟩)
      refine ⟨?_, ?_, ?_⟩
      · intro p hp
        rcases List.mem_cons.1 hp with rfl | hp
        · rw [h3 _ fun q hq => ⟨hne q hq, fun n hn => hl q (by simp [hq]) (a, r) (by simp) n hn⟩]
          exact (hget a).1 rfl
        · exact h1 p hp
      · intro p hp t n ho ht
        rcases List.mem_cons.1 hp with rfl | hp
        · simp only at ho ht ⊢
          have hr := ((sepComposition_spec (sepInit (HT := HT) r.tail.length) r.composition).1.range t n ht).1
          rw [h3 _ fun q hq => ⟨?_, ?_⟩]
          · exact (hget _).2.1 t n ho ht rfl
          · exact Ne.symm (hl (a, r) (by simp) q (by simp [hq]) n hr)
          · intro k hk h
            have := List.append_inj' h rfl
            exact hne q hq this.1
        · exact h2 p hp t n ho ht
      · intro b hb
        rw [h3 b fun p hp => hb p (by simp [hp])]
        have := hb (a, r) (by simp)
        exact (hget b).2.2 this.1 this.2

theorem mem_get_sorted {V : Type _} {m : GornTree V} (hs : m.Sorted) {p : List Nat × V} (hp : p ∈ m) : m.get p.1 = some p.2 := by
  induction m with
  | nil => simp at hp
  | cons q m ih =>
    obtain ⟨k, v⟩ := q
    have hs' := List.pairwise_cons.1 hs
    rcases List.mem_cons.1 hp with rfl | hp
    · simp [GornTree.get]
    · simp only [GornTree.get]
      rw [if_neg, ih hs'.2 hp]
      rintro h
      have := hs'.1 p.1 (List.mem_map.2 ⟨p, hp, rfl⟩)
      rw [h] at this
      exact absurd this (lt_irrefl _)

theorem sepCompose {num : AMap HT Nat} {args args' : Nat → Option (List (List HT))} {c c' : Composition HT}
    (hc : List.Forall₂ (List.Forall₂ (SepSym num)) c c')
    (h1 : ∀ i j, (i, j) ∈ varsOf c → args' i = args i) (h2 : ∀ t n, num.get t = some n → args' n = some [[t]]) :
    compose args' c' = compose args c := by
  have hs : ∀ {x x'}, List.Forall₂ (SepSym num) x x' → (∀ i j, VarT.var i j ∈ x → args' i = args i) →
      x'.mapM (subst args') = x.mapM (subst args) := by
    intro x x' hx
    induction hx with
    | nil => intro _; rfl
    | @cons y y' _ _ hy _ ih =>
      intro h
      rw [List.mapM_cons, List.mapM_cons, ih fun i j hij => h i j (by simp [hij])]
      congr 1
      cases y with
      | var i j => cases hy; simp [subst, h i j (by simp)]
      | t a =>
        obtain ⟨n, hn, rfl⟩ := hy
        simp [subst, h2 a n hn]
  unfold compose
  have h1' : ∀ comp ∈ c, ∀ i j, VarT.var i j ∈ comp → args' i = args i :=
    fun comp hcomp i j hij => h1 i j (mem_varsOf.2 ⟨comp, hcomp, hij⟩)
  clear h1
  induction hc with
  | nil => rfl
  | @cons y y' _ _ hy _ ih =>
    rw [List.mapM_cons, List.mapM_cons, ih fun comp hcomp => h1' comp (by simp [hcomp])]
    congr 1
    unfold substAll
    rw [hs hy (h1' y (by simp))]

theorem varsOf_sep {num : AMap HT Nat} {c c' : Composition HT} (hc : List.Forall₂ (List.Forall₂ (SepSym num)) c c') {i j : Nat}
    (h : (i, j) ∈ varsOf c') : (i, j) ∈ varsOf c ∨ ∃ t, num.get t = some i := by
  obtain ⟨comp', hc', hx'⟩ := mem_varsOf.1 h
  have aux : ∀ {x x'}, List.Forall₂ (SepSym num) x x' → VarT.var i j ∈ x' → VarT.var i j ∈ x ∨ ∃ t, num.get t = some i := by
    intro x x' hx
    induction hx with
    | nil => simp
    | @cons y y' _ _ hy _ ih =>
      intro hm
      rcases List.mem_cons.1 hm with hm | hm
      · cases y with
        | var i' j' => cases hy; left; simp [hm]
        | t a =>
          obtain ⟨n, hn, rfl⟩ := hy
          simp at hm; right; exact ⟨a, hm.1 ▸ hn⟩
      · rcases ih hm with h | h
        · left; simp [h]
        · exact Or.inr h
  clear h
  induction hc with
  | nil => simp at hc'
  | @cons y y' _ _ hy _ ih =>
    rcases List.mem_cons.1 hc' with rfl | hc'
    · rcases aux hy hx' with h | h
      · exact Or.inl (mem_varsOf.2 ⟨y, by simp, h⟩)
      · exact Or.inr h
    · rcases ih hc' with h | h
      · obtain ⟨z, hz, hzx⟩ := mem_varsOf.1 h
        exact Or.inl (mem_varsOf.2 ⟨z, by simp [hz], hzx⟩)
      · exact Or.inr h

theorem separate_eval {ext : HT → HT → HT} {m m' : GornTree (PMCFGRule HT HT W)} (hs : m.Sorted) (hw : WellNumbered m.get)
    (h : separateTerminalRules ext m = some m') {a : List Nat} {v : List (List HT)}
    (hv : Eval (fun a => (m.get a).map PMCFGRule.composition) a v) : Eval (fun a => (m'.get a).map PMCFGRule.composition) a v := by
  have hnd : (m.map Prod.fst).Nodup := hs.imp fun hab => ne_of_lt hab
  obtain ⟨h1, h2, _⟩ := sepRules_get h hnd (by
    rintro ⟨b, r⟩ hp ⟨b', r'⟩ hq n hn heq
    have e1 := hw b r n (mem_get_sorted hs hp) hn
    simp only at heq
    rw [← heq] at e1
    have e2 := mem_get_sorted hs hq
    simp only at e2
    rw [e2] at e1; cases e1)
  induction hv with
  | @node a c v sub hc hsub hv ih =>
    obtain ⟨r, hr, rfl⟩ := Option.map_eq_some_iff.1 hc
    have hmem := GornTree.mem_of_get hr
    have hlt : ∀ i j, (i, j) ∈ varsOf r.composition → i < r.tail.length := by
      intro i j hij
      by_contra hle
      cases hsub i j hij with
      | node hc' _ _ => rw [hw a r i hr (by omega)] at hc'; cases hc'
    have hr' := h1 _ hmem
    simp only at hr'
    cases ho : (sepNew r).1.onlyOne with
    | true =>
      rw [ho] at hr'
      exact .node hr' ih hv
    | false =>
      rw [ho] at hr'
      simp only [Bool.false_eq_true, if_false] at hr'
      obtain ⟨hinv, hf, _⟩ := sepComposition_spec (sepInit (HT := HT) r.tail.length) r.composition
      change SepInv r.tail.length (sepNew r).1 at hinv
      change List.Forall₂ (List.Forall₂ (SepSym (sepNew r).1.childNum)) r.composition (sepNew r).2 at hf
      classical
      have hsub' : ∃ sub' : Nat → List (List HT), (∀ i, i < r.tail.length → sub' i = sub i) ∧
          ∀ t n, (sepNew r).1.childNum.get t = some n → sub' n = [[t]] := by
        refine ⟨fun n => if h : ∃ t, (sepNew r).1.childNum.get t = some n then [[h.choose]] else sub n, ?_, ?_⟩
        · intro i hi
          refine dif_neg ?_
          rintro ⟨t, ht⟩
          have := (hinv.range t i ht).1
          omega
        · intro t n ht
          have hex : ∃ t, (sepNew r).1.childNum.get t = some n := ⟨t, ht⟩
          simp only [dif_pos hex]
          rw [hinv.inj hex.choose t n hex.choose_spec ht]
      obtain ⟨sub', hs1, hs2⟩ := hsub'
      refine .node (sub := sub') hr' ?_ ?_
      · intro i j hij
        rcases varsOf_sep hf hij with h | ⟨t, ht⟩
        · rw [hs1 i (hlt i j h)]; exact ih i j h
        · rw [hs2 t i ht]
          refine .node (c := [[.t t]]) (sub := fun _ => []) (h2 _ hmem t i ho ht) (by simp [varsOf]) (by simp [compose, substAll, subst])
      · rw [sepCompose hf (args := fun i => some (sub i)) (fun i j hij => by rw [hs1 i (hlt i j hij)]) (fun t n ht => by rw [hs2 t n ht])]
        exact hv

/-! #### the normal form -/

theorem sepChildren_mem {ext : HT → HT → HT} {old : List HT} {a : List Nat} {w : W} {num : AMap HT Nat} {ts : List HT}
    {m m' : GornTree (PMCFGRule HT HT W)} {us : List HT} (h : sepChildren ext old a w num ts m = some (m', us))
    {p : List Nat × PMCFGRule HT HT W} (hp : p ∈ m') : p ∈ m ∨ TerminalSeparated p.2.composition := by
  induction ts generalizing m us with
  | nil => simp [sepChildren] at h; left; rw [h.1]; exact hp
  | cons t ts ih =>
    simp only [sepChildren] at h
    split at h
    · split at h
      · cases h
      · rename_i m'' us' hrec
        simp only [Option.some_inj, Prod.mk.injEq] at h
        obtain ⟨rfl, rfl⟩ := h
        rcases ih hrec with h | h
        · rcases GornTree.mem_insert h with rfl | h
          · right; left; exact ⟨t, rfl⟩
          · exact Or.inl h
        · exact Or.inr h
    · cases h

theorem forall₂_flatten {A B : Type _} {R : A → B → Prop} {l : List (List A)} {r : List (List B)}
    (h : List.Forall₂ (List.Forall₂ R) l r) : List.Forall₂ R l.flatten r.flatten := by
  induction h with
  | nil => exact .nil
  | cons h _ ih => exact List.rel_append h ih

theorem sepRules_mem {ext : HT → HT → HT} {old : List HT} {l : List (List Nat × PMCFGRule HT HT W)}
    {m m' : GornTree (PMCFGRule HT HT W)} (h : sepRules ext old l m = some m')
    {p : List Nat × PMCFGRule HT HT W} (hp : p ∈ m') :
    p ∈ m ∨ TerminalSeparated p.2.composition ∨ (p ∈ l ∧ ∃ a rest, p.2.composition.flatten = .t a :: rest ∧ ∀ x ∈ rest, x.isVar = true) := by
  induction l generalizing m with
  | nil => simp [sepRules] at h; left; rw [h]; exact hp
  | cons q l ih =>
    obtain ⟨a, r⟩ := q
    simp only [sepRules] at h
    split at h
    · cases h
    · rename_i m₁ hm₁
      rcases ih h with h' | h' | ⟨h', h''⟩
      · unfold sepRule at hm₁
        simp only at hm₁
        split at hm₁
        · rename_i ho
          simp only [Option.some_inj] at hm₁
          subst hm₁
          rcases GornTree.mem_insert h' with rfl | h'
          · exact Or.inr (Or.inr ⟨by simp, (sepComposition_only _ _).1 ho⟩)
          · exact Or.inl h'
        · split at hm₁
          · cases hm₁
          · rename_i m₂ us hch
            simp only [Option.some_inj] at hm₁
            subst hm₁
            rcases GornTree.mem_insert h' with rfl | h'
            · right; left; right
              intro x hx
              have hf := forall₂_flatten (sepComposition_spec (sepInit (HT := HT) r.tail.length) r.composition).2.1
              simp only at hx
              generalize List.flatten _ = l₁ at hf hx
              have : ∀ {l₁ l₂ : List (VarT HT)} {num : AMap HT Nat}, List.Forall₂ (SepSym num) l₁ l₂ → ∀ x ∈ l₂, ∃ i j, x = .var i j := by
                intro l₁ l₂ num hf
                induction hf with
                | nil => simp
                | @cons y y' _ _ hy _ ih =>
                  intro x hx
                  rcases List.mem_cons.1 hx with rfl | hx
                  · cases y with
                    | var i j => cases hy; exact ⟨i, j, rfl⟩
                    | t a => obtain ⟨n, _, rfl⟩ := hy; exact ⟨n, 0, rfl⟩
                  · exact ih x hx
              exact this hf x hx
            · rcases sepChildren_mem hch h' with h' | h'
              · exact Or.inl h'
              · exact Or.inr (Or.inl h')
      · exact Or.inr (Or.inl h')
      · exact Or.inr (Or.inr ⟨by simp [h'], h''⟩)

/-! #### termination -/

theorem freshName_isSome {ext : HT → HT → HT} {old : List HT} {t : HT}
    (hinj : ∀ i j, (fun x => ext x t)^[i] t = (fun x => ext x t)^[j] t → i = j) :
    (freshName ext old t old.length t).isSome := by
  have aux : ∀ n k, (freshName ext old t n ((fun x => ext x t)^[k] t)) = none → ∀ i ≤ n, (fun x => ext x t)^[k + i] t ∈ old := by
    intro n
    induction n with
    | zero =>
      intro k h i hi
      simp only [freshName] at h
      split at h
      · rename_i h'; rw [show k + i = k by omega]; exact h'
      · cases h
    | succ n ih =>
      intro k h i hi
      simp only [freshName] at h
      split at h
      · rename_i h'
        have e : ext ((fun x => ext x t)^[k] t) t = (fun x => ext x t)^[k + 1] t := by
          rw [Function.iterate_succ_apply']
        rw [e] at h
        cases i with
        | zero => exact h'
        | succ i =>
          have := ih (k + 1) h i (by omega)
          rw [show k + (i + 1) = k + 1 + i by omega]; exact this
      · cases h
  cases h : freshName ext old t old.length t with
  | some _ => rfl
  | none =>
    exfalso
    have hall := aux old.length 0 h
    have hsub : ((List.range (old.length + 1)).map fun i => (fun x => ext x t)^[i] t) ⊆ old := by
      intro x hx
      obtain ⟨i, hi, rfl⟩ := List.mem_map.1 hx
      simpa using hall i (by simp at hi; omega)
    have hnd : ((List.range (old.length + 1)).map fun i => (fun x => ext x t)^[i] t).Nodup :=
      List.nodup_range.map fun i j h => hinj i j h
    have := (hnd.subperm hsub).length_le
    simp at this
    omega

end

end Rustomata

namespace Rustomata
open Spec

section
variable {HT W : Type _} [DecidableEq HT]

theorem sepChildren_sorted {ext : HT → HT → HT} {old : List HT} {a : List Nat} {w : W} {num : AMap HT Nat} {ts : List HT}
    {m m' : GornTree (PMCFGRule HT HT W)} {us : List HT} (h : sepChildren ext old a w num ts m = some (m', us)) (hs : m.Sorted) : m'.Sorted := by
  induction ts generalizing m us with
  | nil => simp [sepChildren] at h; rw [← h.1]; exact hs
  | cons t ts ih =>
    simp only [sepChildren] at h
    split at h
    · split at h
      · cases h
      · rename_i hrec
        simp only [Option.some_inj, Prod.mk.injEq] at h
        obtain ⟨rfl, rfl⟩ := h
        exact ih hrec (GornTree.sorted_insert hs _ _)
    · cases h

theorem separate_sorted {ext : HT → HT → HT} {m m' : GornTree (PMCFGRule HT HT W)} (h : separateTerminalRules ext m = some m') : m'.Sorted := by
  unfold separateTerminalRules at h
  have aux : ∀ (old : List HT) (l : List (List Nat × PMCFGRule HT HT W)) (m₀ m' : GornTree (PMCFGRule HT HT W)), sepRules ext old l m₀ = some m' →
      m₀.Sorted → m'.Sorted := by
    intro old l
    induction l with
    | nil => intro m₀ m' h hs; simp [sepRules] at h; rw [← h]; exact hs
    | cons p l ih =>
      intro m₀ m' h hs
      obtain ⟨a, r⟩ := p
      simp only [sepRules] at h
      split at h
      · cases h
      · rename_i m₁ hm₁
        refine ih _ _ h ?_
        unfold sepRule at hm₁
        simp only at hm₁
        split at hm₁
        · simp only [Option.some_inj] at hm₁; subst hm₁; exact GornTree.sorted_insert hs _ _
        · split at hm₁
          · cases hm₁
          · rename_i hch
            simp only [Option.some_inj] at hm₁; subst hm₁
            exact GornTree.sorted_insert (sepChildren_sorted hch hs) _ _
  exact aux _ _ _ _ h List.Pairwise.nil

theorem sepChildren_isSome {ext : HT → HT → HT} {old : List HT} {a : List Nat} {w : W} {num : AMap HT Nat} {ts : List HT}
    {m : GornTree (PMCFGRule HT HT W)} (h1 : ∀ t ∈ ts, (freshName ext old t old.length t).isSome) (h2 : ∀ t ∈ ts, (num.get t).isSome) :
    (sepChildren ext old a w num ts m).isSome := by
  induction ts generalizing m with
  | nil => simp [sepChildren]
  | cons t ts ih =>
    obtain ⟨t', ht'⟩ := Option.isSome_iff_exists.1 (h1 t (by simp))
    obtain ⟨n, hn⟩ := Option.isSome_iff_exists.1 (h2 t (by simp))
    have := ih (m := m.insert (a ++ [n]) ⟨t', [], [[.t t]], w⟩) (fun t ht => h1 t (by simp [ht])) (fun t ht => h2 t (by simp [ht]))
    obtain ⟨⟨m', us⟩, hr⟩ := Option.isSome_iff_exists.1 this
    simp [sepChildren, ht', hn, hr]

theorem sepComponent_children (s : SepState HT) (c : List (VarT HT)) :
    ∀ t ∈ (sepComponent s c).1.children, t ∈ s.children ∨ VarT.t t ∈ c := by
  induction c generalizing s with
  | nil => intro t ht; exact Or.inl ht
  | cons x c ih =>
    intro t ht
    rcases ih _ t ht with h | h
    · have : t ∈ s.children ∨ VarT.t t = x := by
        cases x with
        | var i j => exact Or.inl h
        | t a =>
          unfold sepSymbol at h
          simp only at h
          split at h
          · exact Or.inl h
          · simp at h; rcases h with h | h
            · exact Or.inl h
            · right; rw [h]
      rcases this with h | h
      · exact Or.inl h
      · right; simp [h]
    · right; simp [h]

theorem separate_isSome {ext : HT → HT → HT} {m : GornTree (PMCFGRule HT HT W)}
    (hext : ∀ p ∈ m, ∀ t, VarT.t t ∈ p.2.composition.flatten → ∀ i j, (fun x => ext x t)^[i] t = (fun x => ext x t)^[j] t → i = j) :
    (separateTerminalRules ext m).isSome := by
  unfold separateTerminalRules
  generalize m.map (fun p => p.2.head) = old
  have aux : ∀ (l : List (List Nat × PMCFGRule HT HT W)) (m₀ : GornTree (PMCFGRule HT HT W)),
      (∀ p ∈ l, ∀ t, VarT.t t ∈ p.2.composition.flatten → ∀ i j, (fun x => ext x t)^[i] t = (fun x => ext x t)^[j] t → i = j) →
      (sepRules ext old l m₀).isSome := by
    intro l
    induction l with
    | nil => intro m₀ _; simp [sepRules]
    | cons p l ih =>
      intro m₀ h
      obtain ⟨a, r⟩ := p
      have hr : (sepRule ext old m₀ a r).isSome := by
        unfold sepRule
        simp only
        split
        · rfl
        · have hinv := (sepComposition_spec (sepInit (HT := HT) r.tail.length) r.composition).1
          have := sepChildren_isSome (ext := ext) (old := old) (a := a) (w := r.weight) (m := m₀)
            (num := (sepComposition (⟨r.tail.length, [], [], true, false⟩ : SepState HT) r.composition).1.childNum)
            (ts := (sepComposition (⟨r.tail.length, [], [], true, false⟩ : SepState HT) r.composition).1.children)
            (fun t ht => by
              refine freshName_isSome (h (a, r) (by simp) t ?_)
              rw [sepComposition_state] at ht
              rcases sepComponent_children _ _ t ht with h | h
              · simp at h
              · exact h)
            (fun t ht => by obtain ⟨n, hn⟩ := (hinv.children t).1 ht; simp [hn])
          obtain ⟨⟨m', us⟩, hr⟩ := Option.isSome_iff_exists.1 this
          simp [hr]
      obtain ⟨m₁, hm₁⟩ := Option.isSome_iff_exists.1 hr
      simp only [sepRules, hm₁]
      exact ih m₁ fun p hp => h p (by simp [hp])
  exact aux m [] hext

end

theorem derives_wellNumbered {N T W : Type _} {rules : List (PMCFGRule N T W)} {A : N} {d : DTree (PMCFGRule N T W)} {v : List (List T)}
    (hd : Derives rules A d v) : WellNumbered d.at? := by
  refine Derives.induct (P := fun _ d _ => WellNumbered d.at?) ?_ hd
  intro r ds args v hr hch hl1 hl2 hv a r' n ha hn
  cases a with
  | nil =>
    simp only [DTree.at?, Option.some_inj] at ha
    subst ha
    simp [DTree.at?, List.getElem?_eq_none (show ds.length ≤ n by omega)]
  | cons i a =>
    simp only [DTree.at?, List.cons_append] at ha ⊢
    cases hi : ds[i]? with
    | none => simp
    | some d' =>
      rw [hi] at ha
      have hlt := (List.getElem?_eq_some_iff.1 hi).1
      have := (List.forall₂_iff_get.1 hch).2 i (by omega) (by simp; omega)
      simp only [List.get_eq_getElem, List.getElem_zip] at this
      rw [List.getElem?_eq_getElem hlt, Option.some_inj] at hi
      rw [hi] at this
      exact this.2 a r' n ha hn

end Rustomata
