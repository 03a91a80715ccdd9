import Verif.Proofs.FromPmcfg

/-!
# Proofs about the tree stack automaton of a PMCFG: runs are derivations
-/

namespace Rustomata
open Spec
variable {N T W : Type _}

/-- The stack symbol of a position in a rule. -/
abbrev posOf (r : PMCFGRule N T W) (j k : Nat) : TsaSymbol N T := .position r.key j k

/-! ### Words -/

/-- The word of some variables with the terminals before them. -/
def segWord (args : Nat → List (List T)) : List (List T × Nat × Nat) → Option (List T)
  | [] => some []
  | (b, i, j) :: l => ((args i)[j]?).bind fun w => (segWord args l).map fun v => b ++ w ++ v

theorem segWord_append {args : Nat → List (List T)} {l l' : List (List T × Nat × Nat)} {p p' : List T} (h : segWord args l = some p)
    (h' : segWord args l' = some p') : segWord args (l ++ l') = some (p ++ p') := by
  induction l generalizing p with
  | nil => simp [segWord] at h; subst h; simpa using h'
  | cons x l ih =>
    obtain ⟨b, i, j⟩ := x
    simp only [segWord, Option.bind_eq_some_iff, Option.map_eq_some_iff] at h
    obtain ⟨w, hw, v, hv, rfl⟩ := h
    simp only [List.cons_append, segWord, hw, ih hv, Option.bind_some, Option.map_some]
    simp

theorem segWord_mono {args args' : Nat → List (List T)} (hm : ∀ (i j : Nat) w, (args i)[j]? = some w → (args' i)[j]? = some w)
    {l : List (List T × Nat × Nat)} {p : List T} (h : segWord args l = some p) : segWord args' l = some p := by
  induction l generalizing p with
  | nil => exact h
  | cons x l ih =>
    obtain ⟨b, i, j⟩ := x
    simp only [segWord, Option.bind_eq_some_iff, Option.map_eq_some_iff] at h ⊢
    obtain ⟨w, hw, v, hv, rfl⟩ := h
    exact ⟨w, hm i j w hw, v, ih hv, rfl⟩

theorem segWord_append_left {args : Nat → List (List T)} {l l' : List (List T × Nat × Nat)} {p : List T} (h : segWord args (l ++ l') = some p) :
    ∃ q q', segWord args l = some q ∧ segWord args l' = some q' ∧ p = q ++ q' := by
  induction l generalizing p with
  | nil => exact ⟨[], p, rfl, h, rfl⟩
  | cons x l ih =>
    obtain ⟨b, i, j⟩ := x
    simp only [List.cons_append, segWord, Option.bind_eq_some_iff, Option.map_eq_some_iff] at h
    obtain ⟨w, hw, v, hv, rfl⟩ := h
    obtain ⟨q, q', h1, h2, rfl⟩ := ih hv
    exact ⟨b ++ w ++ q, q', by simp [segWord, hw, h1], h2, by simp⟩

theorem substAll_segs (args : Nat → List (List T)) (c : List (VarT T)) (buf : List T) :
    (substAll (fun i => some (args i)) c).map (buf ++ ·) = (segWord args (segs c buf)).map (· ++ trail c buf) := by
  induction c generalizing buf with
  | nil => simp [substAll, segs, segWord, trail]
  | cons x c ih =>
    have hc : substAll (fun i => some (args i)) (x :: c) =
        (subst (fun i => some (args i)) x).bind fun w => (substAll (fun i => some (args i)) c).map (w ++ ·) := by
      unfold substAll
      rw [List.mapM_cons]
      cases subst (fun i => some (args i)) x <;> simp [Option.map_map, Function.comp_def]
      cases List.mapM (subst fun i => some (args i)) c <;> simp
    rw [hc]
    cases x with
    | t a =>
      simp only [subst, Option.bind_some, segs, trail]
      rw [← ih, Option.map_map]
      congr 1
      funext w; simp
    | var i j =>
      simp only [subst, Option.bind_some, segs, trail, segWord]
      cases (args i)[j]? with
      | none => rfl
      | some w =>
        simp only [Option.bind_some, Option.map_map]
        have := ih []
        simp only [List.nil_append, Option.map_id_fun', id_eq] at this
        rw [this, Option.map_map]
        congr 1
        funext v; simp

theorem substAll_some {args : Nat → List (List T)} {c : List (VarT T)} {p : List T} (h : segWord args (segs c []) = some p) :
    substAll (fun i => some (args i)) c = some (p ++ trail c []) := by
  have := substAll_segs args c []
  simp only [List.nil_append, Option.map_id_fun', id_eq] at this
  rw [this, h]; rfl

theorem mapM_mono {α β : Type _} {f f' : α → Option β} (h : ∀ a b, f a = some b → f' a = some b) {l : List α} {v : List β}
    (hv : l.mapM f = some v) : l.mapM f' = some v := by
  rw [mapM_some_iff] at hv ⊢
  exact hv.imp fun a b => h a b

theorem compose_extend {args args' : Nat → List (List T)} (hm : ∀ (i j : Nat) w, (args i)[j]? = some w → (args' i)[j]? = some w)
    {c : Composition T} {v : List (List T)} (h : compose (fun i => some (args i)) c = some v) :
    compose (fun i => some (args' i)) c = some v := by
  unfold compose at h ⊢
  refine mapM_mono (fun a b hab => ?_) h
  unfold substAll at hab ⊢
  rw [Option.map_eq_some_iff] at hab ⊢
  obtain ⟨x, hx, rfl⟩ := hab
  refine ⟨x, mapM_mono (fun y w hy => ?_) hx, rfl⟩
  cases y with
  | t a => exact hy
  | var i j =>
    simp only [subst, Option.bind_some] at hy ⊢
    exact hm i j w hy

/-! ### Products of weights -/

theorem prod_update [CommMonoid W] (us : Nat → W) (i : Nat) (x : W) (n : Nat) (h : i < n) :
    ((List.range n).map (Function.update us i x)).prod * us i = ((List.range n).map us).prod * x := by
  induction n with
  | zero => omega
  | succ n ih =>
    rw [List.range_succ, List.map_append, List.map_append, List.prod_append, List.prod_append]
    simp only [List.map_cons, List.map_nil, List.prod_singleton]
    by_cases hi : i = n
    · subst hi
      rw [Function.update_self]
      have : (List.range i).map (Function.update us i x) = (List.range i).map us := by
        refine List.map_congr_left fun a ha => ?_
        rw [List.mem_range] at ha
        exact Function.update_of_ne (by omega) _ _
      rw [this, mul_assoc, mul_assoc, mul_comm x]
    · rw [Function.update_of_ne (by omega)]
      rw [mul_assoc, mul_comm (us n), ← mul_assoc, ih (by omega), mul_assoc, mul_comm x, ← mul_assoc]

theorem prod_one [CommMonoid W] (n : Nat) : ((List.range n).map fun _ => (1 : W)).prod = 1 := by simp

/-! ### The invariant -/

section
variable [CommMonoid W]

/-- A subtree of a tree stack outside of the path to the pointer: the rule of its root, the words of the components visited so far and the weight. -/
inductive SubOk (rules : List (PMCFGRule N T W)) : TsaSymbol N T × Forest (TsaSymbol N T) → PMCFGRule N T W → List (List T) → W → Prop
  | mk {r : PMCFGRule N T W} {m : Nat} {c : List (VarT T)} {args : Nat → List (List T)} {us : Nat → W}
      {xs : Nat → TsaSymbol N T × Forest (TsaSymbol N T)} {rs : Nat → PMCFGRule N T W} {F : Forest (TsaSymbol N T)} {ws : List (List T)} :
      r ∈ rules → r.composition[m]? = some c → compose (fun i => some (args i)) (r.composition.take (m + 1)) = some ws →
      (∀ i, (args i).length = cnt r.composition (m + 1) 0 i) →
      (∀ i, args i = [] → F.slot i = none ∧ us i = 1) →
      (∀ i, args i ≠ [] → F.slot i = some (xs i) ∧ r.tail[i]? = some (rs i).head) →
      (∀ i, args i ≠ [] → SubOk rules (xs i) (rs i) (args i) (us i)) →
      SubOk rules (posOf r m (segs c []).length, F) r ws (r.weight * ((List.range r.tail.length).map us).prod)

/-- The children of a node whose children in `act` are on the path to the pointer. -/
def Kids (rules : List (PMCFGRule N T W)) (r : PMCFGRule N T W) (F : Forest (TsaSymbol N T)) (args : Nat → List (List T)) (us : Nat → W)
    (act : Nat → Prop) : Prop :=
  ∀ i, ((args i = [] ∨ act i) → F.slot i = none ∧ us i = 1) ∧
    (args i ≠ [] → ¬ act i → ∃ x ri, F.slot i = some x ∧ r.tail[i]? = some ri.head ∧ SubOk rules x ri (args i) (us i))

/-- A node is at a position of its rule; `args` are the words of the components of the children visited so far, `ws` the words of its
components visited before, `p` is the word of the component before the position. -/
structure AtPos (r : PMCFGRule N T W) (j k : Nat) (args : Nat → List (List T)) (ws : List (List T)) (c : List (VarT T)) (p : List T) : Prop where
  comp : r.composition[j]? = some c
  le : k ≤ (segs c []).length
  words : compose (fun i => some (args i)) (r.composition.take j) = some ws
  part : segWord args ((segs c []).take k) = some p
  len : ∀ i, (args i).length = cnt r.composition j k i

/-- The path to the pointer: rule at the pointer, words of its components visited before, word read before its current component, weight outside. -/
inductive Frames (g : PMCFG N T W) : List (Frame (TsaSymbol N T)) → PMCFGRule N T W → List (List T) → List T → W → Prop
  | bottom {r : PMCFGRule N T W} {F} : r ∈ g.rules → r.head ∈ g.initial → F.slot 0 = none → 0 < F.length →
      Frames g [⟨0, .initial, F⟩] r [] [] 1
  | node {r r' : PMCFGRule N T W} {j k i j₁ args us ws c p b F ps pre U} : r ∈ g.rules → r' ∈ g.rules → AtPos r' j k args ws c p →
      (segs c [])[k]? = some (b, i, j₁) → r'.tail[i]? = some r.head → Kids g.rules r' F args us (· = i) → i < F.length →
      Frames g ps r' ws pre U →
      Frames g (⟨i, posOf r' j k, F⟩ :: ps) r (args i) (pre ++ p ++ b) (U * (r'.weight * ((List.range r'.tail.length).map us).prod))

/-- What holds for the tree stack after reading a word with a weight. -/
inductive TsaInv (g : PMCFG N T W) : TreeStack (TsaSymbol N T) → List T → W → Prop
  | start : TsaInv g (TreeStack.new .initial) [] 1
  | mid {r : PMCFGRule N T W} {j k args us ws c p F ps pre U} : r ∈ g.rules → AtPos r j k args ws c p → Kids g.rules r F args us (fun _ => False) →
      Frames g ps r ws pre U →
      TsaInv g ⟨ps, posOf r j k, F⟩ (pre ++ p) (U * (r.weight * ((List.range r.tail.length).map us).prod))
  | final {r : PMCFGRule N T W} {F x w u} : r ∈ g.rules → r.head ∈ g.initial → F.slot 0 = some x → SubOk g.rules x r [w] u →
      TsaInv g ⟨[], .designated, F⟩ w u

omit [CommMonoid W] in
theorem key_eq {r r' : PMCFGRule N T W} (h : r.key = r'.key) : r.head = r'.head ∧ r.tail = r'.tail ∧ r.composition = r'.composition := by
  unfold PMCFGRule.key at h
  simp only [PMCFGRule.mk.injEq] at h
  exact ⟨h.1, h.2.1, h.2.2.1⟩

omit [CommMonoid W] in
theorem posOf_eq {r r' : PMCFGRule N T W} {j j' k k' : Nat} (h : posOf r j k = posOf r' j' k') : r.key = r'.key ∧ j = j' ∧ k = k' := by
  unfold posOf at h
  simp only [PosState.position.injEq] at h
  exact h

omit [CommMonoid W] in
/-- When all variables of a component have been visited. -/
theorem AtPos.done {r : PMCFGRule N T W} {j args ws c p} (h : AtPos r j (segs c []).length args ws c p) :
    compose (fun i => some (args i)) (r.composition.take (j + 1)) = some (ws ++ [p ++ trail c []]) ∧
    ∀ i, (args i).length = cnt r.composition (j + 1) 0 i := by
  have hp := h.part
  rw [List.take_of_length_le (by omega)] at hp
  have hs := substAll_some hp
  constructor
  · have hw := h.words
    unfold compose at hw ⊢
    rw [List.take_add_one, h.comp]
    rw [mapM_some_iff] at hw ⊢
    exact List.rel_append hw (.cons hs .nil)
  · intro i
    rw [h.len i]
    unfold cnt
    rw [before_next h.comp]

/-- The invariant for a completely visited component. -/
theorem AtPos.sub {rules : List (PMCFGRule N T W)} {r : PMCFGRule N T W} (hr : r ∈ rules) {j args us ws c p F} (h : AtPos r j (segs c []).length args ws c p)
    (hk : Kids rules r F args us (fun _ => False)) :
    SubOk rules (posOf r j (segs c []).length, F) r (ws ++ [p ++ trail c []]) (r.weight * ((List.range r.tail.length).map us).prod) := by
  obtain ⟨h1, h2⟩ := h.done
  have hex : ∀ i, ∃ y : (TsaSymbol N T × Forest (TsaSymbol N T)) × PMCFGRule N T W, args i ≠ [] →
      F.slot i = some y.1 ∧ r.tail[i]? = some y.2.head ∧ SubOk rules y.1 y.2 (args i) (us i) := by
    intro i
    by_cases ha : args i = []
    · exact ⟨((.initial, .nil), r), fun h => absurd ha h⟩
    · obtain ⟨x, ri, e1, e2, e3⟩ := (hk i).2 ha (by simp)
      exact ⟨(x, ri), fun _ => ⟨e1, e2, e3⟩⟩
  choose y hy using hex
  exact .mk (xs := fun i => (y i).1) (rs := fun i => (y i).2) hr h.comp h1 h2 (fun i hi => (hk i).1 (Or.inl hi))
    (fun i hi => ⟨(hy i hi).1, (hy i hi).2.1⟩) (fun i hi => (hy i hi).2.2)

theorem SubOk.inv {rules : List (PMCFGRule N T W)} {x : TsaSymbol N T × Forest (TsaSymbol N T)} {r : PMCFGRule N T W} {ws : List (List T)} {u : W}
    (h : SubOk rules x r ws u) : r ∈ rules ∧ ∃ m c args us, r.composition[m]? = some c ∧ x.1 = posOf r m (segs c []).length ∧ ws.length = m + 1 ∧
      compose (fun i => some (args i)) (r.composition.take (m + 1)) = some ws ∧ (∀ i, (args i).length = cnt r.composition (m + 1) 0 i) ∧
      Kids rules r x.2 args us (fun _ => False) ∧ u = r.weight * ((List.range r.tail.length).map us).prod := by
  cases h with
  | @mk _ m c args us xs rs F _ h1 h2 h3 h4 h5 h6 h7 =>
    refine ⟨h1, m, c, args, us, h2, rfl, ?_, h3, h4, ?_, rfl⟩
    · rw [compose_length h3, List.length_take]
      have := (List.getElem?_eq_some_iff.1 h2).1
      omega
    · intro i
      refine ⟨fun h => ?_, fun h _ => ⟨xs i, rs i, (h6 i h).1, (h6 i h).2, h7 i h⟩⟩
      rcases h with h | h
      · exact h5 i h
      · exact h.elim

theorem tsaInv_step [DecidableEq N] [DecidableEq T] {g : PMCFG N T W} (ho : Ordered g.rules) (hinit : ∀ r ∈ g.rules, r.head ∈ g.initial → r.composition.length = 1)
    {t : TsaTransition N T W} (ht : IsTrans g t) {s s' : TreeStack (TsaSymbol N T)} {v : List T} {u : W} (hi : TsaInv g s v u)
    (hs : s' ∈ t.instruction.apply s) : TsaInv g s' (v ++ t.word) (u * t.weight) := by
  cases ht with
  | @init r hr hh =>
    simp only [TsInstr.apply] at hs
    split at hs
    · rename_i hcur
      split at hs
      · rename_i s₁ hp
        rw [List.mem_singleton] at hs
        subst hs
        rw [TreeStack.push_ok] at hp
        obtain ⟨hsl, rfl⟩ := hp
        cases hi with
        | start =>
          have hc : ∃ c, r.composition[0]? = some c := by
            have := hinit r hr hh
            exact ⟨r.composition[0], List.getElem?_eq_getElem (by omega)⟩
          obtain ⟨c, hc⟩ := hc
          have := TsaInv.mid (g := g) (r := r) (j := 0) (k := 0) (args := fun _ => []) (us := fun _ => 1) (ws := []) (c := c) (p := [])
            (F := .nil) (ps := [⟨0, .initial, if 0 ≥ (TreeStack.new (PosState.initial : TsaSymbol N T)).children.length then
              (TreeStack.new (PosState.initial : TsaSymbol N T)).children.pad 0 else (TreeStack.new (PosState.initial : TsaSymbol N T)).children⟩])
            (pre := []) (U := 1) hr ⟨hc, by omega, by simp [compose], by simp [segWord], by intro i; simp [cnt, before_zero]⟩
            (fun i => ⟨fun _ => ⟨rfl, rfl⟩, fun h => absurd rfl h⟩)
            (.bottom hr hh (by rw [TreeStack.push_children_slot]; rfl) (TreeStack.push_children_length _ _))
          rw [List.append_nil, prod_one, mul_one] at this
          exact this
        | mid => simp [TreeStack.currentSymbol] at hcur
        | final => simp [TreeStack.currentSymbol] at hcur
      · simp at hs
    · simp at hs
  | @fin r c hr hh hc =>
    simp only [TsInstr.apply] at hs
    split at hs
    · rename_i hcur
      split at hs
      · rename_i s₁ hp
        split at hs
        · rename_i hold
          rw [List.mem_singleton] at hs
          subst hs
          rw [TreeStack.down_ok] at hp
          obtain ⟨f, ps, hps, rfl⟩ := hp
          cases hi with
          | start => simp [TreeStack.currentSymbol, TreeStack.new] at hcur
          | final => simp [TreeStack.currentSymbol] at hcur
          | @mid r' j k args us ws c' p F ps' pre U hr' hat hk hf =>
            obtain ⟨hkey, rfl, rfl⟩ := posOf_eq hcur
            obtain ⟨k1, k2, k3⟩ := key_eq hkey
            have hcc : c' = c := by
              have := hat.comp; rw [k3, hc, Option.some_inj] at this; exact this.symm
            subst hcc
            simp only at hps
            subst hps
            cases hf with
            | bottom _ _ h3 h4 =>
              have hsub := hat.sub hr' hk
              simp only [List.nil_append] at hsub
              refine .final (r := r') (x := (posOf r' 0 (segs c' []).length, F)) hr' (by rw [k1]; exact hh) ?_ ?_
              · simp [Forest.slot_write, h4]
              · simpa using hsub
            | node => simp [TreeStack.currentSymbol] at hold
        · simp at hs
      · simp at hs
    · simp at hs
  | @push r j k c b i ri hr hc hseg hri hti =>
    simp only [TsInstr.apply] at hs
    split at hs
    · rename_i hcur
      split at hs
      · rename_i s₁ hp
        rw [List.mem_singleton] at hs
        subst hs
        rw [TreeStack.push_ok] at hp
        obtain ⟨hsl, rfl⟩ := hp
        cases hi with
        | start => simp [TreeStack.currentSymbol, TreeStack.new] at hcur
        | final => simp [TreeStack.currentSymbol] at hcur
        | @mid r' j' k' args us ws c' p F ps' pre U hr' hat hk hf =>
          obtain ⟨hkey, rfl, rfl⟩ := posOf_eq hcur
          obtain ⟨k1, k2, k3⟩ := key_eq hkey
          have hcc : c' = c := by
            have := hat.comp; rw [k3, hc, Option.some_inj] at this; exact this.symm
          subst hcc
          rw [← k2] at hti
          obtain ⟨o1, o2, _⟩ := ordered_cnt hat.comp hseg (ho r' hr' i _ hti ri hri rfl)
          have harg : args i = [] := List.length_eq_zero_iff.1 (by rw [hat.len i]; exact o1.symm)
          have hc₁ : ri.composition[0]? = some ri.composition[0] := List.getElem?_eq_getElem o2
          have hfr := Frames.node (r := ri) hri hr' hat hseg hti
            (F := if i ≥ F.length then F.pad i else F) (us := us) (fun i' => by
              have hk' := hk i'
              have hslot := TreeStack.push_children_slot ⟨ps', posOf r' j' k', F⟩ i i'
              simp only at hslot
              rw [hslot]
              refine ⟨fun h => ?_, fun h1 h2 => hk'.2 h1 (by simp)⟩
              rcases h with h | rfl
              · exact hk'.1 (Or.inl h)
              · exact hk'.1 (Or.inl harg))
            (TreeStack.push_children_length ⟨ps', posOf r' j' k', F⟩ i) hf
          rw [harg] at hfr
          have := TsaInv.mid (g := g) (r := ri) (j := 0) (k := 0) (args := fun _ => []) (us := fun _ => 1) (ws := []) (c := ri.composition[0]) (p := [])
            (F := .nil) hri ⟨hc₁, by omega, by simp [compose], by simp [segWord], by intro i; simp [cnt, before_zero]⟩
            (fun i => ⟨fun _ => ⟨rfl, rfl⟩, fun h => absurd rfl h⟩) hfr
          rw [List.append_nil, prod_one, mul_one] at this
          exact this
      · simp at hs
    · simp at hs
  | @up r j k c b i j₀ ri c₀ hr hc hseg hri hti hc₀ =>
    simp only [TsInstr.apply] at hs
    split at hs
    · rename_i hcur
      split at hs
      · rename_i s₁ hp
        split at hs
        · rename_i hold
          rw [List.mem_singleton] at hs
          subst hs
          rw [TreeStack.up_ok] at hp
          obtain ⟨vc, cF, hslot, rfl⟩ := hp
          cases hi with
          | start => simp [TreeStack.currentSymbol, TreeStack.new] at hcur
          | final => simp [TreeStack.currentSymbol] at hcur
          | @mid r' j' k' args us ws c' p F ps' pre U hr' hat hk hf =>
            obtain ⟨hkey, rfl, rfl⟩ := posOf_eq hcur
            obtain ⟨k1, k2, k3⟩ := key_eq hkey
            have hcc : c' = c := by
              have := hat.comp; rw [k3, hc, Option.some_inj] at this; exact this.symm
            subst hcc
            rw [← k2] at hti
            obtain ⟨o1, o2, _⟩ := ordered_cnt hat.comp hseg (ho r' hr' i _ hti ri hri rfl)
            have harg : args i ≠ [] := by
              intro h; have := hat.len i; rw [h] at this; simp at this; omega
            obtain ⟨x, rc, g1, g2, g3⟩ := (hk i).2 harg (by simp)
            simp only at hslot
            rw [g1, Option.some_inj] at hslot
            subst hslot
            obtain ⟨hrc, m, cc, argsc, usc, e1, e2, e3, e4, e5, e6, e7⟩ := g3.inv
            simp only [TreeStack.currentSymbol] at hold e2
            rw [hold] at e2
            obtain ⟨hkey2, rfl, _⟩ := posOf_eq e2
            obtain ⟨l1, l2, l3⟩ := key_eq hkey2
            have hc₁ : rc.composition[j₀ + 1]? = some (rc.composition[j₀ + 1]'(by rw [← l3]; exact o2)) := List.getElem?_eq_getElem _
            have hlt : i < F.length := Forest.slot_lt g1
            have hfr := Frames.node (r := rc) hrc hr' hat hseg (by rw [hti, l1])
              (F := F.write i none) (us := Function.update us i 1) (fun i' => by
                have hk' := hk i'
                rw [Forest.slot_write]
                by_cases hii : i' = i
                · subst hii
                  exact ⟨fun _ => by simp [hlt], fun _ h => absurd rfl h⟩
                · rw [Function.update_of_ne hii]
                  refine ⟨fun h => ?_, fun h1 _ => ?_⟩
                  · rcases h with h | h
                    · simpa [hii] using hk'.1 (Or.inl h)
                    · exact absurd h hii
                  · simpa [hii] using hk'.2 h1 (by simp))
              (by rw [Forest.length_write]; exact hlt) hf
            have := TsaInv.mid (g := g) (r := rc) (j := j₀ + 1) (k := 0) (args := argsc) (us := usc) (ws := args i) (c := _) (p := [])
              (F := cF) hrc ⟨hc₁, by omega, e4, by simp [segWord], e5⟩ e6 hfr
            have hlab : (posOf rc (j₀ + 1) 0 : TsaSymbol N T) = .position ri.key (j₀ + 1) 0 := by unfold posOf; rw [hkey2]
            rw [hlab] at this
            rw [List.append_nil, ← e7] at this
            have hilt : i < r'.tail.length := (List.getElem?_eq_some_iff.1 hti).1
            have hprod := prod_update us i 1 r'.tail.length hilt
            rw [mul_one] at hprod
            rw [mul_one]
            rw [mul_assoc, mul_assoc, hprod] at this
            exact this
        · simp at hs
      · simp at hs
    · simp at hs
  | @down r j k c b i j₁ ri c₁ hr hc hseg hri hti hc₁ =>
    simp only [TsInstr.apply] at hs
    split at hs
    · rename_i hcur
      split at hs
      · rename_i s₁ hp
        split at hs
        · rename_i hold
          rw [List.mem_singleton] at hs
          subst hs
          rw [TreeStack.down_ok] at hp
          obtain ⟨f, ps, hps, rfl⟩ := hp
          cases hi with
          | start => simp [TreeStack.currentSymbol, TreeStack.new] at hcur
          | final => simp [TreeStack.currentSymbol] at hcur
          | @mid rc jc kc argsc usc wsc cc pc Fc ps' pre' U' hrc hatc hkc hf =>
            obtain ⟨hkey, rfl, rfl⟩ := posOf_eq hcur
            obtain ⟨k1, k2, k3⟩ := key_eq hkey
            have hcc : cc = c₁ := by
              have := hatc.comp; rw [k3, hc₁, Option.some_inj] at this; exact this.symm
            subst hcc
            simp only at hps
            subst hps
            cases hf with
            | bottom => simp [TreeStack.currentSymbol] at hold
            | @node _ r' j' k' i' j₁' args us ws c' p b' F _ pre U h1 h2 hat hseg' hti' hkids hlt hf' =>
              simp only [TreeStack.currentSymbol] at hold
              obtain ⟨hkey', rfl, rfl⟩ := posOf_eq hold
              obtain ⟨l1, l2, l3⟩ := key_eq hkey'
              have hsub := hatc.sub hrc hkc
              set wd := pc ++ trail cc [] with hwd
              set uc := rc.weight * ((List.range rc.tail.length).map usc).prod with huc
              obtain ⟨o1, o2, _⟩ := ordered_cnt hat.comp hseg' (ho r' h2 i' _ hti' rc hrc rfl)
              have hlen' := hat.len i'
              have hlab : (posOf r' j' (k' + 1) : TsaSymbol N T) = .position r.key j' (k' + 1) := by unfold posOf; rw [hkey']
              have hmono : ∀ (a d : Nat) w, (args a)[d]? = some w → (Function.update args i' (args i' ++ [wd]) a)[d]? = some w := by
                intro a d w h
                by_cases ha : a = i'
                · subst ha
                  rw [Function.update_self]
                  have := (List.getElem?_eq_some_iff.1 h).1
                  rw [List.getElem?_append_left this]; exact h
                · rw [Function.update_of_ne ha]; exact h
              have := TsaInv.mid (g := g) (r := r') (j := j') (k := k' + 1) (args := Function.update args i' (args i' ++ [wd]))
                (us := Function.update us i' uc) (ws := ws) (c := c') (p := p ++ (b' ++ wd))
                (F := F.write i' (some (posOf rc jc (segs cc []).length, Fc))) h2
                ⟨hat.comp, by have := (List.getElem?_eq_some_iff.1 hseg').1; omega, ?_, ?_, ?_⟩ ?_ hf'
              · rw [hlab] at this
                have hilt : i' < r'.tail.length := (List.getElem?_eq_some_iff.1 hti').1
                have hprod := prod_update us i' uc r'.tail.length hilt
                have hone : us i' = 1 := ((hkids i').1 (Or.inr rfl)).2
                rw [hone, mul_one] at hprod
                rw [hprod] at this
                simp only [mul_one]
                have e1 : pre ++ (p ++ (b' ++ wd)) = pre ++ p ++ b' ++ pc ++ trail cc [] := by simp [hwd]
                have e2 : U * (r'.weight * (((List.range r'.tail.length).map us).prod * uc)) =
                    U * (r'.weight * ((List.range r'.tail.length).map us).prod) * uc := by simp only [mul_assoc]
                rw [e1, e2] at this
                exact this
              · exact compose_extend hmono hat.words
              · rw [List.take_add_one, hseg']
                refine segWord_append (segWord_mono hmono hat.part) ?_
                simp only [Option.toList, segWord]
                rw [Function.update_self, List.getElem?_append_right (by omega), hlen', ← o1, Nat.sub_self]
                simp
              · intro a
                unfold cnt
                rw [before_succ hat.comp hseg', List.filter_append]
                by_cases ha : a = i'
                · subst ha
                  rw [Function.update_self, List.length_append, hlen']
                  simp [cnt]
                · rw [Function.update_of_ne ha, hat.len a]
                  simp [cnt, Ne.symm ha]
              · intro a
                rw [Forest.slot_write]
                by_cases ha : a = i'
                · subst ha
                  rw [Function.update_self, Function.update_self]
                  refine ⟨fun h => ?_, fun _ _ => ⟨_, rc, by simp [hlt], hti', hsub⟩⟩
                  rcases h with h | h
                  · simp at h
                  · exact h.elim
                · rw [Function.update_of_ne ha, Function.update_of_ne ha]
                  refine ⟨fun h => ?_, fun h1 _ => ?_⟩
                  · rcases h with h | h
                    · simpa [ha] using (hkids a).1 (Or.inl h)
                    · exact h.elim
                  · simpa [ha] using (hkids a).2 h1 ha
        · simp at hs
      · simp at hs
    · simp at hs

end
end Rustomata
