import Verif.Proofs.Visits

/-!
# Lemmas: runs of the automaton of any PMCFG are visits
-/

namespace Rustomata
open Spec
variable {N T W : Type _}

/-- A rule whose components are the visited ones, with numbered visits. -/
def visitRule (r : PMCFGRule N T W) (V : Composition T) : PMCFGRule N T W := ⟨r.head, r.tail, visitNumbers (fun _ => 0) V, r.weight⟩

section
variable [CommMonoid W]

/-- A subtree of a tree stack outside of the path to the pointer: the rule of its root, the components visited so far, their words and the weight. -/
inductive SubVisit (rules : List (PMCFGRule N T W)) : TsaSymbol N T × Forest (TsaSymbol N T) → PMCFGRule N T W → List Nat → List (List T) → W → Prop
  | mk {r : PMCFGRule N T W} {s : List Nat} {m : Nat} {V : Composition T} {c : List (VarT T)} {args : Nat → List (List T)} {us : Nat → W}
      {xs : Nat → TsaSymbol N T × Forest (TsaSymbol N T)} {rs : Nat → PMCFGRule N T W} {F : Forest (TsaSymbol N T)} {ws : List (List T)} :
      r ∈ rules → List.Forall₂ (fun j c => (cutTrails r.composition)[j]? = some c) s V → VisitsInOrder (cutTrails r.composition) s V →
      s.getLast? = some m → (cutTrails r.composition)[m]? = some c →
      compose (fun i => some (args i)) (visitNumbers (fun _ => 0) V) = some ws →
      (∀ i, (args i).length = (visitsOf V i).length) →
      (∀ i, args i = [] → F.slot i = none ∧ us i = 1) →
      (∀ i, args i ≠ [] → F.slot i = some (xs i) ∧ r.tail[i]? = some (rs i).head) →
      (∀ i, args i ≠ [] → SubVisit rules (xs i) (rs i) (visitsOf V i) (args i) (us i)) →
      SubVisit rules (posOf r m (segs c []).length, F) r s ws (r.weight * ((List.range r.tail.length).map us).prod)

/-- The children of a node whose children in `act` are on the path to the pointer; `vis` are the components visited so far. -/
def KidsVisit (rules : List (PMCFGRule N T W)) (r : PMCFGRule N T W) (vis : Nat → List Nat) (F : Forest (TsaSymbol N T)) (args : Nat → List (List T))
    (us : Nat → W) (act : Nat → Prop) : Prop :=
  ∀ i, ((args i = [] ∨ act i) → F.slot i = none ∧ us i = 1) ∧
    (args i ≠ [] → ¬ act i → ∃ x ri, F.slot i = some x ∧ r.tail[i]? = some ri.head ∧ SubVisit rules x ri (vis i) (args i) (us i))

/-- A node is at a position of its `j`-th component, the components `s` were visited before. -/
structure AtVisit (r : PMCFGRule N T W) (s : List Nat) (j : Nat) (V : Composition T) (k : Nat) (args : Nat → List (List T)) (ws : List (List T))
    (c : List (VarT T)) (p : List T) : Prop where
  hist : List.Forall₂ (fun j c => (cutTrails r.composition)[j]? = some c) (s ++ [j]) V
  comp : V[s.length]? = some c
  order : ∀ (a j' : Nat) c' (k' : Nat) i j₁, (s ++ [j])[a]? = some j' → V[a]? = some c' → (varsOf [c'])[k']? = some (i, j₁) →
    (a < s.length ∨ a = s.length ∧ k' < k) → lastBefore (cutTrails r.composition) j' k' i = lastBefore V a k' i
  pos : ∃ c', AtPos (visitRule r V) s.length k args ws c' p

omit [CommMonoid W] in
theorem AtVisit.cut {r : PMCFGRule N T W} {s j V k args ws c p} (h : AtVisit r s j V k args ws c p) : (cutTrails r.composition)[j]? = some c := by
  obtain ⟨hl, hf⟩ := List.forall₂_iff_get.1 h.hist
  obtain ⟨h1, h2⟩ := List.getElem?_eq_some_iff.1 h.comp
  have := hf s.length (by simp) h1
  simp only [List.get_eq_getElem, List.getElem_append_right (Nat.le_refl _), Nat.sub_self, List.getElem_singleton] at this
  rw [this, h2]

omit [CommMonoid W] in
theorem AtVisit.length {r : PMCFGRule N T W} {s j V k args ws c p} (h : AtVisit r s j V k args ws c p) : V.length = s.length + 1 := by
  have := h.hist.length_eq
  simpa using this.symm

omit [CommMonoid W] in
theorem AtVisit.args_length {r : PMCFGRule N T W} {s j V k args ws c p} (h : AtVisit r s j V k args ws c p) (i : Nat) :
    (args i).length = (visBefore V s.length k i).length := by
  obtain ⟨c', hp⟩ := h.pos
  rw [hp.len i, visBefore_length]
  exact visitNumbers_cnt _ _ _ _

omit [CommMonoid W] in
theorem AtVisit.le {r : PMCFGRule N T W} {s j V k args ws c p} (h : AtVisit r s j V k args ws c p) : k ≤ (segs c []).length := by
  obtain ⟨c', hp⟩ := h.pos
  obtain ⟨c'', e1, e2, e3, e4⟩ := visitNumbers_seg h.comp
  have hpc := hp.comp
  simp only [visitRule] at hpc
  rw [e1, Option.some_inj] at hpc
  subst hpc
  rw [← e2]
  exact hp.le

/-- The first position of a rule. -/
theorem atVisit_start {r : PMCFGRule N T W} {s : List Nat} {j : Nat} {V : Composition T} {c : List (VarT T)} {args : Nat → List (List T)} {ws : List (List T)}
    (hs : List.Forall₂ (fun j c => (cutTrails r.composition)[j]? = some c) s V) (ho : VisitsInOrder (cutTrails r.composition) s V)
    (hc : (cutTrails r.composition)[j]? = some c) (hw : compose (fun i => some (args i)) (visitNumbers (fun _ => 0) V) = some ws)
    (hl : ∀ i, (args i).length = (visitsOf V i).length) : AtVisit r s j (V ++ [c]) 0 args ws c [] := by
  have hlen := hs.length_eq
  have hget : (V ++ [c])[s.length]? = some c := by rw [hlen]; simp
  obtain ⟨c', e1, e2, e3, e4⟩ := visitNumbers_seg hget
  refine ⟨List.rel_append hs (.cons hc .nil), hget, ?_, c', ?_⟩
  · intro a j' c₁ k' i j₁ h1 h2 h3 h4
    replace h4 : a < s.length := by omega
    rw [List.getElem?_append_left h4] at h1
    rw [List.getElem?_append_left (by omega)] at h2
    rw [ho a j' c₁ k' i j₁ h1 h2 h3]
    unfold lastBefore
    rw [List.take_append_of_le_length (by omega), List.getElem?_append_left (by omega)]
  · refine ⟨e1, by omega, ?_, by simp [segWord], ?_⟩
    · show compose _ ((visitNumbers (fun _ => 0) (V ++ [c])).take s.length) = _
      rw [visitNumbers_take, hlen, List.take_append_of_le_length (Nat.le_refl _), List.take_length]
      exact hw
    · intro i
      show _ = cnt (visitNumbers (fun _ => 0) (V ++ [c])) s.length 0 i
      rw [visitNumbers_cnt, hl, visitsOf]
      unfold cnt before
      rw [hlen, List.take_append_of_le_length (Nat.le_refl _), List.take_length]
      simp

/-- The first position of a rule that was not visited before. -/
theorem atVisit_first {r : PMCFGRule N T W} {j : Nat} {c : List (VarT T)} (hc : (cutTrails r.composition)[j]? = some c) :
    AtVisit r [] j [c] 0 (fun _ => []) [] c [] :=
  atVisit_start (s := []) (V := []) .nil (fun a j c k i j₁ h => by simp at h) hc (by simp [compose, visitNumbers]) (fun i => by simp [visitsOf, varsOf])

/-- The path to the pointer: rule at the pointer, its visited components (the last one is the current one), the words of those visited before, the word
read before the current component, and the weight outside. -/
inductive FramesVisit (g : PMCFG N T W) : List (Frame (TsaSymbol N T)) → PMCFGRule N T W → List Nat → List (List T) → List T → W → Prop
  | bottom {r : PMCFGRule N T W} {F} : r ∈ g.rules → r.head ∈ g.initial → F.slot 0 = none → 0 < F.length →
      FramesVisit g [⟨0, .initial, F⟩] r [0] [] [] 1
  | node {r r' : PMCFGRule N T W} {s j V k i j₁ args us ws c p b F ps pre U} : r ∈ g.rules → r' ∈ g.rules → AtVisit r' s j V k args ws c p →
      (segs c [])[k]? = some (b, i, j₁) → lastBefore (cutTrails r'.composition) j k i = lastBefore V s.length k i →
      r'.tail[i]? = some r.head → KidsVisit g.rules r' (visBefore V s.length k) F args us (· = i) → i < F.length →
      FramesVisit g ps r' (s ++ [j]) ws pre U →
      FramesVisit g (⟨i, posOf r' j k, F⟩ :: ps) r (visBefore V s.length k i ++ [j₁]) (args i) (pre ++ p ++ b)
        (U * (r'.weight * ((List.range r'.tail.length).map us).prod))

/-- What holds for the tree stack after reading a word with a weight. -/
inductive TsaVisit (g : PMCFG N T W) : TreeStack (TsaSymbol N T) → List T → W → Prop
  | start : TsaVisit g (TreeStack.new .initial) [] 1
  | mid {r : PMCFGRule N T W} {s j V k args us ws c p F ps pre U} : r ∈ g.rules → AtVisit r s j V k args ws c p →
      KidsVisit g.rules r (visBefore V s.length k) F args us (fun _ => False) → FramesVisit g ps r (s ++ [j]) ws pre U →
      TsaVisit g ⟨ps, posOf r j k, F⟩ (pre ++ p) (U * (r.weight * ((List.range r.tail.length).map us).prod))
  | final {r : PMCFGRule N T W} {F x w u} : r ∈ g.rules → r.head ∈ g.initial → F.slot 0 = some x → SubVisit g.rules x r [0] [w] u →
      TsaVisit g ⟨[], .designated, F⟩ w u

/-- The invariant for a completely visited component. -/
theorem AtVisit.sub {rules : List (PMCFGRule N T W)} {r : PMCFGRule N T W} (hr : r ∈ rules) {s j V args us ws c p F}
    (h : AtVisit r s j V (segs c []).length args ws c p) (hk : KidsVisit rules r (visBefore V s.length (segs c []).length) F args us (fun _ => False)) :
    SubVisit rules (posOf r j (segs c []).length, F) r (s ++ [j]) (ws ++ [p ++ trail c []]) (r.weight * ((List.range r.tail.length).map us).prod) := by
  have hlen := h.length
  have hvis : ∀ i, visBefore V s.length (segs c []).length i = visitsOf V i := by
    intro i
    rw [← visBefore_next h.comp, ← visBefore_all, hlen]
  have hal := h.args_length
  obtain ⟨c', hp⟩ := h.pos
  obtain ⟨c'', e1, e2, e3, e4⟩ := visitNumbers_seg h.comp
  have hpc := hp.comp
  simp only [visitRule] at hpc
  rw [e1, Option.some_inj] at hpc
  subst hpc
  rw [← e2] at hp
  obtain ⟨h1, _⟩ := hp.done
  simp only [visitRule] at h1
  rw [e3, List.take_of_length_le (by rw [visitNumbers_length]; omega)] at h1
  have hex : ∀ i, ∃ y : (TsaSymbol N T × Forest (TsaSymbol N T)) × PMCFGRule N T W, args i ≠ [] →
      F.slot i = some y.1 ∧ r.tail[i]? = some y.2.head ∧ SubVisit rules y.1 y.2 (visitsOf V i) (args i) (us i) := by
    intro i
    by_cases ha : args i = []
    · exact ⟨((.initial, .nil), r), fun h => absurd ha h⟩
    · obtain ⟨x, ri, e1, e2, e3⟩ := (hk i).2 ha (by simp)
      exact ⟨(x, ri), fun _ => ⟨e1, e2, by rw [← hvis]; exact e3⟩⟩
  choose y hy using hex
  refine .mk (xs := fun i => (y i).1) (rs := fun i => (y i).2) hr h.hist ?_ (by simp) h.cut h1 (fun i => by rw [hal, hvis]) (fun i hi => (hk i).1 (Or.inl hi))
    (fun i hi => ⟨(hy i hi).1, (hy i hi).2.1⟩) (fun i hi => (hy i hi).2.2)
  intro a j' c₁ k i j₁ g1 g2 g3
  refine h.order a j' c₁ k i j₁ g1 g2 g3 ?_
  have ha := (List.getElem?_eq_some_iff.1 g2).1
  by_cases hlt : a < s.length
  · exact Or.inl hlt
  · have : a = s.length := by omega
    subst this
    rw [h.comp, Option.some_inj] at g2
    subst g2
    rw [← segs_vars c []] at g3
    have := (List.getElem?_eq_some_iff.1 g3).1
    rw [List.length_map] at this
    exact Or.inr ⟨rfl, this⟩

theorem SubVisit.inv {rules : List (PMCFGRule N T W)} {x : TsaSymbol N T × Forest (TsaSymbol N T)} {r : PMCFGRule N T W} {s : List Nat} {ws : List (List T)} {u : W}
    (h : SubVisit rules x r s ws u) : r ∈ rules ∧ ∃ m c V args us, List.Forall₂ (fun j c => (cutTrails r.composition)[j]? = some c) s V ∧
      VisitsInOrder (cutTrails r.composition) s V ∧ s.getLast? = some m ∧ (cutTrails r.composition)[m]? = some c ∧ x.1 = posOf r m (segs c []).length ∧
      compose (fun i => some (args i)) (visitNumbers (fun _ => 0) V) = some ws ∧ (∀ i, (args i).length = (visitsOf V i).length) ∧
      KidsVisit rules r (visitsOf V) x.2 args us (fun _ => False) ∧ u = r.weight * ((List.range r.tail.length).map us).prod := by
  cases h with
  | @mk _ _ m V c args us xs rs F _ h1 h2 h3 h4 h5 h6 h7 h8 h9 h10 =>
    refine ⟨h1, m, c, V, args, us, h2, h3, h4, h5, rfl, h6, h7, ?_, rfl⟩
    intro i
    refine ⟨fun h => ?_, fun h _ => ⟨xs i, rs i, (h9 i h).1, (h9 i h).2, h10 i h⟩⟩
    rcases h with h | h
    · exact h8 i h
    · exact h.elim

theorem tsaVisit_step [DecidableEq N] [DecidableEq T] {g : PMCFG N T W} (hwf : WellFormed g.rules) (hne : ∀ r ∈ g.rules, r.head ∈ g.initial → r.composition ≠ [])
    {t : TsaTransition N T W} (ht : IsStep g t) {s s' : TreeStack (TsaSymbol N T)} {v : List T} {u : W} (hi : TsaVisit g s v u)
    (hs : s' ∈ t.instruction.apply s) : TsaVisit g s' (v ++ t.word) (u * t.weight) := by
  have hcomp : ∀ r ∈ g.rules, ∀ (j k : Nat) c b i j₁, (cutTrails r.composition)[j]? = some c → (segs c [])[k]? = some (b, i, j₁) →
      ∀ ri ∈ g.rules, r.tail[i]? = some ri.head → ∃ c₁, (cutTrails ri.composition)[j₁]? = some c₁ := by
    intro r hr j k c b i j₁ hc hk ri hri hti
    obtain ⟨c', e1, e2⟩ := cutTrails_seg.1 ⟨c, hc, hk⟩
    obtain ⟨l, hl⟩ := before_split e1 e2
    obtain ⟨A, hA, hlt⟩ := hwf r hr i j₁ (by rw [hl]; simp)
    rw [hti, Option.some_inj] at hA
    exact ⟨_, List.getElem?_eq_getElem (by rw [cutTrails_length]; exact hlt ri hri hA)⟩
  cases ht with
  | @init r hr hh =>
    simp only [TsInstr.apply] at hs
    split at hs
    · rename_i hcur
      split at hs
      · rename_i s₁ hp
        rw [List.mem_singleton] at hs
        subst hs
        rw [TreeStack.push_ok] at hp
        obtain ⟨hsl, rfl⟩ := hp
        cases hi with
        | start =>
          obtain ⟨c, hc⟩ : ∃ c, (cutTrails r.composition)[0]? = some c :=
            ⟨_, List.getElem?_eq_getElem (by rw [cutTrails_length]; exact List.length_pos_iff.2 (hne r hr hh))⟩
          have := TsaVisit.mid (g := g) (us := fun _ => 1) (F := .nil)
            (ps := [⟨0, .initial, if 0 ≥ (TreeStack.new (PosState.initial : TsaSymbol N T)).children.length then
              (TreeStack.new (PosState.initial : TsaSymbol N T)).children.pad 0 else (TreeStack.new (PosState.initial : TsaSymbol N T)).children⟩])
            (pre := []) (U := 1) hr (atVisit_first hc) (fun i => ⟨fun _ => ⟨rfl, rfl⟩, fun h => absurd rfl h⟩)
            (.bottom hr hh (by rw [TreeStack.push_children_slot]; rfl) (TreeStack.push_children_length _ _))
          rw [List.append_nil, prod_one, mul_one] at this
          exact this
        | mid => simp [TreeStack.currentSymbol] at hcur
        | final => simp [TreeStack.currentSymbol] at hcur
      · simp at hs
    · simp at hs
  | @fin r c hr hh hc =>
    simp only [TsInstr.apply] at hs
    split at hs
    · rename_i hcur
      split at hs
      · rename_i s₁ hp
        split at hs
        · rename_i hold
          rw [List.mem_singleton] at hs
          subst hs
          rw [TreeStack.down_ok] at hp
          obtain ⟨f, ps, hps, rfl⟩ := hp
          cases hi with
          | start => simp [TreeStack.currentSymbol, TreeStack.new] at hcur
          | final => simp [TreeStack.currentSymbol] at hcur
          | @mid r' sv j V k args us ws c' p F ps' pre U hr' hat hk hf =>
            obtain ⟨hkey, rfl, rfl⟩ := posOf_eq hcur
            obtain ⟨k1, k2, k3⟩ := key_eq hkey
            have hcc : c' = c := by
              have := hat.cut; rw [k3, hc, Option.some_inj] at this; exact this.symm
            subst hcc
            simp only at hps
            subst hps
            have hsub := hat.sub hr' hk
            generalize hsv : sv ++ [0] = sv' at hf hsub
            cases hf with
            | bottom _ _ h3 h4 =>
              simp only [List.nil_append] at hsub
              refine .final (r := r') (x := (posOf r' 0 (segs c' []).length, F)) hr' (by rw [k1]; exact hh) ?_ ?_
              · simp [Forest.slot_write, h4]
              · simpa using hsub
            | node => simp [TreeStack.currentSymbol] at hold
        · simp at hs
      · simp at hs
    · simp at hs
  | @push r j k c b i j₁ ri hr hc hseg hlast hri hti =>
    simp only [TsInstr.apply] at hs
    split at hs
    · rename_i hcur
      split at hs
      · rename_i s₁ hp
        rw [List.mem_singleton] at hs
        subst hs
        rw [TreeStack.push_ok] at hp
        obtain ⟨hsl, rfl⟩ := hp
        cases hi with
        | start => simp [TreeStack.currentSymbol, TreeStack.new] at hcur
        | final => simp [TreeStack.currentSymbol] at hcur
        | @mid r' sv j' V k' args us ws c' p F ps' pre U hr' hat hk hf =>
          obtain ⟨hkey, rfl, rfl⟩ := posOf_eq hcur
          obtain ⟨k1, k2, k3⟩ := key_eq hkey
          have hcc : c' = c := by
            have := hat.cut; rw [k3, hc, Option.some_inj] at this; exact this.symm
          subst hcc
          rw [← k2] at hti
          rw [← k3] at hlast
          simp only at hsl
          have harg : args i = [] := by
            by_contra hne'
            obtain ⟨x, ri', e1, _⟩ := (hk i).2 hne' (by simp)
            rw [e1] at hsl
            cases hsl
          have hvis : visBefore V sv.length k' i = [] := by
            have := hat.args_length i
            rw [harg] at this
            exact List.length_eq_zero_iff.1 this.symm
          obtain ⟨c₁, hc₁⟩ := hcomp r' hr' j' k' c' b i j₁ hat.cut hseg ri hri hti
          have hfr := FramesVisit.node (r := ri) hri hr' hat hseg (by rw [hlast, visBefore_last, hvis]; rfl) hti
            (F := if i ≥ F.length then F.pad i else F) (us := us) (fun i' => by
              have hk' := hk i'
              have hslot := TreeStack.push_children_slot ⟨ps', posOf r' j' k', F⟩ i i'
              simp only at hslot
              rw [hslot]
              refine ⟨fun h => ?_, fun h1 h2 => hk'.2 h1 (by simp)⟩
              rcases h with h | rfl
              · exact hk'.1 (Or.inl h)
              · exact hk'.1 (Or.inl harg))
            (TreeStack.push_children_length ⟨ps', posOf r' j' k', F⟩ i) hf
          rw [harg, hvis] at hfr
          have := TsaVisit.mid (g := g) (us := fun _ => 1) (F := .nil) hri (atVisit_first hc₁)
            (fun i => ⟨fun _ => ⟨rfl, rfl⟩, fun h => absurd rfl h⟩) hfr
          rw [List.append_nil, prod_one, mul_one] at this
          exact this
      · simp at hs
    · simp at hs
  | @up r j k c b i j₁ j₀ ri c₀ hr hc hseg hlast hri hti hc₀ =>
    simp only [TsInstr.apply] at hs
    split at hs
    · rename_i hcur
      split at hs
      · rename_i s₁ hp
        split at hs
        · rename_i hold
          rw [List.mem_singleton] at hs
          subst hs
          rw [TreeStack.up_ok] at hp
          obtain ⟨vc, cF, hslot, rfl⟩ := hp
          cases hi with
          | start => simp [TreeStack.currentSymbol, TreeStack.new] at hcur
          | final => simp [TreeStack.currentSymbol] at hcur
          | @mid r' sv j' V k' args us ws c' p F ps' pre U hr' hat hk hf =>
            obtain ⟨hkey, rfl, rfl⟩ := posOf_eq hcur
            obtain ⟨k1, k2, k3⟩ := key_eq hkey
            have hcc : c' = c := by
              have := hat.cut; rw [k3, hc, Option.some_inj] at this; exact this.symm
            subst hcc
            rw [← k2] at hti
            rw [← k3] at hlast
            simp only at hslot
            have harg : args i ≠ [] := by
              intro h
              rw [((hk i).1 (Or.inl h)).1] at hslot
              cases hslot
            obtain ⟨x, rc, g1, g2, g3⟩ := (hk i).2 harg (by simp)
            rw [g1, Option.some_inj] at hslot
            subst hslot
            obtain ⟨hrc, m, cc, Vc, argsc, usc, f1, f2, f3, f4, e2, e4, e5, e6, e7⟩ := g3.inv
            simp only [TreeStack.currentSymbol] at hold e2
            rw [hold] at e2
            obtain ⟨hkey2, rfl, _⟩ := posOf_eq e2
            obtain ⟨l1, l2, l3⟩ := key_eq hkey2
            obtain ⟨c₁, hc₁⟩ := hcomp r' hr' j' k' c' b i j₁ hat.cut hseg rc hrc (by rw [hti, l1])
            have hlt : i < F.length := Forest.slot_lt g1
            have hfr := FramesVisit.node (r := rc) hrc hr' hat hseg (by rw [hlast, visBefore_last, f3]) (by rw [hti, l1])
              (F := F.write i none) (us := Function.update us i 1) (fun i' => by
                have hk' := hk i'
                rw [Forest.slot_write]
                by_cases hii : i' = i
                · subst hii
                  exact ⟨fun _ => by simp [hlt], fun _ h => absurd rfl h⟩
                · rw [Function.update_of_ne hii]
                  refine ⟨fun h => ?_, fun h1 _ => ?_⟩
                  · rcases h with h | h
                    · simpa [hii] using hk'.1 (Or.inl h)
                    · exact absurd h hii
                  · simpa [hii] using hk'.2 h1 (by simp))
              (by rw [Forest.length_write]; exact hlt) hf
            have hstart := atVisit_start f1 f2 hc₁ e4 e5
            have hvis : ∀ i', visBefore (Vc ++ [c₁]) (visBefore V sv.length k' i).length 0 i' = visitsOf Vc i' := by
              intro i'
              rw [f1.length_eq]
              unfold visBefore before visitsOf
              rw [List.take_append_of_le_length (Nat.le_refl _), List.take_length]
              simp
            have := TsaVisit.mid (g := g) (us := usc) (F := cF) hrc hstart (fun i' => by rw [hvis]; exact e6 i') hfr
            have hlab : (posOf rc j₁ 0 : TsaSymbol N T) = .position ri.key j₁ 0 := by unfold posOf; rw [hkey2]
            rw [hlab] at this
            rw [List.append_nil, ← e7] at this
            have hilt : i < r'.tail.length := (List.getElem?_eq_some_iff.1 hti).1
            have hprod := prod_update us i 1 r'.tail.length hilt
            rw [mul_one] at hprod
            rw [mul_one]
            rw [mul_assoc, mul_assoc, hprod] at this
            exact this
        · simp at hs
      · simp at hs
    · simp at hs
  | @down r j k c b i j₁ ri c₁ hr hc hseg hri hti hc₁ =>
    simp only [TsInstr.apply] at hs
    split at hs
    · rename_i hcur
      split at hs
      · rename_i s₁ hp
        split at hs
        · rename_i hold
          rw [List.mem_singleton] at hs
          subst hs
          rw [TreeStack.down_ok] at hp
          obtain ⟨f, ps, hps, rfl⟩ := hp
          cases hi with
          | start => simp [TreeStack.currentSymbol, TreeStack.new] at hcur
          | final => simp [TreeStack.currentSymbol] at hcur
          | @mid rc svc jc Vc kc argsc usc wsc cc pc Fc ps' pre' U' hrc hatc hkc hf =>
            obtain ⟨hkey, rfl, rfl⟩ := posOf_eq hcur
            obtain ⟨k1, k2, k3⟩ := key_eq hkey
            have hcc : cc = c₁ := by
              have := hatc.cut; rw [k3, hc₁, Option.some_inj] at this; exact this.symm
            subst hcc
            simp only at hps
            subst hps
            have hsub := hatc.sub hrc hkc
            generalize hsv : svc ++ [jc] = sv' at hf hsub
            cases hf with
            | bottom => simp [TreeStack.currentSymbol] at hold
            | @node _ r' sv j' V k' i' j₁' args us ws c' p b' F _ pre U h1 h2 hat hseg' hlast' hti' hkids hlt hf' =>
              simp only [TreeStack.currentSymbol] at hold
              obtain ⟨hkey', rfl, rfl⟩ := posOf_eq hold
              obtain ⟨l1, l2, l3⟩ := key_eq hkey'
              set wd := pc ++ trail cc [] with hwd
              set uc := rc.weight * ((List.range rc.tail.length).map usc).prod with huc
              obtain ⟨c'', hpos⟩ := hat.pos
              obtain ⟨c₂, n1, n2, n3, n4⟩ := visitNumbers_seg hat.comp
              have hpc := hpos.comp
              simp only [visitRule] at hpc
              rw [n1, Option.some_inj] at hpc
              subst hpc
              have hseg₂ := n4 _ _ _ _ hseg'
              have hlen' : (args i').length = cnt V sv.length k' i' := by rw [hat.args_length, visBefore_length]
              have hlab : (posOf r' j' (k' + 1) : TsaSymbol N T) = .position r.key j' (k' + 1) := by unfold posOf; rw [hkey']
              have hmono : ∀ (a d : Nat) w, (args a)[d]? = some w → (Function.update args i' (args i' ++ [wd]) a)[d]? = some w := by
                intro a d w h
                by_cases ha : a = i'
                · subst ha
                  rw [Function.update_self]
                  have := (List.getElem?_eq_some_iff.1 h).1
                  rw [List.getElem?_append_left this]; exact h
                · rw [Function.update_of_ne ha]; exact h
              have := TsaVisit.mid (g := g) (r := r') (s := sv) (j := j') (V := V) (k := k' + 1) (args := Function.update args i' (args i' ++ [wd]))
                (us := Function.update us i' uc) (ws := ws) (c := c') (p := p ++ (b' ++ wd))
                (F := F.write i' (some (posOf rc jc (segs cc []).length, Fc))) h2
                ⟨hat.hist, hat.comp, ?_, c₂, n1, by have := (List.getElem?_eq_some_iff.1 hseg₂).1; omega, ?_, ?_, ?_⟩ ?_ hf'
              · rw [hlab] at this
                have hilt : i' < r'.tail.length := (List.getElem?_eq_some_iff.1 hti').1
                have hprod := prod_update us i' uc r'.tail.length hilt
                have hone : us i' = 1 := ((hkids i').1 (Or.inr rfl)).2
                rw [hone, mul_one] at hprod
                rw [hprod] at this
                simp only [mul_one]
                have e1 : pre ++ (p ++ (b' ++ wd)) = pre ++ p ++ b' ++ pc ++ trail cc [] := by simp [hwd]
                have e2 : U * (r'.weight * (((List.range r'.tail.length).map us).prod * uc)) =
                    U * (r'.weight * ((List.range r'.tail.length).map us).prod) * uc := by simp only [mul_assoc]
                rw [e1, e2] at this
                exact this
              · intro a j'' c₃ k'' i'' j₁'' g1 g2 g3 g4
                by_cases hold' : a < sv.length ∨ a = sv.length ∧ k'' < k'
                · exact hat.order a j'' c₃ k'' i'' j₁'' g1 g2 g3 hold'
                · obtain ⟨rfl, rfl⟩ : a = sv.length ∧ k'' = k' := by omega
                  simp only [List.getElem?_append_right (Nat.le_refl _), Nat.sub_self, List.getElem?_cons_zero, Option.some_inj] at g1
                  subst g1
                  rw [hat.comp, Option.some_inj] at g2
                  subst g2
                  rw [← segs_vars c' [], List.getElem?_map, hseg'] at g3
                  simp only [Option.map_some, Option.some_inj, Prod.mk.injEq] at g3
                  obtain ⟨rfl, rfl⟩ := g3
                  exact hlast'
              · exact compose_extend hmono hpos.words
              · rw [List.take_add_one, hseg₂]
                refine segWord_append (segWord_mono hmono hpos.part) ?_
                simp only [Option.toList, segWord]
                rw [Function.update_self, List.getElem?_append_right (by omega), hlen', Nat.sub_self]
                simp
              · intro a
                show _ = cnt (visitNumbers (fun _ => 0) V) sv.length (k' + 1) a
                rw [visitNumbers_cnt, cnt_succ hat.comp hseg']
                by_cases ha : a = i'
                · subst ha
                  rw [Function.update_self, List.length_append, hlen']
                  simp
                · rw [Function.update_of_ne ha, if_neg ha, hat.args_length a, visBefore_length]; rfl
              · intro a
                rw [Forest.slot_write, visBefore_succ hat.comp hseg']
                by_cases ha : a = i'
                · subst ha
                  rw [Function.update_self, Function.update_self, if_pos rfl]
                  refine ⟨fun h => ?_, fun _ _ => ⟨_, rc, by simp [hlt], hti', hsub⟩⟩
                  rcases h with h | h
                  · simp at h
                  · exact h.elim
                · rw [Function.update_of_ne ha, Function.update_of_ne ha, if_neg ha, List.append_nil]
                  refine ⟨fun h => ?_, fun h1 _ => ?_⟩
                  · rcases h with h | h
                    · simpa [ha] using (hkids a).1 (Or.inl h)
                    · exact h.elim
                  · simpa [ha] using (hkids a).2 h1 ha
        · simp at hs
      · simp at hs
    · simp at hs

/-- A visited subtree is a derivation. -/
theorem SubVisit.visited {rules : List (PMCFGRule N T W)} {x : TsaSymbol N T × Forest (TsaSymbol N T)} {r : PMCFGRule N T W} {s : List Nat} {ws : List (List T)} {u : W}
    (h : SubVisit rules x r s ws u) : ∃ labels, Visited cutTrails rules r.head s labels ws u ∧
      ∀ p, (nodeAt x.1 x.2 p).map PosState.rule? = (labels p).map fun r => some r.key := by
  induction h with
  | @mk r s m V c args us xs rs F ws h1 h2 h3 h4 h5 h6 h7 h8 h9 h10 ih =>
    have hiff : ∀ i, visitsOf V i = [] ↔ args i = [] := by
      intro i
      rw [← List.length_eq_zero_iff, ← h7 i, List.length_eq_zero_iff]
    have hex : ∀ i, ∃ labels, args i ≠ [] → Visited cutTrails rules (rs i).head (visitsOf V i) labels (args i) (us i) ∧
        ∀ p, (nodeAt (xs i).1 (xs i).2 p).map PosState.rule? = (labels p).map fun r => some r.key := by
      intro i
      by_cases ha : args i = []
      · exact ⟨fun _ => none, fun h => absurd ha h⟩
      · obtain ⟨l, hl⟩ := ih i ha
        exact ⟨l, fun _ => hl⟩
    choose labels hl using hex
    refine ⟨visitLabels r V labels, ?_, ?_⟩
    · have := Visited.node (cut := cutTrails) (A := fun i => (rs i).head) (labels := labels) (args := args) (us := us) (ws := ws) h1 h2 h3
        (fun i hi => (h9 i fun e => hi ((hiff i).2 e)).2) (fun i hi => (hl i fun e => hi ((hiff i).2 e)).1) h6
      have hus : (fun i => if visitsOf V i = [] then 1 else us i) = us := by
        funext i
        split
        · rename_i he
          exact ((h8 i ((hiff i).1 he)).2).symm
        · rfl
      rw [hus] at this
      exact this
    · intro p
      cases p with
      | nil => simp [nodeAt, visitLabels, PosState.rule?]
      | cons i p =>
        rw [nodeAt, visitLabels]
        by_cases ha : args i = []
        · rw [(h8 i ha).1, if_pos ((hiff i).2 ha)]; rfl
        · rw [(h9 i ha).1, if_neg fun e => ha ((hiff i).1 e)]
          exact (hl i ha).2 p

end
end Rustomata
