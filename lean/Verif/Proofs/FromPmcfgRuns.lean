import Verif.Proofs.FromPmcfgSound
import Verif.Proofs.McfgLcfrs

/-!
# Proofs about the tree stack automaton of a PMCFG: runs and derivations
-/

namespace Rustomata
open Spec
variable {N T W : Type _}

/-- The rule in a stack symbol. -/
def PosState.rule? {X : Type _} : PosState X → Option X
  | .position x _ _ => some x
  | _ => none

theorem map_range_get {α : Type _} {n : Nat} {f : Nat → α} {i : Nat} {a : α} : ((List.range n).map f)[i]? = some a ↔ i < n ∧ f i = a := by
  rw [List.getElem?_map, Option.map_eq_some_iff]
  constructor
  · rintro ⟨b, hb, rfl⟩
    rw [List.getElem?_eq_some_iff] at hb
    obtain ⟨hb, rfl⟩ := hb
    simp at hb ⊢
    exact hb
  · rintro ⟨hi, rfl⟩
    exact ⟨i, by rw [List.getElem?_range hi], rfl⟩

section
variable [CommMonoid W]

theorem SubOk.derives {rules : List (PMCFGRule N T W)} (ho : Ordered rules) (hvars : ∀ r ∈ rules, ∀ i j, (i, j) ∈ varsOf r.composition → i < r.tail.length)
    (hex : ∀ r ∈ rules, ∀ A ∈ r.tail, ∃ r' ∈ rules, r'.head = A) (hne : ∀ r ∈ rules, r.composition ≠ [])
    {x : TsaSymbol N T × Forest (TsaSymbol N T)} {r : PMCFGRule N T W} {ws : List (List T)} {u : W} (h : SubOk rules x r ws u) :
    ws.length = r.composition.length → ∃ d : DTree (PMCFGRule N T W), Derives rules r.head d ws ∧ d.weight = u ∧
      ∀ p, (nodeAt x.1 x.2 p).map PosState.rule? = (d.at? p).map fun r => some r.key := by
  induction h with
  | @mk r m c args us xs rs F ws h1 h2 h3 h4 h5 h6 h7 ih =>
    intro hlen
    have hm : m + 1 = r.composition.length := by
      rw [← hlen, compose_length h3, List.length_take]
      have := (List.getElem?_eq_some_iff.1 h2).1
      omega
    rw [hm, List.take_length] at h3
    have hcnt : ∀ i, (args i).length = ((varsOf r.composition).filter (·.1 = i)).length := by
      intro i
      rw [h4 i, hm]; unfold cnt; rw [before_all]
    have hlt : ∀ i < r.tail.length, args i ≠ [] := by
      intro i hi
      obtain ⟨r', hr', hh⟩ := hex r h1 _ (List.getElem_mem hi)
      have := congrArg List.length (ho r h1 i _ (List.getElem?_eq_getElem hi) r' hr' hh)
      rw [List.length_map, ← hcnt, List.length_range] at this
      have hpos := List.length_pos_iff.2 (hne r' hr')
      exact List.length_pos_iff.1 (by omega)
    have hge : ∀ i, r.tail.length ≤ i → args i = [] := by
      intro i hi
      rw [← List.length_eq_zero_iff, hcnt, List.length_eq_zero_iff, List.filter_eq_nil_iff]
      intro p hp
      have := hvars r h1 p.1 p.2 hp
      simp; omega
    have hd : ∀ i, ∃ d : DTree (PMCFGRule N T W), i < r.tail.length → Derives rules (rs i).head d (args i) ∧ d.weight = us i ∧
        ∀ p, (nodeAt (xs i).1 (xs i).2 p).map PosState.rule? = (d.at? p).map fun r => some r.key := by
      intro i
      by_cases hi : i < r.tail.length
      · have hri := (h7 i (hlt i hi)).inv.1
        have := congrArg List.length (ho r h1 i _ (h6 i (hlt i hi)).2 (rs i) hri rfl)
        rw [List.length_map, ← hcnt, List.length_range] at this
        obtain ⟨d, h⟩ := ih i (hlt i hi) this
        exact ⟨d, fun _ => h⟩
      · exact ⟨.node r [], fun h => absurd h hi⟩
    choose d hd using hd
    refine ⟨.node r ((List.range r.tail.length).map d), ?_, ?_, ?_⟩
    · refine .node (args := (List.range r.tail.length).map args) h1 ?_ ?_
      · rw [derivesAll_iff]
        refine ⟨by simp, by simp, ?_⟩
        intro i A d' v' hA hd' hv'
        rw [map_range_get] at hd' hv'
        obtain ⟨hi, rfl⟩ := hd'
        obtain ⟨_, rfl⟩ := hv'
        have := (h6 i (hlt i hi)).2
        rw [hA, Option.some_inj] at this
        rw [this]
        exact (hd i hi).1
      · refine compose_mono (fun i j hij y hy => ?_) h3
        rw [map_range_get]
        exact ⟨hvars r h1 i j hij, by simpa using hy⟩
    · rw [DTree.weight, weights_eq, List.map_map]
      congr 2
      refine List.map_congr_left fun i hi => ?_
      exact (hd i (List.mem_range.1 hi)).2.1
    · intro p
      cases p with
      | nil => simp [nodeAt, DTree.at?, PosState.rule?]
      | cons i p =>
        rw [nodeAt, DTree.at?]
        by_cases hi : i < r.tail.length
        · have h8 : ((List.range r.tail.length).map d)[i]? = some (d i) := map_range_get.2 ⟨hi, rfl⟩
          rw [h8, (h6 i (hlt i hi)).1]
          exact (hd i hi).2.2 p
        · have h8 : ((List.range r.tail.length).map d)[i]? = none := by
            rw [List.getElem?_eq_none_iff]; simp; omega
          rw [h8, (h5 i (hge i (by omega))).1]
          rfl

/-! ### Completeness -/

theorem prod_split (us : Nat → W) {i n : Nat} (h : i < n) :
    ((List.range n).map us).prod = ((List.range n).map (Function.update us i 1)).prod * us i := by
  rw [prod_update us i 1 n h, mul_one]

/-- A subtree of a tree stack after the first components of a derivation have been visited. -/
inductive SubD : DTree (PMCFGRule N T W) → Nat → TsaSymbol N T × Forest (TsaSymbol N T) → W → Prop
  | mk {r : PMCFGRule N T W} {ds : List (DTree (PMCFGRule N T W))} {m : Nat} {c : List (VarT T)} {us : Nat → W}
      {xs : Nat → TsaSymbol N T × Forest (TsaSymbol N T)} {F : Forest (TsaSymbol N T)} :
      r.composition[m]? = some c →
      (∀ i, cnt r.composition (m + 1) 0 i = 0 → F.slot i = none ∧ us i = 1) →
      (∀ i d, ds[i]? = some d → cnt r.composition (m + 1) 0 i ≠ 0 → F.slot i = some (xs i)) →
      (∀ i d, ds[i]? = some d → cnt r.composition (m + 1) 0 i ≠ 0 → SubD d (cnt r.composition (m + 1) 0 i) (xs i) (us i)) →
      SubD (.node r ds) (m + 1) (posOf r m (segs c []).length, F) (r.weight * ((List.range r.tail.length).map us).prod)

/-- The children of a node after the variables before a position have been visited. -/
def KidsD (r : PMCFGRule N T W) (ds : List (DTree (PMCFGRule N T W))) (j k : Nat) (F : Forest (TsaSymbol N T)) (us : Nat → W) : Prop :=
  ∀ i, (cnt r.composition j k i = 0 → F.slot i = none ∧ us i = 1) ∧
    ∀ d, ds[i]? = some d → cnt r.composition j k i ≠ 0 → ∃ x, F.slot i = some x ∧ SubD d (cnt r.composition j k i) x (us i)

theorem KidsD.sub {r : PMCFGRule N T W} {ds : List (DTree (PMCFGRule N T W))} {m : Nat} {F : Forest (TsaSymbol N T)} {us : Nat → W} {c : List (VarT T)}
    (hc : r.composition[m]? = some c) (h : KidsD r ds (m + 1) 0 F us) :
    SubD (.node r ds) (m + 1) (posOf r m (segs c []).length, F) (r.weight * ((List.range r.tail.length).map us).prod) := by
  have hex : ∀ i, ∃ x, ∀ d, ds[i]? = some d → cnt r.composition (m + 1) 0 i ≠ 0 →
      F.slot i = some x ∧ SubD d (cnt r.composition (m + 1) 0 i) x (us i) := by
    intro i
    by_cases hx : ∃ d, ds[i]? = some d ∧ cnt r.composition (m + 1) 0 i ≠ 0
    · obtain ⟨d, h1, h2⟩ := hx
      obtain ⟨x, h3, h4⟩ := (h i).2 d h1 h2
      refine ⟨x, fun d' h5 _ => ?_⟩
      rw [h1, Option.some_inj] at h5
      subst h5
      exact ⟨h3, h4⟩
    · exact ⟨(.initial, .nil), fun d h1 h2 => absurd ⟨d, h1, h2⟩ hx⟩
  choose x hx using hex
  exact .mk hc (fun i => (h i).1) (fun i d h1 h2 => (hx i d h1 h2).1) (fun i d h1 h2 => (hx i d h1 h2).2)

theorem SubD.inv {r : PMCFGRule N T W} {ds : List (DTree (PMCFGRule N T W))} {m : Nat} {x : TsaSymbol N T × Forest (TsaSymbol N T)} {u : W}
    (h : SubD (.node r ds) (m + 1) x u) : ∃ c us, r.composition[m]? = some c ∧ x.1 = posOf r m (segs c []).length ∧ KidsD r ds (m + 1) 0 x.2 us ∧
      u = r.weight * ((List.range r.tail.length).map us).prod := by
  cases h with
  | @mk _ _ _ c us xs F h1 h2 h3 h4 =>
    exact ⟨c, us, h1, rfl, fun i => ⟨h2 i, fun d h5 h6 => ⟨xs i, h3 i d h5 h6, h4 i d h5 h6⟩⟩, rfl⟩

variable [DecidableEq N] [DecidableEq T]

/-- There is a run between two tree stacks that reads a word with a weight. -/
def Runs (g : PMCFG N T W) (s : TreeStack (TsaSymbol N T)) (w : List T) (u : W) (s' : TreeStack (TsaSymbol N T)) : Prop :=
  ∃ ts : List (TsaTransition N T W), (∀ t ∈ ts, IsTrans g t) ∧ s' ∈ storages TsInstr.apply (ts.map Transition.instruction) s ∧
    wordOf ts = w ∧ weightOf ts = u

theorem Runs.refl (g : PMCFG N T W) (s : TreeStack (TsaSymbol N T)) : Runs g s [] 1 s := ⟨[], by simp, by simp [storages], rfl, rfl⟩

theorem Runs.trans {g : PMCFG N T W} {s s' s'' : TreeStack (TsaSymbol N T)} {w w' : List T} {u u' : W} (h : Runs g s w u s')
    (h' : Runs g s' w' u' s'') : Runs g s (w ++ w') (u * u') s'' := by
  obtain ⟨ts, h1, h2, h3, h4⟩ := h
  obtain ⟨ts', h1', h2', h3', h4'⟩ := h'
  refine ⟨ts ++ ts', ?_, ?_, ?_, ?_⟩
  · intro t ht
    rcases List.mem_append.1 ht with h | h
    · exact h1 t h
    · exact h1' t h
  · rw [List.map_append, storages_append, List.mem_flatMap]
    exact ⟨s', h2, h2'⟩
  · rw [← h3, ← h3']; simp [wordOf]
  · rw [← h4, ← h4']; simp [weightOf_eq]

theorem Runs.one {g : PMCFG N T W} {s s' : TreeStack (TsaSymbol N T)} {t : TsaTransition N T W} (h : IsTrans g t) (hs : s' ∈ t.instruction.apply s) :
    Runs g s t.word t.weight s' :=
  ⟨[t], by simpa using h, by simpa [storages] using hs, by simp [wordOf], by simp [weightOf_eq]⟩

omit [DecidableEq T] in
theorem cnt_succ {cs : Composition T} {j k : Nat} {c : List (VarT T)} {b : List T} {i j₁ : Nat} (hc : cs[j]? = some c)
    (hs : (segs c [])[k]? = some (b, i, j₁)) (a : Nat) : cnt cs j (k + 1) a = cnt cs j k a + if a = i then 1 else 0 := by
  unfold cnt
  rw [before_succ hc hs, List.filter_append]
  by_cases h : a = i
  · subst h; simp
  · simp [h, Ne.symm h]

theorem runs_component {g : PMCFG N T W} (ho : Ordered g.rules) (hvars : ∀ r ∈ g.rules, ∀ i j, (i, j) ∈ varsOf r.composition → i < r.tail.length)
    {A : N} {d : DTree (PMCFGRule N T W)} {v : List (List T)} (hd : Derives g.rules A d v) :
    ∀ r ds, d = .node r ds → ∀ (m : Nat) vm c, v[m]? = some vm → r.composition[m]? = some c → ∀ ps F us, KidsD r ds m 0 F us →
      ∃ F' us' p q, vm = p ++ trail c [] ∧ KidsD r ds (m + 1) 0 F' us' ∧
        Runs g ⟨ps, posOf r m 0, F⟩ p q ⟨ps, posOf r m (segs c []).length, F'⟩ ∧
        ((List.range r.tail.length).map us).prod * q = ((List.range r.tail.length).map us').prod := by
  refine derives_induct (P := fun A d v => ∀ r ds, d = .node r ds → ∀ (m : Nat) vm c, v[m]? = some vm → r.composition[m]? = some c →
      ∀ ps F us, KidsD r ds m 0 F us →
      ∃ F' us' p q, vm = p ++ trail c [] ∧ KidsD r ds (m + 1) 0 F' us' ∧
        Runs g ⟨ps, posOf r m 0, F⟩ p q ⟨ps, posOf r m (segs c []).length, F'⟩ ∧
        ((List.range r.tail.length).map us).prod * q = ((List.range r.tail.length).map us').prod) ?_ hd
  clear hd
  intro r ds args v hr hl1 hl2 hch hv r₀ ds₀ hd₀ m vm c hvm hc ps F us hkids
  obtain ⟨rfl, rfl⟩ : r = r₀ ∧ ds = ds₀ := by simpa using hd₀
  set argsf : Nat → List (List T) := fun i => (args[i]?).getD [] with hargsf
  have hv' : compose (fun i => some (argsf i)) r.composition = some v := by
    refine compose_mono (fun i j _ x hx => ?_) hv
    simp [hargsf, hx]
  have hsub : substAll (fun i => some (argsf i)) c = some vm := by
    have := mapM_getElem? hv' m
    rw [hvm, hc] at this
    exact this.symm
  have hseg : ∃ p, segWord argsf (segs c []) = some p ∧ vm = p ++ trail c [] := by
    have := substAll_segs argsf c []
    simp only [List.nil_append, Option.map_id_fun', id_eq] at this
    rw [this, Option.map_eq_some_iff] at hsub
    obtain ⟨p, h1, h2⟩ := hsub
    exact ⟨p, h1, h2.symm⟩
  obtain ⟨p, hp, hvm'⟩ := hseg
  have inner : ∀ k, k ≤ (segs c []).length → ∃ F' us' p q, segWord argsf ((segs c []).take k) = some p ∧ KidsD r ds m k F' us' ∧
      Runs g ⟨ps, posOf r m 0, F⟩ p q ⟨ps, posOf r m k, F'⟩ ∧
      ((List.range r.tail.length).map us).prod * q = ((List.range r.tail.length).map us').prod := by
    intro k
    induction k with
    | zero => intro _; exact ⟨F, us, [], 1, by simp [segWord], hkids, Runs.refl _ _, by simp⟩
    | succ k ih =>
      intro hk
      obtain ⟨F', us', p', q, i1, i2, i3, i4⟩ := ih (by omega)
      obtain ⟨⟨b, i, j₁⟩, hs⟩ : ∃ x, (segs c [])[k]? = some x := ⟨_, List.getElem?_eq_getElem (by omega)⟩
      obtain ⟨l, hl⟩ := before_split hc hs
      have hi : i < r.tail.length := hvars r hr i j₁ (by rw [hl]; simp)
      have hti : r.tail[i]? = some r.tail[i] := List.getElem?_eq_getElem hi
      have hdi : ds[i]? = some (ds[i]'(by omega)) := List.getElem?_eq_getElem _
      have hai : args[i]? = some (args[i]'(by omega)) := List.getElem?_eq_getElem _
      obtain ⟨hder, hih⟩ := hch i _ _ _ hti hdi hai
      generalize (ds[i]'(by omega)) = d at hdi hder hih
      generalize (args[i]'(by omega)) = a at hai hder hih
      generalize r.tail[i] = A at hti hder hih
      cases hder with
      | @node ri dsi argsi _ hri hchi hvi =>
        obtain ⟨o1, o2, _⟩ := ordered_cnt hc hs (ho r hr i _ hti ri hri rfl)
        have hlen := compose_length hvi
        obtain ⟨aw, haw⟩ : ∃ aw, a[j₁]? = some aw := ⟨_, List.getElem?_eq_getElem (by omega)⟩
        obtain ⟨ci, hci⟩ : ∃ ci, ri.composition[j₁]? = some ci := ⟨_, List.getElem?_eq_getElem o2⟩
        have hword : segWord argsf ((segs c []).take (k + 1)) = some (p' ++ (b ++ aw)) := by
          rw [List.take_add_one, hs]
          refine segWord_append i1 ?_
          simp [segWord, hargsf, hai, haw]
        -- the run of the child leads to the next position
        have finish : ∀ (F₁ : Forest (TsaSymbol N T)) (Fi : Forest (TsaSymbol N T)) (usi : Nat → W) (q₁ : W),
            i < F₁.length → (∀ a, a ≠ i → F₁.slot a = F'.slot a) → KidsD ri dsi j₁ 0 Fi usi →
            Runs g ⟨ps, posOf r m k, F'⟩ b q₁ ⟨⟨i, posOf r m k, F₁⟩ :: ps, posOf ri j₁ 0, Fi⟩ →
            us' i * q₁ = ri.weight * ((List.range ri.tail.length).map usi).prod →
            ∃ F' us' p q, segWord argsf ((segs c []).take (k + 1)) = some p ∧ KidsD r ds m (k + 1) F' us' ∧
              Runs g ⟨ps, posOf r m 0, F⟩ p q ⟨ps, posOf r m (k + 1), F'⟩ ∧
              ((List.range r.tail.length).map us).prod * q = ((List.range r.tail.length).map us').prod := by
          intro F₁ Fi usi q₁ f1 f2 f3 f4 f5
          obtain ⟨Fi', usi', pi, qi, c1, c2, c3, c4⟩ := hih ri dsi rfl j₁ aw ci haw hci (⟨i, posOf r m k, F₁⟩ :: ps) Fi usi f3
          have hdown := Runs.one (IsTrans.down (g := g) hr hc hs hri hti hci)
            (s := ⟨⟨i, posOf r m k, F₁⟩ :: ps, posOf ri j₁ (segs ci []).length, Fi'⟩)
            (s' := ⟨ps, posOf r m (k + 1), F₁.write i (some (posOf ri j₁ (segs ci []).length, Fi'))⟩)
            (by simp [TsInstr.apply, TreeStack.currentSymbol, TreeStack.down, TreeStack.set])
          refine ⟨F₁.write i (some (posOf ri j₁ (segs ci []).length, Fi')),
            Function.update us' i (ri.weight * ((List.range ri.tail.length).map usi').prod), p' ++ (b ++ aw), q * q₁ * qi * 1, hword, ?_, ?_, ?_⟩
          · intro a
            rw [cnt_succ hc hs a, Forest.slot_write]
            by_cases ha : a = i
            · subst ha
              rw [if_pos rfl, ← o1, Function.update_self]
              refine ⟨fun h => by omega, fun d' hd' _ => ⟨(posOf ri j₁ (segs ci []).length, Fi'), by simp [f1], ?_⟩⟩
              rw [hdi, Option.some_inj] at hd'
              subst hd'
              exact c2.sub hci
            · rw [if_neg ha, Function.update_of_ne ha, f2 a ha]
              simpa [ha] using i2 a
          · have := ((i3.trans f4).trans c3).trans hdown
            rw [c1]
            have e : p' ++ (b ++ (pi ++ trail ci [])) = p' ++ b ++ pi ++ trail ci [] := by simp
            rw [e]
            exact this
          · rw [prod_split (Function.update us' i _) hi, Function.update_self, Function.update_idem]
            rw [mul_one, ← c4]
            calc ((List.range r.tail.length).map us).prod * (q * q₁ * qi)
                = ((List.range r.tail.length).map us').prod * q₁ * qi := by rw [← i4]; simp only [mul_assoc]
              _ = ((List.range r.tail.length).map (Function.update us' i 1)).prod * (us' i * q₁) * qi := by
                  rw [prod_split us' hi]; simp only [mul_assoc]
              _ = _ := by rw [f5]; simp only [mul_assoc]
        cases j₁ with
        | zero =>
          obtain ⟨e1, e2⟩ := (i2 i).1 o1.symm
          refine finish (if i ≥ F'.length then F'.pad i else F') .nil (fun _ => 1) ri.weight
            (TreeStack.push_children_length ⟨ps, posOf r m k, F'⟩ i) (fun a _ => TreeStack.push_children_slot ⟨ps, posOf r m k, F'⟩ i a)
            (fun a => ⟨fun _ => ⟨rfl, rfl⟩, fun d _ h => absurd (by simp [cnt, before_zero]) h⟩) ?_ (by rw [e2, prod_one, one_mul, mul_one])
          refine Runs.one (IsTrans.push (g := g) hr hc hs hri hti) ?_
          simp only [TsInstr.apply, TreeStack.currentSymbol, if_true]
          have := (TreeStack.push_ok (a := posOf ri 0 0)).2 ⟨show (⟨ps, posOf r m k, F'⟩ : TreeStack (TsaSymbol N T)).children.slot i = none from e1, rfl⟩
          rw [this]
          simp
        | succ j₀ =>
          obtain ⟨x, e1, e2⟩ := (i2 i).2 _ hdi (by omega)
          rw [← o1] at e2
          obtain ⟨c₀, usi, s1, s2, s3, s4⟩ := e2.inv
          obtain ⟨x1, x2⟩ := x
          simp only at s2 s3
          subst s2
          refine finish (F'.write i none) x2 usi 1 (by rw [Forest.length_write]; exact Forest.slot_lt e1)
            (fun a ha => by rw [Forest.slot_write]; simp [ha]) s3 ?_ (by rw [mul_one, s4])
          refine Runs.one (IsTrans.up (g := g) hr hc hs hri hti s1) ?_
          simp only [TsInstr.apply, TreeStack.currentSymbol, if_true]
          have := TreeStack.up_ok.2 ⟨_, _, show (⟨ps, posOf r m k, F'⟩ : TreeStack (TsaSymbol N T)).children.slot i = _ from e1, rfl⟩
          rw [this]
          simp [TreeStack.set]
  obtain ⟨F', us', p', q, i1, i2, i3, i4⟩ := inner _ (Nat.le_refl _)
  rw [List.take_of_length_le (Nat.le_refl _), hp, Option.some_inj] at i1
  subst i1
  refine ⟨F', us', p, q, hvm', ?_, i3, i4⟩
  intro i
  have := i2 i
  unfold cnt at this ⊢
  rw [before_next hc]
  exact this

omit [DecidableEq N] [DecidableEq T] in
/-- The labels of a completely visited subtree. -/
theorem SubD.labels {rules : List (PMCFGRule N T W)} (ho : Ordered rules) (hvars : ∀ r ∈ rules, ∀ i j, (i, j) ∈ varsOf r.composition → i < r.tail.length)
    (hne : ∀ r ∈ rules, r.composition ≠ []) {d : DTree (PMCFGRule N T W)} {n : Nat} {x : TsaSymbol N T × Forest (TsaSymbol N T)} {u : W}
    (h : SubD d n x u) : ∀ A v, Derives rules A d v → n = v.length →
      d.weight = u ∧ ∀ p, (nodeAt x.1 x.2 p).map PosState.rule? = (d.at? p).map fun r => some r.key := by
  induction h with
  | @mk r ds m c us xs F h1 h2 h3 h4 ih =>
    intro A v hd hn
    cases hd with
    | @node _ _ args _ hr hch hv =>
      obtain ⟨hl1, hl2, hall⟩ := derivesAll_iff.1 hch
      rw [compose_length hv] at hn
      have hcnt : ∀ i, cnt r.composition (m + 1) 0 i = ((varsOf r.composition).filter (·.1 = i)).length := by
        intro i; rw [hn]; unfold cnt; rw [before_all]
      have hge : ∀ i, r.tail.length ≤ i → cnt r.composition (m + 1) 0 i = 0 := by
        intro i hi
        rw [hcnt, List.length_eq_zero_iff, List.filter_eq_nil_iff]
        intro p hp
        have := hvars r hr p.1 p.2 hp
        simp; omega
      have hlt : ∀ (i : Nat) (hi : i < r.tail.length), ∃ d x, ds[i]? = some d ∧ F.slot i = some x ∧
          d.weight = us i ∧ ∀ p, (nodeAt x.1 x.2 p).map PosState.rule? = (d.at? p).map fun r => some r.key := by
        intro i hi
        have hdi : ds[i]? = some (ds[i]'(by omega)) := List.getElem?_eq_getElem _
        have hai : args[i]? = some (args[i]'(by omega)) := List.getElem?_eq_getElem _
        have hti : r.tail[i]? = some r.tail[i] := List.getElem?_eq_getElem hi
        have hder := hall i _ _ _ hti hdi hai
        have hcl : ∃ n, n ≠ 0 ∧ cnt r.composition (m + 1) 0 i = n ∧ n = (args[i]'(by omega)).length := by
          generalize (ds[i]'(by omega)) = d at hder
          generalize (args[i]'(by omega)) = a at hder ⊢
          generalize r.tail[i] = A at hder hti
          cases hder with
          | @node ri dsi argsi _ hri hchi hvi =>
            have := congrArg List.length (ho r hr i _ hti ri hri rfl)
            rw [List.length_map, List.length_range, ← hcnt] at this
            exact ⟨_, (List.length_pos_iff.2 (hne ri hri)).ne', this, (compose_length hvi).symm⟩
        obtain ⟨n, n1, n2, n3⟩ := hcl
        have hc0 : cnt r.composition (m + 1) 0 i ≠ 0 := by omega
        exact ⟨_, xs i, hdi, h3 i _ hdi hc0, ih i _ hdi hc0 _ _ hder (by omega)⟩
      refine ⟨?_, ?_⟩
      · rw [DTree.weight, weights_eq]
        congr 2
        refine List.ext_getElem? fun i => ?_
        by_cases hi : i < r.tail.length
        · obtain ⟨d, x, e1, _, e2, _⟩ := hlt i hi
          rw [List.getElem?_map, e1, map_range_get.2 ⟨hi, rfl⟩]
          simp [e2]
        · rw [List.getElem?_eq_none (by simp; omega), List.getElem?_eq_none (by simp; omega)]
      · intro p
        cases p with
        | nil => simp [nodeAt, DTree.at?, PosState.rule?]
        | cons i p =>
          rw [nodeAt, DTree.at?]
          by_cases hi : i < r.tail.length
          · obtain ⟨d, x, e1, e2, _, e3⟩ := hlt i hi
            rw [e1, e2]
            exact e3 p
          · rw [List.getElem?_eq_none (by omega), (h2 i (hge i (by omega))).1]
            rfl

/-- The tree stacks in which a derivation of an initial nonterminal is stored. -/
def Stores (s : TreeStack (TsaSymbol N T)) (d : DTree (PMCFGRule N T W)) : Prop :=
  s.parents = [] ∧ s.value = .designated ∧ ∀ p, (nodeAt s.value s.children (0 :: p)).map PosState.rule? = (d.at? p).map fun r => some r.key

theorem tsa_complete {g : PMCFG N T W} (ho : Ordered g.rules) (hvars : ∀ r ∈ g.rules, ∀ i j, (i, j) ∈ varsOf r.composition → i < r.tail.length)
    (hne : ∀ r ∈ g.rules, r.composition ≠ []) {S : N} (hS : S ∈ g.initial) {d : DTree (PMCFGRule N T W)} {w : List T} (hd : Derives g.rules S d [w]) :
    ∃ s, Runs g (TreeStack.new .initial) w d.weight s ∧ Stores s d := by
  have hcomp := runs_component ho hvars hd
  have hlab := fun {n x u} (h : SubD d n x u) => h.labels ho hvars hne _ _ hd
  cases hd with
  | @node r ds args _ hr hch hv =>
    have hlen := compose_length hv
    obtain ⟨c, hc⟩ : ∃ c, r.composition[0]? = some c := ⟨r.composition[0]'(by simp at hlen; omega), List.getElem?_eq_getElem _⟩
    have h1 := Runs.one (IsTrans.init (g := g) hr hS) (s := TreeStack.new .initial)
      (s' := ⟨[⟨0, .initial, .vac .nil⟩], posOf r 0 0, .nil⟩)
      (by simp [TsInstr.apply, TreeStack.currentSymbol, TreeStack.new, TreeStack.push, Forest.slot, Forest.length, Forest.pad])
    obtain ⟨F, us, p, q, e1, e2, e3, e4⟩ := hcomp r ds rfl 0 w c (by simp) hc [⟨0, .initial, .vac .nil⟩] .nil (fun _ => 1)
      (fun a => ⟨fun _ => ⟨rfl, rfl⟩, fun d _ h => absurd (by simp [cnt, before_zero]) h⟩)
    have h2 := Runs.one (IsTrans.fin (g := g) hr hS hc)
      (s := ⟨[⟨0, .initial, .vac .nil⟩], posOf r 0 (segs c []).length, F⟩)
      (s' := ⟨[], .designated, .occ (posOf r 0 (segs c []).length) F .nil⟩)
      (by simp [TsInstr.apply, TreeStack.currentSymbol, TreeStack.down, TreeStack.set, Forest.write])
    obtain ⟨k1, k2⟩ := hlab (e2.sub hc) (by simp)
    refine ⟨⟨[], .designated, .occ (posOf r 0 (segs c []).length) F .nil⟩, ?_, rfl, rfl, ?_⟩
    · have := (h1.trans e3).trans h2
      rw [prod_one, one_mul] at e4
      simp only [List.nil_append, mul_one] at this
      rw [k1, ← e4, e1]
      exact this
    · intro p
      rw [nodeAt]
      exact k2 p

theorem Runs.inv {g : PMCFG N T W} (ho : Ordered g.rules) (hinit : ∀ r ∈ g.rules, r.head ∈ g.initial → r.composition.length = 1)
    {ts : List (TsaTransition N T W)} (hts : ∀ t ∈ ts, IsTrans g t) : ∀ {s s' : TreeStack (TsaSymbol N T)} {w : List T} {u : W},
    TsaInv g s w u → s' ∈ storages TsInstr.apply (ts.map Transition.instruction) s → TsaInv g s' (w ++ wordOf ts) (u * weightOf ts) := by
  induction ts with
  | nil =>
    intro s s' w u hi hs
    simp only [List.map_nil, storages, List.mem_singleton] at hs
    subst hs
    simpa [wordOf, weightOf_eq] using hi
  | cons t ts ih =>
    intro s s' w u hi hs
    simp only [List.map_cons, storages, List.mem_flatMap] at hs
    obtain ⟨s₁, h1, h2⟩ := hs
    have := ih (fun t ht => hts t (by simp [ht])) (tsaInv_step ho hinit (hts t (by simp)) hi h1) h2
    simpa [wordOf, weightOf_eq, mul_assoc] using this

omit [DecidableEq N] [DecidableEq T] in
theorem SubOk.length_le {rules : List (PMCFGRule N T W)} {x : TsaSymbol N T × Forest (TsaSymbol N T)} {r : PMCFGRule N T W} {ws : List (List T)} {u : W}
    (h : SubOk rules x r ws u) : r ∈ rules ∧ ws.length ≤ r.composition.length := by
  obtain ⟨h1, m, c, args, us, h2, h3, h4, h5, _⟩ := h.inv
  refine ⟨h1, ?_⟩
  rw [compose_length h5, List.length_take]
  omega

theorem tsa_sound {g : PMCFG N T W} (ho : Ordered g.rules) (hinit : ∀ r ∈ g.rules, r.head ∈ g.initial → r.composition.length = 1)
    (hvars : ∀ r ∈ g.rules, ∀ i j, (i, j) ∈ varsOf r.composition → i < r.tail.length) (hex : ∀ r ∈ g.rules, ∀ A ∈ r.tail, ∃ r' ∈ g.rules, r'.head = A)
    (hne : ∀ r ∈ g.rules, r.composition ≠ []) {s : TreeStack (TsaSymbol N T)} {w : List T} {u : W} (h : Runs g (TreeStack.new .initial) w u s)
    (hb : s.parents = []) : (s = TreeStack.new .initial ∧ w = [] ∧ u = 1) ∨
      ∃ S ∈ g.initial, ∃ d, Derives g.rules S d [w] ∧ d.weight = u ∧ Stores s d := by
  obtain ⟨ts, h1, h2, rfl, rfl⟩ := h
  have := Runs.inv ho hinit h1 TsaInv.start h2
  rw [List.nil_append, one_mul] at this
  generalize wordOf ts = w at this
  generalize weightOf ts = u at this
  cases this with
  | start => exact Or.inl ⟨rfl, rfl, rfl⟩
  | mid hr hat hk hf =>
    simp only at hb
    subst hb
    cases hf
  | @final r F x _ _ hr hh hsl hsub =>
    obtain ⟨_, h3⟩ := hsub.length_le
    have h4 := hinit r hr hh
    obtain ⟨d, d1, d2, d3⟩ := hsub.derives ho hvars hex hne (by simp; omega)
    refine Or.inr ⟨r.head, hh, d, d1, d2, rfl, rfl, ?_⟩
    intro p
    rw [nodeAt, hsl]
    exact d3 p

end
end Rustomata
