import Verif.Proofs.FromPmcfgRuns
import Verif.Proofs.TreeStack

/-!
# Proofs about `to_abstract_syntax_tree` and about panics of the conversion to tree stack automata
-/

namespace Rustomata
open Spec
variable {N T W : Type _}

theorem toAst_fold {X : Type _} (l : GornTree (PosState X)) (hk : (l.map Prod.fst).Nodup)
    (hl : ∀ p ∈ l, ∀ q, p.1 = 0 :: q → ∃ x, p.2.rule? = some x) (acc : GornTree X) :
    ∃ m : GornTree X, (l.foldlM (init := acc) fun acc p =>
      match p.1 with
      | [] => some acc
      | 0 :: rest =>
        match p.2 with
        | .position x _ _ => some (acc.insert rest x)
        | _ => none
      | _ :: _ => some acc) = some m ∧
      ∀ q, GornTree.get m q = ((GornTree.get l (0 :: q)).bind PosState.rule?).or (GornTree.get acc q) := by
  induction l generalizing acc with
  | nil => exact ⟨acc, rfl, fun q => by simp [GornTree.get]⟩
  | cons p l ih =>
    rw [List.map_cons, List.nodup_cons] at hk
    replace ih := fun acc => ih hk.2 (fun p hp => hl p (by simp [hp])) acc
    obtain ⟨a, v⟩ := p
    have hnot : ∀ q, a = 0 :: q → GornTree.get l (0 :: q) = none := by
      rintro q rfl
      have h1 := hk.1
      clear ih hl hk acc
      induction l with
      | nil => rfl
      | cons p l ih =>
        obtain ⟨b, v'⟩ := p
        simp only [List.map_cons, List.mem_cons, not_or] at h1
        rw [GornTree.get, if_neg h1.1]
        exact ih h1.2
    rw [List.foldlM_cons]
    rcases a with _ | ⟨_ | n, rest⟩
    · obtain ⟨m, h1, h2⟩ := ih acc
      refine ⟨m, h1, fun q => ?_⟩
      rw [h2, GornTree.get, if_neg (by simp)]
    · obtain ⟨x, hx⟩ := hl (0 :: rest, v) (by simp) rest rfl
      cases v with
      | designated => simp [PosState.rule?] at hx
      | initial => simp [PosState.rule?] at hx
      | position y i j =>
        obtain ⟨m, h1, h2⟩ := ih (acc.insert rest y)
        refine ⟨m, h1, fun q => ?_⟩
        rw [h2, GornTree.get_insert, GornTree.get]
        by_cases hq : q = rest
        · subst hq
          rw [hnot q rfl]; simp [PosState.rule?]
        · rw [if_neg hq, if_neg (by simpa using hq)]
    · obtain ⟨m, h1, h2⟩ := ih acc
      refine ⟨m, h1, fun q => ?_⟩
      rw [h2, GornTree.get, if_neg (by simp)]

theorem gorn_get_mem {V : Type _} {l : GornTree V} (hk : (l.map Prod.fst).Nodup) {a : List Nat} {v : V} (h : (a, v) ∈ l) : GornTree.get l a = some v := by
  induction l with
  | nil => simp at h
  | cons p l ih =>
    obtain ⟨b, v'⟩ := p
    rw [List.map_cons, List.nodup_cons] at hk
    rw [GornTree.get]
    rcases List.mem_cons.1 h with h | h'
    · cases h; simp
    · rw [if_neg, ih hk.2 h']
      rintro rfl
      exact hk.1 (List.mem_map.2 ⟨_, h', rfl⟩)

/-- The abstract syntax tree of a tree stack in which a derivation is stored. -/
theorem Stores.ast {s : TreeStack (TsaSymbol N T)} {d : DTree (PMCFGRule N T W)} (h : Stores s d) :
    ∃ m, toAbstractSyntaxTree s.toTree.1 = some m ∧ ∀ p, GornTree.get m p = (d.at? p).map PMCFGRule.key := by
  obtain ⟨h1, h2, h3⟩ := h
  have hget : ∀ p, GornTree.get s.toTree.1 p = nodeAt s.value s.children p := by
    intro p
    have := TreeStack.view_below (t := s) (by intro f hf; rw [h1] at hf; simp at hf) p
    rw [← this]
    have hp : (view s).pointer = [] := by
      show s.toTree.2 = []
      simp [TreeStack.toTree, h1, TreeStack.parentsToTree]
    rw [hp]; rfl
  have hk : (s.toTree.1.map Prod.fst).Nodup := (TreeStack.sorted_toTree s).imp fun h => by rintro rfl; exact lt_irrefl _ h
  obtain ⟨m, m1, m2⟩ := toAst_fold s.toTree.1 hk (by
    rintro ⟨a, v⟩ hp q rfl
    have hv := gorn_get_mem hk hp
    rw [hget] at hv
    have := h3 q
    rw [hv, Option.map_some] at this
    obtain ⟨r, _, hr⟩ := Option.map_eq_some_iff.1 this.symm
    exact ⟨r.key, hr.symm⟩) []
  refine ⟨m, m1, fun p => ?_⟩
  rw [m2, hget]
  have := h3 p
  cases hn : nodeAt s.value s.children (0 :: p) with
  | none =>
    rw [hn, Option.map_none] at this
    rw [Option.map_eq_none_iff.1 this.symm]; rfl
  | some v =>
    rw [hn, Option.map_some] at this
    obtain ⟨r, hr, hr'⟩ := Option.map_eq_some_iff.1 this.symm
    rw [hr]
    simp [← hr', GornTree.get]

/-- Only instructions that write the initial symbol when moving down lead to the initial tree stack. -/
theorem apply_not_initial {A : Type _} [DecidableEq A] {a : A} {x : TsInstr A} (hx : ∀ c o, x ≠ .down c o a) (s : TreeStack A) :
    TreeStack.new a ∉ x.apply s := by
  intro hs
  unfold TsInstr.apply at hs
  split at hs
  · split at hs
    · split at hs
      · rename_i hu
        split at hs
        · rw [List.mem_singleton] at hs
          rw [TreeStack.up_ok] at hu
          obtain ⟨v, c, _, rfl⟩ := hu
          have := congrArg TreeStack.parents hs
          simp [TreeStack.new, TreeStack.set] at this
        · simp at hs
      · simp at hs
    · simp at hs
  · split at hs
    · split at hs
      · rename_i hu
        rw [List.mem_singleton] at hs
        rw [TreeStack.push_ok] at hu
        obtain ⟨_, rfl⟩ := hu
        have := congrArg TreeStack.parents hs
        simp [TreeStack.new] at this
      · simp at hs
    · simp at hs
  · split at hs
    · split at hs
      · split at hs
        · rw [List.mem_singleton] at hs
          have := congrArg TreeStack.value hs
          simp only [TreeStack.new, TreeStack.set] at this
          subst this
          exact hx _ _ rfl
        · simp at hs
      · simp at hs
    · simp at hs

theorem isTrans_not_initial [CommMonoid W] [DecidableEq N] [DecidableEq T] {g : PMCFG N T W} {t : TsaTransition N T W} (ht : IsTrans g t)
    {s : TreeStack (TsaSymbol N T)} : TreeStack.new .initial ∉ t.instruction.apply s := by
  refine apply_not_initial (fun c o => ?_) s
  cases ht <;> simp

/-! ### Panics -/

theorem downInfoFrom_length (b : List T) (cs : Composition T) : (downInfoFrom b cs).length = cs.length := by
  induction cs generalizing b with
  | nil => rfl
  | cons c cs ih => simp [downInfoFrom, ih]

variable [One W]

theorem tsaVariable_some {r : PMCFGRule N T W} {j k : Nat} {buffer : List T} {i₁ j₁ : Nat} {previous : Option Nat} {ri : PMCFGRule N T W} :
    (∃ l, tsaVariable r j k buffer i₁ j₁ previous ri = some l) ↔
      j₁ < ri.composition.length ∧ ∀ j₀, previous = some j₀ → j₀ < ri.composition.length := by
  unfold tsaVariable
  have hl : (downInfo ri).length = ri.composition.length := downInfoFrom_length _ _
  by_cases h : j₁ < ri.composition.length
  · rw [List.getElem?_eq_getElem (by omega)]
    cases previous with
    | none => simp [h]
    | some j₀ =>
      by_cases h' : j₀ < ri.composition.length
      · simp only
        rw [List.getElem?_eq_getElem (by omega)]
        simp [h, h']
      · simp only
        rw [List.getElem?_eq_none (by omega)]
        simp [h']
  · rw [List.getElem?_eq_none (by omega)]
    simp [h]

theorem mapM_isSome {α β : Type _} {f : α → Option β} {l : List α} : (∃ v, l.mapM f = some v) ↔ ∀ a ∈ l, ∃ b, f a = some b := by
  induction l with
  | nil => simp
  | cons a l ih =>
    rw [List.mapM_cons]
    constructor
    · rintro ⟨v, hv⟩
      simp only [Option.bind_eq_bind, Option.bind_eq_some_iff, Option.pure_def, Option.some_inj] at hv
      obtain ⟨b, h1, bs, h2, _⟩ := hv
      intro x hx
      rcases List.mem_cons.1 hx with rfl | hx
      · exact ⟨b, h1⟩
      · exact ih.1 ⟨bs, h2⟩ x hx
    · intro h
      obtain ⟨b, hb⟩ := h a (by simp)
      obtain ⟨v, hv⟩ := ih.2 fun x hx => h x (by simp [hx])
      exact ⟨b :: v, by simp [hb, hv]⟩

/-- Variables whose components exist. -/
def VarsOk (rss : List (List (PMCFGRule N T W))) (vs : List (Nat × Nat)) : Prop :=
  ∀ i j, (i, j) ∈ vs → ∃ rs, rss[i]? = some rs ∧ ∀ ri ∈ rs, j < ri.composition.length

/-- Previous components that exist. -/
def PrevOk (rss : List (List (PMCFGRule N T W))) (previous : List (Option Nat)) : Prop :=
  previous.length = rss.length ∧ ∀ (i j₀ : Nat), previous[i]? = some (some j₀) → ∀ rs, rss[i]? = some rs → ∀ ri ∈ rs, j₀ < ri.composition.length

omit [One W] in
theorem PrevOk.set {rss : List (List (PMCFGRule N T W))} {previous : List (Option Nat)} (hp : PrevOk rss previous) {i₁ j₁ : Nat} {rs}
    (hr : rss[i₁]? = some rs) (h2 : ∀ ri ∈ rs, j₁ < ri.composition.length) : PrevOk rss (previous.set i₁ (some j₁)) := by
  refine ⟨by simpa using hp.1, fun i j₀ h rs' hrs' => ?_⟩
  rw [List.getElem?_set] at h
  split at h
  · rename_i he
    subst he
    split at h
    · simp at h
      subst h
      rw [hr, Option.some_inj] at hrs'
      subst hrs'
      exact h2
    · cases h
  · exact hp.2 i j₀ h rs' hrs'

theorem tsaTokens_some {r : PMCFGRule N T W} {rss : List (List (PMCFGRule N T W))} {j : Nat} (c : List (VarT T)) :
    ∀ (k : Nat) (buffer : List T) (previous : List (Option Nat)), PrevOk rss previous →
      ((∃ x, tsaTokens r rss j c k buffer previous = some x) ↔ VarsOk rss (varsOf [c])) ∧
      ∀ x, tsaTokens r rss j c k buffer previous = some x → PrevOk rss x.2 := by
  induction c with
  | nil =>
    intro k buffer previous hp
    refine ⟨by simp [tsaTokens, VarsOk, varsOf], ?_⟩
    intro x hx
    simp only [tsaTokens, Option.some_inj] at hx
    subst hx
    exact hp
  | cons x c ih =>
    intro k buffer previous hp
    cases x with
    | t a => simpa [tsaTokens, varsOf] using ih k (buffer ++ [a]) previous hp
    | var i₁ j₁ =>
      have hv : varsOf [VarT.var i₁ j₁ :: c] = (i₁, j₁) :: varsOf [c] := by simp [varsOf]
      rw [tsaTokens, hv]
      cases hr : rss[i₁]? with
      | none =>
        refine ⟨?_, by simp⟩
        simp only [reduceCtorEq, exists_false, false_iff]
        intro h
        obtain ⟨rs, h1, _⟩ := h i₁ j₁ (by simp)
        rw [hr] at h1; cases h1
      | some rs =>
        have hlt := (List.getElem?_eq_some_iff.1 hr).1
        obtain ⟨p, hpi⟩ : ∃ p, previous[i₁]? = some p := ⟨_, List.getElem?_eq_getElem (by rw [hp.1]; exact hlt)⟩
        simp only [hpi]
        have h1 : (∃ v, rs.mapM (tsaVariable r j k buffer i₁ j₁ p) = some v) ↔ ∀ ri ∈ rs, j₁ < ri.composition.length := by
          rw [mapM_isSome]
          refine forall₂_congr fun ri hri => ?_
          rw [tsaVariable_some]
          refine ⟨fun h => h.1, fun h => ⟨h, fun j₀ hj₀ => ?_⟩⟩
          subst hj₀
          exact hp.2 i₁ j₀ hpi rs hr ri hri
        cases hm : rs.mapM (tsaVariable r j k buffer i₁ j₁ p) with
        | none =>
          refine ⟨?_, by simp⟩
          simp only [reduceCtorEq, exists_false, false_iff]
          intro h
          obtain ⟨rs', h2, h3⟩ := h i₁ j₁ (by simp)
          rw [hr, Option.some_inj] at h2
          subst h2
          obtain ⟨v, hv⟩ := h1.2 h3
          rw [hm] at hv; cases hv
        | some tss =>
          have h2 := h1.1 ⟨tss, hm⟩
          obtain ⟨h3, h4⟩ := ih (k + 1) [] (previous.set i₁ (some j₁)) (hp.set hr h2)
          refine ⟨?_, ?_⟩
          · have : VarsOk rss ((i₁, j₁) :: varsOf [c]) ↔ VarsOk rss (varsOf [c]) := by
              constructor
              · exact fun h i j hij => h i j (by simp [hij])
              · intro h i j hij
                rcases List.mem_cons.1 hij with he | hij
                · cases he; exact ⟨rs, hr, h2⟩
                · exact h i j hij
            rw [this, ← h3]
            constructor
            · rintro ⟨x, hx⟩
              split at hx
              · rename_i ts p' _ heq; exact ⟨_, heq⟩
              · cases hx
            · rintro ⟨x, hx⟩
              rw [hx]
              exact ⟨_, rfl⟩
          · intro x hx
            split at hx
            · rename_i ts p' _ heq
              simp only [Option.some_inj] at hx
              subst hx
              exact h4 (ts, p') heq
            · cases hx

theorem tsaComponents_some {r : PMCFGRule N T W} {rss : List (List (PMCFGRule N T W))} (cs : Composition T) :
    ∀ (j : Nat) (previous : List (Option Nat)), PrevOk rss previous →
      ((∃ x, tsaComponents r rss cs j previous = some x) ↔ VarsOk rss (varsOf cs)) := by
  induction cs with
  | nil => intro j previous hp; simp [tsaComponents, VarsOk, varsOf]
  | cons c cs ih =>
    intro j previous hp
    have hv : varsOf (c :: cs) = varsOf [c] ++ varsOf cs := varsOf_append [c] cs
    have hsp : VarsOk rss (varsOf (c :: cs)) ↔ VarsOk rss (varsOf [c]) ∧ VarsOk rss (varsOf cs) := by
      rw [hv]
      constructor
      · exact fun h => ⟨fun i j hij => h i j (by simp [hij]), fun i j hij => h i j (by simp [hij])⟩
      · rintro ⟨h1, h2⟩ i j hij
        rcases List.mem_append.1 hij with h | h
        · exact h1 i j h
        · exact h2 i j h
    rw [hsp, tsaComponents]
    obtain ⟨h1, h2⟩ := tsaTokens_some (r := r) (j := j) c 0 [] previous hp
    cases ht : tsaTokens r rss j c 0 [] previous with
    | none =>
      simp only [reduceCtorEq, exists_false, false_iff, not_and]
      intro h
      obtain ⟨x, hx⟩ := h1.2 h
      rw [ht] at hx; cases hx
    | some x =>
      have h3 := h1.1 ⟨x, ht⟩
      rw [and_iff_right h3, ← ih (j + 1) x.2 (h2 x ht)]
      simp

/-- When the construction panics. -/
theorem tsaTransitions_some [DecidableEq N] (g : PMCFG N T W) : (∃ ts, tsaTransitions g = some ts) ↔
    (∀ r ∈ g.rules, r.head ∈ g.initial → r.composition ≠ []) ∧ (∀ r ∈ g.rules, ∀ A ∈ r.tail, ∃ r' ∈ g.rules, r'.head = A) ∧ WellFormed g.rules := by
  have h1 : (∃ a, (g.rules.filter fun r => r.head ∈ g.initial).mapM tsaInitial = some a) ↔
      ∀ r ∈ g.rules, r.head ∈ g.initial → r.composition ≠ [] := by
    rw [mapM_isSome]
    simp only [List.mem_filter, decide_eq_true_eq, and_imp]
    refine forall₃_congr fun r _ _ => ?_
    unfold tsaInitial downInfo
    cases r.composition with
    | nil => simp [downInfoFrom]
    | cons c cs => simp [downInfoFrom]
  have h2 : (∃ b, g.rules.mapM (tsaRule g.rules) = some b) ↔
      (∀ r ∈ g.rules, ∀ A ∈ r.tail, ∃ r' ∈ g.rules, r'.head = A) ∧ WellFormed g.rules := by
    rw [mapM_isSome]
    unfold WellFormed
    rw [← forall₂_and]
    refine forall₂_congr fun r hr => ?_
    unfold tsaRule
    have h3 : (∃ rss, r.tail.mapM (ruleMapGet g.rules) = some rss) ↔ ∀ A ∈ r.tail, ∃ r' ∈ g.rules, r'.head = A := by
      rw [mapM_isSome]
      refine forall₂_congr fun A _ => ?_
      unfold ruleMapGet
      by_cases h : A ∈ g.rules.map PMCFGRule.head
      · rw [if_pos h]
        simp only [Option.some_inj, exists_eq', true_iff]
        obtain ⟨r', h1, h2⟩ := List.mem_map.1 h
        exact ⟨r', h1, h2⟩
      · rw [if_neg h]
        simp only [reduceCtorEq, exists_false, false_iff]
        rintro ⟨r', h1, h2⟩
        exact h (List.mem_map.2 ⟨r', h1, h2⟩)
    cases hm : r.tail.mapM (ruleMapGet g.rules) with
    | none =>
      simp only [reduceCtorEq, exists_false, false_iff, not_and]
      intro h
      obtain ⟨x, hx⟩ := h3.2 h
      rw [hm] at hx; cases hx
    | some rss =>
      have hl := mapM_length hm
      have hp : PrevOk rss (rss.map fun _ => (none : Option Nat)) := by
        refine ⟨by simp, fun i j₀ h => ?_⟩
        rw [List.getElem?_map, Option.map_eq_some_iff] at h
        obtain ⟨_, _, h⟩ := h
        cases h
      simp only
      rw [tsaComponents_some _ _ _ hp, and_iff_right (h3.1 ⟨rss, hm⟩)]
      unfold VarsOk
      refine forall₃_congr fun i j hij => ?_
      have := mapM_getElem? hm i
      cases hA : r.tail[i]? with
      | none => rw [hA] at this; rw [this]; simp
      | some A =>
        rw [hA] at this
        obtain ⟨r', hr', hh'⟩ := h3.1 ⟨rss, hm⟩ A (List.mem_of_getElem? hA)
        rw [this, Option.bind_some, ruleMapGet, if_pos (List.mem_map.2 ⟨r', hr', hh'⟩)]
        simp
  unfold tsaTransitions
  rw [← h2, ← h1]
  constructor
  · rintro ⟨ts, hts⟩
    split at hts
    · rename_i a b ha hb; exact ⟨⟨a, ha⟩, b, hb⟩
    · cases hts
  · rintro ⟨⟨a, ha⟩, b, hb⟩
    rw [ha, hb]
    exact ⟨_, rfl⟩

end Rustomata
