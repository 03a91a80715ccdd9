import Verif.Proofs.CsWords

/-!
# Parts have derivations in the binarised grammar
-/

namespace Rustomata
open Spec

section
variable {N T W : Type _} [Monoid W] {factorize : W → Nat → List W}

/-- Derivations of the parts of a component from the states of the variables, for consecutive spans of the word. -/
inductive Subs (st : List (CsState N)) (ps : List (CsProd N T W × TdBrackets)) (filter : List Bool) (word : List T) (tail : List N) :
    List (VarT T) → Parts → Nat → Nat → W → Prop
  | nil {i} : Subs st ps filter word tail [] .nil i i 1
  | term {c P a i j w} : word[i]? = some a → Subs st ps filter word tail c P (i + 1) j w → Subs st ps filter word tail (.t a :: c) (.term P) i j w
  | part {c P₁ P₂ rid x y n q t} {i m j : Nat} {w₁ w₂} : tail[x]? = some n → st[q]? = some (.non n y) →
      (numGrammar st ps filter).Derives word (fun _ _ _ => True) i m q t w₁ → treeWord (ps.map Prod.snd) t = some (compWord rid y P₁) →
      Subs st ps filter word tail c P₂ m j w₂ → Subs st ps filter word tail (.var x y :: c) (.part x y rid P₁ P₂) i j (w₁ * w₂)

variable {st : List (CsState N)} {ps : List (CsProd N T W × TdBrackets)} {filter : List Bool} {word : List T}

/-- All productions of a rule are there and are not masked. -/
def KeptRule (factorize : W → Nat → List W) (st : List (CsState N)) (ps : List (CsProd N T W × TdBrackets)) (filter : List Bool) (r : Nat × PMCFGRule N T W) : Prop :=
  ∀ p, ProdOf factorize r p → (∀ s ∈ p.1.symbols, s ∈ st) ∧ ∃ k : Nat, ps[k]? = some p ∧ filter[k]? = some true

theorem varSymbols {rid : Nat} {tail : List N} {c : List (VarT T)} {P : Parts} {i j : Nat} {w : W} (h : Subs st ps filter word tail c P i j w)
    (hv : ∀ x ∈ c, ∃ i j, x = VarT.var i j) : ∃ vs, List.Forall₂ (fun x v => varSymbol rid tail x = some v) c vs := by
  induction h with
  | nil => exact ⟨[], .nil⟩
  | term _ _ _ =>
    obtain ⟨_, _, h⟩ := hv _ (List.mem_cons_self ..)
    cases h
  | @part c P₁ P₂ rid' x y n q t i m j w₁ w₂ h1 h2 h3 h4 _ ih =>
    obtain ⟨vs, h⟩ := ih fun z hz => hv z (List.mem_cons_of_mem _ hz)
    exact ⟨(.non n y, .variable rid x y) :: vs, .cons (by simp [varSymbol, h1]) h⟩

theorem mem_st {s : CsState N} (h : s ∈ st) : ∃ q : Nat, st[q]? = some s := List.getElem?_of_mem h

/-- The binarised rule, from left to right: the state for the first `n` variables is known. -/
theorem subs_loop {rid : Nat} {r : PMCFGRule N T W} (hk : KeptRule factorize st ps filter (rid, r)) {cid : Nat} {comp : List (VarT T)} {f : W}
    (hc : r.composition[cid]? = some comp) (hf : (factorize r.weight r.composition.length)[cid]? = some f)
    {vs : List (CsState N × BracketContent)} (hvs : List.Forall₂ (fun x v => varSymbol rid r.tail x = some v) comp vs)
    {c : List (VarT T)} {P₂ : Parts} {m j : Nat} {w₂ : W} (h : Subs st ps filter word r.tail c P₂ m j w₂) (hv : ∀ x ∈ c, ∃ i j, x = VarT.var i j) :
    ∀ (n : Nat) (P₁ : Parts) (i q : Nat) (t : BinTree) (w₁ : W), comp.drop (n + 2) = c → n + 2 ≤ comp.length →
      st[q]? = some (if n + 2 = comp.length then .non r.head cid else .unique rid cid n) →
      (numGrammar st ps filter).Derives word (fun _ _ _ => True) i m q t w₁ →
      treeWord (ps.map Prod.snd) t = some (inBrackets (if n + 2 = comp.length then .component rid cid else .ignore) (P₁.word rid)) →
      ∃ q' t', st[q']? = some (.non r.head cid) ∧ (numGrammar st ps filter).Derives word (fun _ _ _ => True) i j q' t' (w₁ * w₂) ∧
        treeWord (ps.map Prod.snd) t' = some (compWord rid cid (Parts.append P₁ P₂)) := by
  induction h with
  | nil =>
    intro n P₁ i q t w₁ h1 h2 h3 h4 h5
    have hl : n + 2 = comp.length := by
      have := congrArg List.length h1
      simp at this
      omega
    rw [if_pos hl] at h3 h5
    refine ⟨q, t, h3, by simpa using h4, ?_⟩
    rw [h5]
    have : ∀ P : Parts, Parts.append P .nil = P := by
      intro P
      induction P with
      | nil => rfl
      | term P ih => simp [Parts.append, ih]
      | part _ _ _ _ _ _ ih => simp [Parts.append, ih]
    simp [inBrackets, compWord, this]
  | term _ _ _ =>
    obtain ⟨_, _, h⟩ := hv _ (List.mem_cons_self ..)
    cases h
  | @part c P₁' P₂ rid' x y n' q' t' i' m j w₁' w₂ h1 h2 h3 h4 _ ih =>
    intro n P₁ i q t w₁ g1 g2 g3 g4 g5
    have hlt : n + 2 < comp.length := by
      have := congrArg List.length g1
      simp at this
      omega
    have hx : comp[n + 2]? = some (.var x y) := by
      have := congrArg (fun l : List (VarT T) => l[0]?) g1
      simpa using this
    have hd : comp.drop (n + 1 + 2) = c := by
      have := congrArg List.tail g1
      simpa using this
    rw [if_neg (by omega)] at g3 g5
    have hlen := hvs.length_eq
    have hvx : vs[n + 2]? = some (.non n' y, .variable rid x y) := by
      have hh := (List.forall₂_iff_get.1 hvs).2 (n + 2) hlt (by omega)
      simp only [List.get_eq_getElem] at hh
      rw [List.getElem?_eq_getElem (by omega)]
      rw [List.getElem?_eq_getElem hlt, Option.some.injEq] at hx
      rw [hx] at hh
      simp only [varSymbol, h1, Option.map_some, Option.some.injEq] at hh
      rw [← hh]
    obtain ⟨q₀, hq₀⟩ : ∃ q₀, vs[0]? = some q₀ := ⟨_, List.getElem?_eq_getElem (by omega)⟩
    have hp := RuleProd.binary (cid := cid) (head := r.head) (w := f) hvs hq₀ (k := n + 1) hvx
    obtain ⟨hs, k, hk1, hk2⟩ := hk _ ⟨cid, comp, f, hc, hf, hp⟩
    obtain ⟨q'', hq''⟩ := mem_st (hs _ (List.mem_cons_self ..))
    refine (ih (fun z hz => hv z (List.mem_cons_of_mem _ hz)) (n + 1) (Parts.append P₁ (.part x y rid' P₁' .nil)) i q'' (.binary k i' t t') (w₁ * w₁') hd (by omega)
      (by rw [hq'', hlen]) ?_ ?_).imp fun q'' h => h.imp fun t'' h => ⟨h.1, ?_, ?_⟩
    · have := BinGrammar.Derives.binary (G := numGrammar st ps filter) (ok := fun _ _ _ => True) (rid := k) (w := (1 : W)) (q := q'')
        ⟨hk2, _, _, _, by rw [hk1]; simp, hq'', g3, h2⟩ trivial g4 h3
      simpa using this
    · have hb : (ps.map Prod.snd)[k]? = some ⟨if n + 1 + 2 = vs.length then .component rid cid else .ignore, .ignore, .variable rid x y⟩ := by
        rw [List.getElem?_map, hk1]
        simp
      simp only [treeWord, hb, Option.bind_some, g5, h4, Option.map_some, Option.some.injEq]
      rw [← hlen, Parts.word_append]
      congr 1
      simp [inBrackets, compWord, Spec.Parts.word]
    · rw [← mul_assoc]
      exact h.2.1
    · rw [h.2.2]
      have : ∀ P Q R : Parts, Parts.append (Parts.append P Q) R = Parts.append P (Parts.append Q R) := by
        intro P Q R
        induction P with
        | nil => rfl
        | term P ih => simp [Parts.append, ih]
        | part _ _ _ _ _ _ ih => simp [Parts.append, ih]
      rw [this]
      rfl

/-- The derivation of a component from derivations of its variables. -/
theorem subs_derives {rid : Nat} {r : PMCFGRule N T W} (hk : KeptRule factorize st ps filter (rid, r)) {cid : Nat} {comp : List (VarT T)} {f : W}
    (hc : r.composition[cid]? = some comp) (hf : (factorize r.weight r.composition.length)[cid]? = some f) (hs : SimpleComp comp)
    {P : Parts} {i j : Nat} {w : W} (h : Subs st ps filter word r.tail comp P i j w) :
    ∃ q t, st[q]? = some (.non r.head cid) ∧ (numGrammar st ps filter).Derives word (fun _ _ _ => True) i j q t (f * w) ∧
      treeWord (ps.map Prod.snd) t = some (compWord rid cid P) := by
  rcases hs with ⟨a, rfl⟩ | ⟨hne, hv⟩
  · cases h with
    | term ha h =>
      cases h
      obtain ⟨hs, k, hk1, hk2⟩ := hk _ ⟨cid, _, f, hc, hf, .nullary⟩
      obtain ⟨q, hq⟩ := mem_st (hs _ (List.mem_cons_self ..))
      refine ⟨q, .nullary k, hq, ?_, ?_⟩
      · rw [mul_one]
        exact .nullary ha ⟨hk2, _, by rw [hk1]; rfl, hq⟩ trivial
      · simp [treeWord, hk1, inBrackets, compWord, Spec.Parts.word]
  · obtain ⟨vs, hvs⟩ := varSymbols (rid := rid) h hv
    cases h with
    | nil => exact absurd rfl hne
    | term _ _ =>
      obtain ⟨_, _, h⟩ := hv _ (List.mem_cons_self ..)
      cases h
    | @part c P₁ P₂ rid₁ x y n q₁ t₁ _ m _ w₁ w₂ h1 h2 h3 h4 h5 =>
      cases h5 with
      | nil =>
        obtain ⟨hs, k, hk1, hk2⟩ := hk _ ⟨cid, _, f, hc, hf, .unary h1⟩
        obtain ⟨q, hq⟩ := mem_st (hs _ (List.mem_cons_self ..))
        refine ⟨q, .unary k t₁, hq, ?_, ?_⟩
        · rw [mul_one]
          exact .unary ⟨hk2, _, _, by rw [hk1]; rfl, hq, h2⟩ trivial h3
        · simp [treeWord, hk1, inBrackets, compWord, Spec.Parts.word, h4]
      | term _ _ =>
        obtain ⟨_, _, h⟩ := hv _ (List.mem_cons_of_mem _ (List.mem_cons_self ..))
        cases h
      | @part c P₁' P₂ rid₂ x' y' n' q₂ t₂ _ m' _ w₁' w₂ g1 g2 g3 g4 g5 =>
        have hvs' := hvs
        cases hvs' with
        | @cons _ v _ vs e1 e2 =>
        cases e2 with
        | @cons _ v' _ vs e2 e3 =>
        simp only [varSymbol, h1, g1, Option.map_some, Option.some.injEq] at e1 e2
        subst e1 e2
        have hlen := hvs.length_eq
        simp only [List.length_cons] at hlen
        have hp := RuleProd.binary (cid := cid) (head := r.head) (w := f) hvs rfl (k := 0) rfl
        obtain ⟨hs, k, hk1, hk2⟩ := hk _ ⟨cid, _, f, hc, hf, hp⟩
        obtain ⟨q, hq⟩ := mem_st (hs _ (List.mem_cons_self ..))
        obtain ⟨q', t', k1, k2, k3⟩ := subs_loop hk hc hf hvs g5 (fun z hz => hv z (List.mem_cons_of_mem _ (List.mem_cons_of_mem _ hz))) 0
          (.part x y rid₁ P₁ (.part x' y' rid₂ P₁' .nil)) i q (.binary k m t₁ t₂) (f * w₁ * w₁') rfl (by simp)
          (by rw [hq]; simp only [List.length_cons, show c.length = vs.length by omega])
          (.binary ⟨hk2, _, _, _, by rw [hk1]; rfl, hq, h2, g2⟩ trivial h3 g3)
          (by
            have hb : (ps.map Prod.snd)[k]? = some ⟨if 0 + 2 = vs.length + 1 + 1 then .component rid cid else .ignore, .variable rid x y, .variable rid x' y'⟩ := by
              rw [List.getElem?_map, hk1]
              simp
            simp only [treeWord, hb, Option.bind_some, h4, g4, Option.map_some, Option.some.injEq, List.length_cons, show c.length = vs.length by omega]
            congr 1
            simp [inBrackets, compWord, Spec.Parts.word])
        refine ⟨q', t', k1, ?_, k3⟩
        simpa [mul_assoc] using k2

theorem fits_subs {rules : List (Nat × PMCFGRule N T W)} (hk : ∀ r ∈ rules, KeptRule factorize st ps filter r)
    (hs : ∀ r ∈ rules, ∀ (cid : Nat) c f, r.2.composition[cid]? = some c → (factorize r.2.weight r.2.composition.length)[cid]? = some f → SimpleComp c)
    {tail : List N} {c : List (VarT T)} {P : Parts} {u : List T} {w : W} (h : Fits factorize rules tail c P u w) :
    ∀ i : Nat, (∀ k (hk : k < u.length), word[i + k]? = some u[k]) → Subs st ps filter word tail c P i (i + u.length) w := by
  induction h with
  | nil => intro i _; exact .nil
  | @term tail c a P u w _ ih =>
    intro i hu
    have := ih (i + 1) fun k hk => by
      have := hu (k + 1) (by simpa using hk)
      simpa [Nat.add_assoc, Nat.add_comm 1 k] using this
    rw [show i + (a :: u).length = i + 1 + u.length by simp; omega]
    exact .term (by have := hu 0 (by simp); rw [List.getElem_cons_zero] at this; exact this) this
  | @part tail c comp x y rid r f P₁ P₂ u₁ u₂ w₁ w₂ g1 g2 g3 g4 g5 g6 ih₁ ih₂ =>
    intro i hu
    have h1 := ih₁ i fun k hk => by
      have := hu k (by simp; omega)
      rw [List.getElem_append_left hk] at this
      exact this
    have h2 := ih₂ (i + u₁.length) fun k hk => by
      have := hu (u₁.length + k) (by simp; omega)
      rw [List.getElem_append_right (by omega)] at this
      simpa [Nat.add_assoc] using this
    obtain ⟨q, t, k1, k2, k3⟩ := subs_derives (hk _ g1) g3 g4 (hs _ g1 _ _ _ g3 g4) h1
    rw [List.length_append, ← Nat.add_assoc]
    exact .part g2 k1 k2 k3 h2

/-- Parts of kept rules have a derivation in the binarised grammar. -/
theorem compDerives_derives {rules : List (Nat × PMCFGRule N T W)} (hk : ∀ r ∈ rules, KeptRule factorize st ps filter r)
    (hs : ∀ r ∈ rules, ∀ (cid : Nat) c f, r.2.composition[cid]? = some c → (factorize r.2.weight r.2.composition.length)[cid]? = some f → SimpleComp c)
    {A : N} {c rid : Nat} {P : Parts} {w : W} (h : CompDerives factorize rules A c rid P word w) :
    ∃ q t, st[q]? = some (.non A c) ∧ (numGrammar st ps filter).Derives word (fun _ _ _ => True) 0 word.length q t w ∧
      treeWord (ps.map Prod.snd) t = some (compWord rid c P) := by
  obtain ⟨r, comp, f, w', h1, rfl, h3, h4, h5, rfl⟩ := h
  have := fits_subs hk hs h5 0 (word := word) (fun k hk => by simp [List.getElem?_eq_getElem hk])
  rw [Nat.zero_add] at this
  exact subs_derives (hk _ h1) h3 h4 (hs _ h1 _ _ _ h3 h4) this

end

end Rustomata
