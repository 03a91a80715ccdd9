import Verif.Proofs.CsProds
import Verif.Spec.CsDerivation
import Verif.Spec.Dyck

/-!
# Derivations of the context-free approximation and bracket words
-/

namespace Rustomata
open Spec

/-- The span from `i` to `j` of a word. -/
def seg {T : Type _} (word : List T) (i j : Nat) : List T := (word.take j).drop i

theorem seg_append {T : Type _} (word : List T) {i m j : Nat} (h1 : i ≤ m) (h2 : m ≤ j) (h3 : j ≤ word.length) : seg word i m ++ seg word m j = seg word i j := by
  unfold seg
  refine List.ext_getElem? fun k => ?_
  rw [List.getElem?_append]
  simp only [List.length_drop, List.length_take, List.getElem?_drop, List.getElem?_take]
  rw [Nat.min_eq_left (by omega)]
  by_cases hk : k < m - i
  · rw [if_pos hk, if_pos (by omega), if_pos (by omega)]
  · rw [if_neg hk]
    have e : m + (k - (m - i)) = i + k := by omega
    rw [e]

theorem seg_single {T : Type _} {word : List T} {i : Nat} {a : T} (h : word[i]? = some a) : seg word i (i + 1) = [a] := by
  unfold seg
  obtain ⟨hlt, he⟩ := List.getElem?_eq_some_iff.1 h
  rw [List.take_succ, h, List.drop_append]
  simp [Nat.min_eq_left (Nat.le_of_lt hlt)]

theorem seg_self {T : Type _} (word : List T) (i : Nat) : seg word i i = [] := by
  unfold seg
  simp

theorem seg_full {T : Type _} (word : List T) : seg word 0 word.length = word := by simp [seg]

theorem seg_length {T : Type _} (word : List T) {i j : Nat} (h : j ≤ word.length) : (seg word i j).length = j - i := by
  simp [seg, Nat.min_eq_left h]

/-- Concatenation of parts. -/
def Parts.append : Parts → Parts → Parts
  | .nil, Q => Q
  | .term P, Q => .term (Parts.append P Q)
  | .part i j rid P₁ P₂, Q => .part i j rid P₁ (Parts.append P₂ Q)

theorem Parts.word_append (rid : Nat) (P Q : Parts) : (Parts.append P Q).word rid = P.word rid ++ Q.word rid := by
  induction P with
  | nil => rfl
  | term P ih => simp [Parts.append, Spec.Parts.word, ih]
  | part i j r P₁ P₂ _ ih => simp [Parts.append, Spec.Parts.word, ih]

section
variable {N T W : Type _} [Monoid W] {factorize : W → Nat → List W} {rules : List (Nat × PMCFGRule N T W)}

theorem fits_append {tail : List N} {c c' : List (VarT T)} {P P' : Parts} {u u' : List T} {w w' : W} (h : Fits factorize rules tail c P u w)
    (h' : Fits factorize rules tail c' P' u' w') : Fits factorize rules tail (c ++ c') (Parts.append P P') (u ++ u') (w * w') := by
  induction h with
  | nil => simpa [Parts.append] using h'
  | term _ ih => exact .term (ih h')
  | part h1 h2 h3 h4 h5 _ _ ih =>
    have := Fits.part h1 h2 h3 h4 h5 (ih h')
    simpa only [Parts.append, List.cons_append, List.append_assoc, mul_assoc] using this

theorem compDerives_fits {tail : List N} {i j rid : Nat} {A : N} {P : Parts} {u : List T} {w : W} (h : CompDerives factorize rules A j rid P u w)
    (hi : tail[i]? = some A) : Fits factorize rules tail [.var i j] (.part i j rid P .nil) u w := by
  obtain ⟨r, comp, f, w', h1, rfl, h3, h4, h5, rfl⟩ := h
  have := Fits.part h1 hi h3 h4 h5 (.nil (tail := tail))
  simpa using this

/-- What a derivation from a state of the context-free approximation looks like. -/
def StateWord (factorize : W → Nat → List W) (rules : List (Nat × PMCFGRule N T W)) (u : List T) (w : W) (v : Option (List (Bracket BracketContent))) :
    CsState N → Prop
  | .non A c => ∃ rid P, CompDerives factorize rules A c rid P u w ∧ v = some (compWord rid c P)
  | .unique rid c k => ∃ r comp f P w', (rid, r) ∈ rules ∧ r.composition[c]? = some comp ∧ (factorize r.weight r.composition.length)[c]? = some f ∧
      Fits factorize rules r.tail (comp.take (k + 2)) P u w' ∧ w = f * w' ∧ v = some (P.word rid)

theorem varSymbol_getElem {rid : Nat} {tail : List N} {c : List (VarT T)} {vs : List (CsState N × BracketContent)}
    (h : List.Forall₂ (fun x v => varSymbol rid tail x = some v) c vs) {k : Nat} {q : CsState N × BracketContent} (hq : vs[k]? = some q) :
    ∃ i j n, c[k]? = some (.var i j) ∧ tail[i]? = some n ∧ q = (.non n j, .variable rid i j) := by
  obtain ⟨hlt, he⟩ := List.getElem?_eq_some_iff.1 hq
  have h2 := (List.forall₂_iff_get.1 h).2 k (h.length_eq ▸ hlt) hlt
  simp only [List.get_eq_getElem, he] at h2
  obtain ⟨i, j, n, h3, h4, h5⟩ := varSymbol_some h2
  exact ⟨i, j, n, by rw [List.getElem?_eq_getElem (h.length_eq ▸ hlt), h3], h4, h5⟩

theorem ids_unique (hid : (rules.map Prod.fst).Nodup) {rid : Nat} {r r' : PMCFGRule N T W} (h : (rid, r) ∈ rules) (h' : (rid, r') ∈ rules) : r = r' := by
  have := List.inj_on_of_nodup_map hid h h' rfl
  cases this
  rfl

/-- The derivations of the context-free approximation correspond to parts, and their bracket words are those of the parts. -/
theorem derives_stateWord {st : List (CsState N)} {ps : List (CsProd N T W × TdBrackets)} {filter : List Bool} {word : List T} {ok : Nat → Nat → Nat → Prop}
    (hp : grammarProds factorize rules = some ps) (hid : (rules.map Prod.fst).Nodup) {i j q : Nat} {t : BinTree} {w : W}
    (hd : (numGrammar st ps filter).Derives word ok i j q t w) (hj : j ≤ word.length) :
    i ≤ j ∧ ∀ Q, st[q]? = some Q → StateWord factorize rules (seg word i j) w (treeWord (ps.map Prod.snd) t) Q := by
  have hrule : ∀ (k : Nat) (p : CsProd N T W), (ps[k]?).map Prod.fst = some p → ∃ b r, ps[k]? = some (p, b) ∧ (ps.map Prod.snd)[k]? = some b ∧ r ∈ rules ∧ ProdOf factorize r (p, b) := by
    intro k p h
    rw [Option.map_eq_some_iff] at h
    obtain ⟨⟨p', b⟩, h1, rfl⟩ := h
    obtain ⟨r, h2, h3⟩ := (grammarProds_mem rules hp).1 (List.mem_of_getElem? h1)
    exact ⟨b, r, h1, by simp [h1], h2, h3⟩
  induction hd with
  | nullary ha hr ho =>
    refine ⟨by omega, fun Q hQ => ?_⟩
    obtain ⟨_, Q', h1, h2⟩ := hr
    rw [hQ, Option.some.injEq] at h2
    subst h2
    obtain ⟨b, ⟨rid, r⟩, _, h3, h4, cid, comp, f, h5, h6, h7⟩ := hrule _ _ h1
    cases h7
    refine ⟨rid, .term .nil, ⟨r, _, _, 1, h4, rfl, h5, h6, ?_, (mul_one _).symm⟩, ?_⟩
    · rw [seg_single ha]
      exact .term .nil
    · simp [treeWord, h3, inBrackets, compWord, Spec.Parts.word]
  | unary hr ho hd ih =>
    obtain ⟨hle, ih⟩ := ih hj
    refine ⟨hle, fun Q hQ => ?_⟩
    obtain ⟨_, Q', S, h1, h2, h3⟩ := hr
    rw [hQ, Option.some.injEq] at h2
    subst h2
    obtain ⟨b, ⟨rid, r⟩, _, h4, h5, cid, comp, f, h6, h7, h8⟩ := hrule _ _ h1
    cases h8 with
    | unary hn =>
      obtain ⟨rid', P, h9, h10⟩ := ih _ h3
      refine ⟨rid, _, ⟨r, _, _, _, h5, rfl, h6, h7, compDerives_fits h9 hn, rfl⟩, ?_⟩
      simp [treeWord, h4, inBrackets, compWord, Spec.Parts.word, h10]
  | @binary i m j q q₁ q₂ prid t₁ t₂ w w₁ w₂ hr ho hd₁ hd₂ ih₁ ih₂ =>
    obtain ⟨hle₂, ih₂⟩ := ih₂ hj
    obtain ⟨hle₁, ih₁⟩ := ih₁ (le_trans hle₂ hj)
    refine ⟨by omega, fun Q hQ => ?_⟩
    obtain ⟨_, Q', L, R, h1, h2, h3, h4⟩ := hr
    rw [hQ, Option.some.injEq] at h2
    subst h2
    have ih₁ := ih₁ _ h3
    have ih₂ := ih₂ _ h4
    obtain ⟨b, ⟨rid, r⟩, _, h5, h6, cid, comp, f, h7, h8, h9⟩ := hrule _ _ h1
    cases h9 with
    | @binary _ vs k q₀ q _ hvs hq₀ hq =>
      obtain ⟨i₁, j₁, n₁, g1, g2, rfl⟩ := varSymbol_getElem hvs hq
      obtain ⟨rid₂, P₂, g3, g4⟩ := ih₂
      have key : ∃ P w' v, Fits factorize rules r.tail (comp.take (k + 2)) P (seg word i j) w' ∧ (if k = 0 then f else 1) * w₁ * w₂ = f * w' ∧
          treeWord (ps.map Prod.snd) t₁ = some v ∧ P.word rid = inBrackets (if k = 0 then q₀.2 else .ignore) v ++
            inBrackets (.variable rid i₁ j₁) (compWord rid₂ j₁ P₂) := by
        rw [← seg_append word hle₁ hle₂ hj]
        have ht : comp.take (k + 2) = comp.take (k + 1) ++ [.var i₁ j₁] := by
          rw [List.take_succ (i := k + 1), g1]
          rfl
        rw [ht]
        cases k with
        | zero =>
          obtain ⟨i₀, j₀, n₀, g5, g6, rfl⟩ := varSymbol_getElem hvs hq₀
          obtain ⟨rid₁, P₁, g7, g8⟩ := ih₁
          have : comp.take (0 + 1) = [.var i₀ j₀] := by
            rw [List.take_succ, g5]
            rfl
          rw [this]
          refine ⟨_, _, _, fits_append (compDerives_fits g7 g6) (compDerives_fits g3 g2), by simp [mul_assoc], g8, ?_⟩
          simp [Parts.word_append, Spec.Parts.word, inBrackets, compWord]
        | succ k =>
          obtain ⟨r', comp', f', P₁, w', g5, g6, g7, g8, rfl, g9⟩ := ih₁
          cases ids_unique hid h6 g5
          rw [h7, Option.some.injEq] at g6
          subst g6
          rw [h8, Option.some.injEq] at g7
          subst g7
          refine ⟨_, _, _, fits_append g8 (compDerives_fits g3 g2), by simp [mul_assoc], g9, ?_⟩
          simp [Parts.word_append, Spec.Parts.word, inBrackets, compWord]
      obtain ⟨P, w', v, k1, k2, k3, k4⟩ := key
      have htw : treeWord (ps.map Prod.snd) (.binary prid m t₁ t₂) =
          some (inBrackets (if k + 2 = vs.length then .component rid cid else .ignore) (P.word rid)) := by
        simp only [treeWord, h5, Option.bind_some, k3, g4, Option.map_some, k4]
      rw [htw, k2]
      by_cases hk : k + 2 = vs.length
      · simp only [if_pos hk]
        rw [hk, ← hvs.length_eq, List.take_length] at k1
        exact ⟨rid, P, ⟨r, comp, f, w', h6, rfl, h7, h8, k1, rfl⟩, by simp [inBrackets, compWord]⟩
      · simp only [if_neg hk]
        exact ⟨r, comp, f, P, w', h6, h7, h8, k1, rfl, by simp [inBrackets]⟩

end

/-! ### Dyck words -/

theorem dyck_parts (rid : Nat) (P : Parts) : Dyck (P.word rid) := by
  induction P generalizing rid with
  | nil => exact .nil
  | term P ih => exact .append (.wrap .terminal .nil) (ih rid)
  | part i j r P₁ P₂ ih₁ ih₂ =>
    have := (Dyck.wrap (.variable rid i j) (.wrap (.component r j) (ih₁ r))).append (ih₂ rid)
    simpa [Spec.Parts.word] using this

theorem dyck_compWord (rid c : Nat) (P : Parts) : Dyck (compWord rid c P) := .wrap _ (dyck_parts rid P)

section
variable {N T W : Type _}

/-- The components that the parser supports: a terminal or variables. -/
def SimpleComp (comp : List (VarT T)) : Prop := (∃ a, comp = [.t a]) ∨ (comp ≠ [] ∧ ∀ x ∈ comp, ∃ i j, x = .var i j)

theorem componentProds_simple [One W] {rid cid : Nat} {head : N} {tail : List N} {c : List (VarT T)} {w : W} {ps : List (CsProd N T W × TdBrackets)}
    (h : componentProds rid cid head tail c w = some ps) : (∃ a, c = [.t a]) ∨ (c ≠ [] ∧ ∃ vs, List.Forall₂ (fun x v => varSymbol rid tail x = some v) c vs) := by
  unfold componentProds at h
  split at h
  · simp at h
  · exact .inl ⟨_, rfl⟩
  · rw [Option.map_eq_some_iff] at h
    obtain ⟨v, hv, _⟩ := h
    exact .inr ⟨by simp, [v], .cons hv .nil⟩
  · split at h
    · rename_i v vs hv hvs
      rw [mapM_some_iff] at hvs
      exact .inr ⟨by simp, v :: vs, .cons hv hvs⟩
    · simp at h

theorem componentsProds_simple [One W] {rid : Nat} {head : N} {tail : List N} :
    ∀ (cs : List (List (VarT T) × W)) (cid : Nat) {ps : List (CsProd N T W × TdBrackets)}, componentsProds rid head tail cs cid = some ps →
      ∀ x ∈ cs, (∃ a, x.1 = [.t a]) ∨ (x.1 ≠ [] ∧ ∃ vs, List.Forall₂ (fun x v => varSymbol rid tail x = some v) x.1 vs)
  | [], _, _, _, _, hx => by cases hx
  | (c, w) :: cs, cid, ps, h, x, hx => by
    simp only [componentsProds] at h
    split at h
    · rename_i ps₁ ps₂ h1 h2
      rcases List.mem_cons.1 hx with rfl | hx
      · exact componentProds_simple h1
      · exact componentsProds_simple cs _ h2 x hx
    · simp at h

theorem grammarProds_simple [One W] {factorize : W → Nat → List W} :
    ∀ (rules : List (Nat × PMCFGRule N T W)) {ps : List (CsProd N T W × TdBrackets)}, grammarProds factorize rules = some ps →
      ∀ r ∈ rules, ∀ (cid : Nat) c f, r.2.composition[cid]? = some c → (factorize r.2.weight r.2.composition.length)[cid]? = some f →
        (∃ a, c = [.t a]) ∨ (c ≠ [] ∧ ∃ vs, List.Forall₂ (fun x v => varSymbol r.1 r.2.tail x = some v) c vs)
  | [], _, _, _, hr, _, _, _, _, _ => by cases hr
  | (rid, r') :: rs, ps, h, r, hr, cid, c, f, hc, hf => by
    simp only [grammarProds] at h
    split at h
    · rename_i ps₁ ps₂ h1 h2
      rcases List.mem_cons.1 hr with rfl | hr
      · exact componentsProds_simple _ _ h1 (c, f) (List.mem_of_getElem? (i := cid) (by rw [List.getElem?_zip_eq_some]; exact ⟨hc, hf⟩))
      · exact grammarProds_simple rs h2 r hr cid c f hc hf
    · simp at h

theorem forall₂_vars {rid : Nat} {tail : List N} {c : List (VarT T)} {vs : List (CsState N × BracketContent)}
    (h : List.Forall₂ (fun x v => varSymbol rid tail x = some v) c vs) : ∀ x ∈ c, ∃ i j, x = .var i j := by
  induction h with
  | nil => simp
  | cons h _ ih =>
    intro x hx
    rcases List.mem_cons.1 hx with rfl | hx
    · obtain ⟨i, j, _, rfl, _⟩ := varSymbol_some h
      exact ⟨i, j, rfl⟩
    · exact ih x hx

variable [Monoid W] {factorize : W → Nat → List W} {rules : List (Nat × PMCFGRule N T W)}

theorem find_rule (hid : (rules.map Prod.fst).Nodup) {rid : Nat} {r : PMCFGRule N T W} (h : (rid, r) ∈ rules) :
    rules.find? (fun p => p.1 == rid) = some (rid, r) := by
  obtain ⟨p, hp⟩ : ∃ p, rules.find? (fun p => p.1 == rid) = some p :=
    Option.isSome_iff_exists.1 (List.find?_isSome.2 ⟨_, h, by simp⟩)
  have h1 := List.find?_some hp
  have h2 := List.mem_of_find?_eq_some hp
  obtain ⟨rid', r'⟩ := p
  simp only [beq_iff_eq] at h1
  subst h1
  rw [hp, ids_unique hid h2 h]

theorem spelled_fits (hid : (rules.map Prod.fst).Nodup)
    (hs : ∀ r ∈ rules, ∀ (cid : Nat) c f, r.2.composition[cid]? = some c → (factorize r.2.weight r.2.composition.length)[cid]? = some f → SimpleComp c)
    {tail : List N} {c : List (VarT T)} {P : Parts} {u : List T} {w : W} (h : Fits factorize rules tail c P u w) :
    (∀ rid v, (∀ x ∈ c, ∃ i j, x = .var i j) → spelled rules (P.word rid ++ v) = u.map some ++ spelled rules v) ∧
    ∀ rid r cid v, (rid, r) ∈ rules → r.composition[cid]? = some c → SimpleComp c → (∀ v', v ≠ .open_ .terminal :: v') →
      spelled rules (.open_ (.component rid cid) :: P.word rid ++ v) = u.map some ++ spelled rules v := by
  induction h with
  | nil =>
    refine ⟨fun rid v _ => rfl, fun rid r cid v _ _ h => ?_⟩
    rcases h with ⟨a, h⟩ | h
    · cases h
    · exact absurd rfl h.1
  | @term tail c a P u w hf ih =>
    refine ⟨fun rid v h => ?_, fun rid r cid v hr hc h hv => ?_⟩
    · obtain ⟨i, j, h⟩ := h _ (List.mem_cons_self ..)
      cases h
    · rcases h with ⟨a, h⟩ | ⟨_, h⟩
      · cases h
        cases hf
        simp only [Spec.Parts.word, List.cons_append, List.nil_append, spelled, find_rule hid hr, Option.bind_some, hc, List.map_cons, List.map_nil]
      · obtain ⟨i, j, h⟩ := h _ (List.mem_cons_self ..)
        cases h
  | @part tail c comp i j r' rr f P₁ P₂ u₁ u₂ w₁ w₂ h1 h2 h3 h4 h5 h6 ih₁ ih₂ =>
    have key : ∀ rid v, (∀ x ∈ VarT.var i j :: c, ∃ i j, x = .var i j) →
        spelled rules ((Parts.part i j r' P₁ P₂).word rid ++ v) = (u₁ ++ u₂).map some ++ spelled rules v := by
      intro rid v h
      have e1 := ih₁.2 r' rr j (.close (.component r' j) :: .close (.variable rid i j) :: (P₂.word rid ++ v)) h1 h3 (hs _ h1 _ _ _ h3 h4) (by simp)
      have e2 := ih₂.1 rid v (fun x hx => h x (List.mem_cons_of_mem _ hx))
      simp only [spelled] at e1
      rw [e2] at e1
      simp only [Spec.Parts.word, List.cons_append, List.append_assoc] at e1 ⊢
      rw [spelled]
      · rw [e1]
        simp
      · simp
      · simp
    refine ⟨key, fun rid r cid v hr hc h hv => ?_⟩
    rcases h with ⟨a, h⟩ | ⟨_, h⟩
    · cases h
    · rw [← key rid v h]
      simp only [Spec.Parts.word, List.cons_append, List.append_assoc]
      rw [spelled]
      · simp
      · simp

/-- The bracket word of a component spells the word that it derives. -/
theorem spelled_compWord (hid : (rules.map Prod.fst).Nodup)
    (hs : ∀ r ∈ rules, ∀ (cid : Nat) c f, r.2.composition[cid]? = some c → (factorize r.2.weight r.2.composition.length)[cid]? = some f → SimpleComp c)
    {A : N} {c rid : Nat} {P : Parts} {u : List T} {w : W} (h : CompDerives factorize rules A c rid P u w) : spelled rules (compWord rid c P) = u.map some := by
  obtain ⟨r, comp, f, w', h1, _, h3, h4, h5, _⟩ := h
  have := (spelled_fits hid hs h5).2 rid r c [.close (.component rid c)] h1 h3 (hs _ h1 _ _ _ h3 h4) (by simp)
  rw [compWord, this]
  simp [spelled]

end

/-! ### Derivations in a chart -/

section
variable {T W : Type _} [Mul W] {G : BinGrammar T W} {inChart : Nat → Nat → Nat → Prop}

theorem chartDerives_exists {i j q : Nat} {t : BinTree} {w : W} (h : ChartDerives G inChart i j q t w) :
    i < j ∧ ∃ u : List T, u.length = j - i ∧ ∀ word : List T, (∀ k, i ≤ k → k < j → word[k]? = u[k - i]?) → G.Derives word (fun _ _ _ => True) i j q t w := by
  induction h with
  | @nullary i q rid a w h =>
    refine ⟨by omega, [a], by simp, fun word hw => .nullary ?_ h trivial⟩
    rw [hw i (le_refl _) (by omega)]
    simp
  | unary h1 _ _ ih =>
    obtain ⟨h2, u, h3, h4⟩ := ih
    exact ⟨h2, u, h3, fun word hw => .unary h1 trivial (h4 word hw)⟩
  | binary h1 h2 h3 _ _ _ _ ih₁ ih₂ =>
    obtain ⟨h4, u₁, h5, h6⟩ := ih₁
    obtain ⟨h7, u₂, h8, h9⟩ := ih₂
    refine ⟨by omega, u₁ ++ u₂, by simp [h5, h8]; omega, fun word hw => .binary h3 trivial (h6 word fun k hk hk' => ?_) (h9 word fun k hk hk' => ?_)⟩
    · rw [hw k hk (by omega), List.getElem?_append_left (by omega)]
    · rw [hw k (by omega) hk', List.getElem?_append_right (by omega), h5]
      congr 1
      omega

theorem chartDerives_derives {word : List T} {i j q : Nat} {t : BinTree} {w : W}
    (hT : ∀ i q rid a v, i < word.length → inChart i (i + 1) q → G.nullary rid q a v → word[i]? = some a)
    (h : ChartDerives G inChart i j q t w) (hc : inChart i j q) (hj : j ≤ word.length) : G.Derives word (fun _ _ _ => True) i j q t w := by
  induction h with
  | nullary h => exact .nullary (hT _ _ _ _ _ (by omega) hc h) h trivial
  | unary h1 h2 _ ih => exact .unary h1 trivial (ih h2 hj)
  | binary h1 h2 h3 h4 h5 _ _ ih₁ ih₂ => exact .binary h3 trivial (ih₁ h4 (by omega)) (ih₂ h5 hj)

end

end Rustomata
