import Verif.Proofs.CsWords

/-!
# The bracket word determines the derivation
-/

namespace Rustomata
open Spec

/-! ### Balance of bracket words -/

/-- Opening brackets minus closing brackets. -/
def balance {B : Type _} : List (Bracket B) → Int
  | [] => 0
  | .open_ _ :: v => balance v + 1
  | .close _ :: v => balance v - 1

theorem balance_append {B : Type _} (u v : List (Bracket B)) : balance (u ++ v) = balance u + balance v := by
  induction u with
  | nil => simp [balance]
  | cons b u ih => cases b <;> simp [balance, ih] <;> omega

theorem dyck_balance {B : Type _} {u : List (Bracket B)} (h : Dyck u) : balance u = 0 ∧ ∀ v v', u = v ++ v' → 0 ≤ balance v := by
  induction h with
  | nil =>
    refine ⟨rfl, fun v v' h => ?_⟩
    have := List.append_eq_nil_iff.1 h.symm
    simp [this.1, balance]
  | @wrap b u h ih =>
    refine ⟨?_, fun v v' hv => ?_⟩
    · simp [balance, balance_append, ih.1]
    · cases v with
      | nil => simp [balance]
      | cons x v =>
        simp only [List.cons_append, List.cons.injEq] at hv
        obtain ⟨rfl, hv⟩ := hv
        rcases List.append_eq_append_iff.1 hv with ⟨a, rfl, h2⟩ | ⟨a, rfl, _⟩
        · rw [balance, balance_append, ih.1]
          cases a with
          | nil => simp [balance]
          | cons y a =>
            simp only [List.cons_append, List.cons.injEq, List.nil_eq_append_iff] at h2
            obtain ⟨rfl, rfl, _⟩ := h2
            simp [balance]
        · have := ih.2 v a rfl
          rw [balance]
          omega
  | @append u u' h h' ih ih' =>
    refine ⟨by rw [balance_append, ih.1, ih'.1]; rfl, fun v v' hv => ?_⟩
    rcases List.append_eq_append_iff.1 hv with ⟨a, rfl, h2⟩ | ⟨a, rfl, _⟩
    · rw [balance_append, ih.1]
      have := ih'.2 a v' h2
      omega
    · exact ih.2 v a rfl

/-- The last bracketed factor of a word is unique. -/
theorem dyck_last {B : Type _} {u u' v v' : List (Bracket B)} {b b' : B} (hu : Dyck u) (hu' : Dyck u') (hv : Dyck v) (hv' : Dyck v')
    (h : u ++ (.open_ b :: v ++ [.close b]) = u' ++ (.open_ b' :: v' ++ [.close b'])) : u = u' ∧ b = b' ∧ v = v' := by
  have key : ∀ {u u' v v' : List (Bracket B)} {b b' : B}, Dyck u → Dyck u' → Dyck v' → ∀ a, u = u' ++ a →
      a ++ (.open_ b :: v ++ [.close b]) = .open_ b' :: v' ++ [.close b'] → a = [] := by
    intro u u' v v' b b' hu hu' hv' a ha h
    cases a with
    | nil => rfl
    | cons x a =>
      have h0 : balance (x :: a) = 0 := by
        have := (dyck_balance hu).1
        rw [ha, balance_append, (dyck_balance hu').1] at this
        omega
      simp only [List.cons_append, List.cons.injEq] at h
      obtain ⟨rfl, h⟩ := h
      have h2 : a ++ (.open_ b :: v) = v' := by
        have := congrArg List.dropLast h
        rw [List.dropLast_concat] at this
        rw [← this, ← List.cons_append, ← List.append_assoc, List.dropLast_concat]
      have := (dyck_balance hv').2 a _ h2.symm
      rw [balance] at h0
      omega
  have fin : (.open_ b :: v ++ [.close b] : List (Bracket B)) = .open_ b' :: v' ++ [.close b'] → b = b' ∧ v = v' := by
    intro h
    simp only [List.cons_append, List.cons.injEq, Bracket.open_.injEq] at h
    obtain ⟨rfl, h⟩ := h
    exact ⟨rfl, List.append_cancel_right h⟩
  rcases List.append_eq_append_iff.1 h with ⟨a, h1, h2⟩ | ⟨a, h1, h2⟩
  · have := key hu' hu hv a h1 h2.symm
    subst this
    simp only [List.append_nil] at h1
    subst h1
    exact ⟨rfl, fin h2⟩
  · have := key hu hu' hv' a h1 h2.symm
    subst this
    simp only [List.append_nil] at h1
    subst h1
    exact ⟨rfl, fin h2.symm⟩

theorem dyck_inBrackets {b : BracketContent} {v : List (Bracket BracketContent)} (h : Dyck v) : Dyck (inBrackets b v) := by
  cases b <;> first | exact h | exact .wrap _ h

theorem dyck_treeWord {brackets : List TdBrackets} (t : BinTree) {v : List (Bracket BracketContent)} (h : treeWord brackets t = some v) : Dyck v := by
  induction t generalizing v with
  | nullary rid =>
    simp only [treeWord, Option.map_eq_some_iff] at h
    obtain ⟨b, _, rfl⟩ := h
    exact dyck_inBrackets (dyck_inBrackets .nil)
  | unary rid t ih =>
    simp only [treeWord, Option.bind_eq_some_iff, Option.map_eq_some_iff] at h
    obtain ⟨b, _, w, h2, rfl⟩ := h
    exact dyck_inBrackets (dyck_inBrackets (ih h2))
  | binary rid m l r ih₁ ih₂ =>
    simp only [treeWord, Option.bind_eq_some_iff, Option.map_eq_some_iff] at h
    obtain ⟨b, _, w, h2, w', h3, rfl⟩ := h
    exact dyck_inBrackets (.append (dyck_inBrackets (ih₁ h2)) (dyck_inBrackets (ih₂ h3)))

/-! ### Productions are different -/

section
variable {N T W : Type _}

/-- The left-hand side. -/
def prodLhs : CsProd N T W → CsState N
  | .nullary Q _ _ => Q
  | .unary Q _ _ => Q
  | .binary Q _ _ _ => Q

/-- The rule, the component, and the position in the component of a production. -/
def prodKey (p : CsProd N T W × TdBrackets) : Nat × Nat × Option Nat :=
  match prodLhs p.1 with
  | .unique rid cid k => (rid, cid, some k)
  | .non _ _ =>
    match p.2.outer with
    | .component rid cid => (rid, cid, none)
    | _ => (0, 0, none)

variable [One W]

theorem leftBranch_keys {rid cid : Nat} {head : N} :
    ∀ (c : List (CsState N × BracketContent)) (off : Nat) (q₀ : CsState N × BracketContent) (w : W),
      ((leftBranch (T := T) (.unique rid cid) (.non head cid) (.component rid cid) off q₀ c w).map prodKey).Nodup ∧
        ∀ x ∈ (leftBranch (T := T) (.unique rid cid) (.non head cid) (.component rid cid) off q₀ c w).map prodKey,
          ∃ o : Option Nat, x = (rid, cid, o) ∧ ∀ k ∈ o, off ≤ k
  | [], _, _, _ => by simp [leftBranch]
  | [q₁], off, q₀, w => by simp [leftBranch, prodKey, prodLhs]
  | q₁ :: q₂ :: c, off, q₀, w => by
    obtain ⟨h1, h2⟩ := leftBranch_keys (q₂ :: c) (off + 1) (.unique rid cid off, .ignore) (1 : W)
    rw [leftBranch, List.map_cons, List.nodup_cons]
    refine ⟨⟨fun hm => ?_, h1⟩, fun x hx => ?_⟩
    · obtain ⟨o, h3, h4⟩ := h2 _ hm
      simp only [prodKey, prodLhs, Prod.mk.injEq, true_and] at h3
      subst h3
      have := h4 off rfl
      omega
    · rcases List.mem_cons.1 hx with rfl | hx
      · exact ⟨some off, rfl, by simp⟩
      · obtain ⟨o, h3, h4⟩ := h2 _ hx
        exact ⟨o, h3, fun k hk => by have := h4 k hk; omega⟩
    · simp

theorem componentProds_keys {rid cid : Nat} {head : N} {tail : List N} {c : List (VarT T)} {w : W} {ps : List (CsProd N T W × TdBrackets)}
    (h : componentProds rid cid head tail c w = some ps) : (ps.map prodKey).Nodup ∧ ∀ x ∈ ps.map prodKey, x.1 = rid ∧ x.2.1 = cid := by
  unfold componentProds at h
  split at h
  · simp at h
  · cases h
    simp [prodKey, prodLhs]
  · rw [Option.map_eq_some_iff] at h
    obtain ⟨v, _, rfl⟩ := h
    simp [prodKey, prodLhs]
  · split at h
    · cases h
      obtain ⟨h1, h2⟩ := leftBranch_keys (T := T) (rid := rid) (cid := cid) (head := head) _ 0 _ w
      refine ⟨h1, fun x hx => ?_⟩
      obtain ⟨o, rfl, _⟩ := h2 x hx
      exact ⟨rfl, rfl⟩
    · simp at h

theorem componentsProds_keys {rid : Nat} {head : N} {tail : List N} :
    ∀ (cs : List (List (VarT T) × W)) (cid : Nat) {ps : List (CsProd N T W × TdBrackets)}, componentsProds rid head tail cs cid = some ps →
      (ps.map prodKey).Nodup ∧ ∀ x ∈ ps.map prodKey, x.1 = rid ∧ cid ≤ x.2.1
  | [], _, _, h => by cases h; simp
  | (c, w) :: cs, cid, ps, h => by
    simp only [componentsProds] at h
    split at h
    · rename_i ps₁ ps₂ h1 h2
      cases h
      obtain ⟨g1, g2⟩ := componentProds_keys h1
      obtain ⟨g3, g4⟩ := componentsProds_keys cs (cid + 1) h2
      rw [List.map_append, List.nodup_append]
      refine ⟨⟨g1, g3, fun x hx y hy hxy => ?_⟩, fun x hx => ?_⟩
      · subst hxy
        have := g2 x hx
        have := g4 x hy
        omega
      · rcases List.mem_append.1 hx with hx | hx
        · have := g2 x hx
          exact ⟨this.1, by omega⟩
        · have := g4 x hx
          exact ⟨this.1, by omega⟩
    · simp at h

theorem grammarProds_keys {factorize : W → Nat → List W} :
    ∀ (rules : List (Nat × PMCFGRule N T W)) {ps : List (CsProd N T W × TdBrackets)}, grammarProds factorize rules = some ps → (rules.map Prod.fst).Nodup →
      (ps.map prodKey).Nodup ∧ ∀ x ∈ ps.map prodKey, x.1 ∈ rules.map Prod.fst
  | [], _, h, _ => by cases h; simp
  | (rid, r) :: rs, ps, h, hid => by
    simp only [grammarProds] at h
    rw [List.map_cons, List.nodup_cons] at hid
    split at h
    · rename_i ps₁ ps₂ h1 h2
      cases h
      obtain ⟨g1, g2⟩ := componentsProds_keys _ 0 h1
      obtain ⟨g3, g4⟩ := grammarProds_keys rs h2 hid.2
      rw [List.map_append, List.nodup_append]
      refine ⟨⟨g1, g3, fun x hx y hy hxy => ?_⟩, fun x hx => ?_⟩
      · subst hxy
        have h3 := g2 x hx
        have h4 := g4 x hy
        rw [h3.1] at h4
        exact hid.1 h4
      · rw [List.map_cons]
        rcases List.mem_append.1 hx with hx | hx
        · rw [(g2 x hx).1]
          exact List.mem_cons_self ..
        · exact List.mem_cons_of_mem _ (g4 x hx)
    · simp at h

/-- The key determines the position of a production. -/
theorem prods_key_inj {factorize : W → Nat → List W} {rules : List (Nat × PMCFGRule N T W)} {ps : List (CsProd N T W × TdBrackets)}
    (h : grammarProds factorize rules = some ps) (hid : (rules.map Prod.fst).Nodup) {k k' : Nat} {p p' : CsProd N T W × TdBrackets}
    (hk : ps[k]? = some p) (hk' : ps[k']? = some p') (he : prodKey p = prodKey p') : k = k' := by
  have hnd := (grammarProds_keys rules h hid).1
  have e1 : (ps.map prodKey)[k]? = some (prodKey p) := by simp [hk]
  have e2 : (ps.map prodKey)[k']? = some (prodKey p) := by simp [hk', he]
  have hlt := (List.getElem?_eq_some_iff.1 e1).1
  exact (List.getElem?_inj hlt hnd).1 (e1.trans e2.symm)

end

/-! ### Trees -/

section
variable {N T W : Type _} [Monoid W] {factorize : W → Nat → List W} {rules : List (Nat × PMCFGRule N T W)}

/-- The shape of the productions: the state or the outer bracket give the key. -/
theorem prodOf_key {r : Nat × PMCFGRule N T W} {p : CsProd N T W × TdBrackets} (h : ProdOf factorize r p) :
    (∃ n cid, prodLhs p.1 = .non n cid ∧ p.2.outer = .component r.1 cid) ∨ (∃ cid k, prodLhs p.1 = .unique r.1 cid k ∧ p.2.outer = .ignore) := by
  obtain ⟨cid, c, w, _, _, h⟩ := h
  cases h with
  | nullary => exact .inl ⟨_, _, rfl, rfl⟩
  | unary _ => exact .inl ⟨_, _, rfl, rfl⟩
  | @binary _ vs k q₀ q _ h1 h2 h3 =>
    by_cases hk : k + 2 = vs.length
    · exact .inl ⟨r.2.head, cid, by simp [prodLhs, hk], by simp [hk]⟩
    · exact .inr ⟨cid, k, by simp [prodLhs, hk], by simp [hk]⟩

theorem inBrackets_cons {b : BracketContent} (h : b ≠ .ignore) (v : List (Bracket BracketContent)) : inBrackets b v = .open_ b :: v ++ [.close b] := by
  cases b <;> first | rfl | exact absurd rfl h

theorem inBrackets_inj {b : BracketContent} {v v' : List (Bracket BracketContent)} (h : inBrackets b v = inBrackets b v') : v = v' := by
  by_cases hb : b = .ignore
  · subst hb; exact h
  · rw [inBrackets_cons hb, inBrackets_cons hb] at h
    simpa using h

/-- Two productions with the same left-hand side and with words that are equal are at the same position. -/
theorem same_prod {ps : List (CsProd N T W × TdBrackets)} (hp : grammarProds factorize rules = some ps) (hid : (rules.map Prod.fst).Nodup)
    {k k' : Nat} {p p' : CsProd N T W × TdBrackets} (hk : ps[k]? = some p) (hk' : ps[k']? = some p') (hl : prodLhs p.1 = prodLhs p'.1)
    {v v' : List (Bracket BracketContent)} (hv : inBrackets p.2.outer v = inBrackets p'.2.outer v') : k = k' ∧ p = p' ∧ v = v' := by
  have hout : p.2.outer = p'.2.outer ∧ prodKey p = prodKey p' := by
    obtain ⟨r, _, h1⟩ := (grammarProds_mem rules hp).1 (List.mem_of_getElem? hk)
    obtain ⟨r', _, h1'⟩ := (grammarProds_mem rules hp).1 (List.mem_of_getElem? hk')
    rcases prodOf_key h1 with ⟨n, cid, e1, e2⟩ | ⟨cid, k, e1, e2⟩ <;> rcases prodOf_key h1' with ⟨n', cid', e1', e2'⟩ | ⟨cid', k', e1', e2'⟩
    · rw [e2, e2', inBrackets_cons (by simp), inBrackets_cons (by simp)] at hv
      simp only [List.cons_append, List.cons.injEq, Bracket.open_.injEq] at hv
      refine ⟨by rw [e2, e2', hv.1], ?_⟩
      simp only [prodKey, e1, e1', e2, e2', hv.1]
    · rw [e1, e1'] at hl; cases hl
    · rw [e1, e1'] at hl; cases hl
    · rw [e1, e1'] at hl
      refine ⟨by rw [e2, e2'], ?_⟩
      simp only [prodKey, e1, e1', hl]
  have := prods_key_inj hp hid hk hk' hout.2
  subst this
  rw [hk, Option.some.injEq] at hk'
  subst hk'
  exact ⟨rfl, rfl, inBrackets_inj hv⟩

/-- The bracket word determines the derivation. -/
theorem treeWord_inj {st : List (CsState N)} {ps : List (CsProd N T W × TdBrackets)} {filter : List Bool} {word : List T} {ok : Nat → Nat → Nat → Prop}
    (hst : st.Nodup) (hp : grammarProds factorize rules = some ps) (hid : (rules.map Prod.fst).Nodup) :
    ∀ (t t' : BinTree) {i j j' q : Nat} {w w' : W}, (numGrammar st ps filter).Derives word ok i j q t w → (numGrammar st ps filter).Derives word ok i j' q t' w' →
      treeWord (ps.map Prod.snd) t = treeWord (ps.map Prod.snd) t' → t = t' ∧ j = j' ∧ w = w' := by
  have hrule : ∀ (k : Nat) (p : CsProd N T W), (ps[k]?).map Prod.fst = some p → ∃ b, ps[k]? = some (p, b) ∧ (ps.map Prod.snd)[k]? = some b := by
    intro k p h
    rw [Option.map_eq_some_iff] at h
    obtain ⟨⟨p', b⟩, h1, rfl⟩ := h
    exact ⟨b, h1, by simp [h1]⟩
  have hsome : ∀ {i j q : Nat} {t : BinTree} {w : W}, (numGrammar st ps filter).Derives word ok i j q t w → ∃ v, treeWord (ps.map Prod.snd) t = some v := by
    intro i j q t w h
    induction h with
    | nullary _ hr _ =>
      obtain ⟨_, _, h1, _⟩ := hr
      obtain ⟨b, _, h2⟩ := hrule _ _ h1
      exact ⟨_, by simp only [treeWord, h2, Option.map_some]; rfl⟩
    | unary hr _ _ ih =>
      obtain ⟨_, _, _, h1, _⟩ := hr
      obtain ⟨b, _, h2⟩ := hrule _ _ h1
      obtain ⟨v, h3⟩ := ih
      exact ⟨_, by simp only [treeWord, h2, h3, Option.bind_some, Option.map_some]; rfl⟩
    | binary hr _ _ _ ih₁ ih₂ =>
      obtain ⟨_, _, _, _, h1, _⟩ := hr
      obtain ⟨b, _, h2⟩ := hrule _ _ h1
      obtain ⟨v, h3⟩ := ih₁
      obtain ⟨v', h4⟩ := ih₂
      exact ⟨_, by simp only [treeWord, h2, h3, h4, Option.bind_some, Option.map_some]; rfl⟩
  -- the production and the word
  have htop : ∀ {i j q : Nat} {t : BinTree} {w : W}, (numGrammar st ps filter).Derives word ok i j q t w → ∃ k p v Q, ps[k]? = some p ∧ st[q]? = some Q ∧
      prodLhs p.1 = Q ∧ treeWord (ps.map Prod.snd) t = some (inBrackets p.2.outer v) ∧
      ((t = .nullary k ∧ j = i + 1 ∧ ∃ a, p.1 = .nullary Q a w) ∨
       (∃ t₁ q₁ S w₀ w₁ v₁, t = .unary k t₁ ∧ p.1 = .unary Q S w₀ ∧ st[q₁]? = some S ∧ (numGrammar st ps filter).Derives word ok i j q₁ t₁ w₁ ∧ w = w₀ * w₁ ∧
          treeWord (ps.map Prod.snd) t₁ = some v₁ ∧ v = inBrackets p.2.left v₁) ∨
       (∃ m t₁ t₂ q₁ q₂ L R w₀ w₁ w₂ v₁ v₂, t = .binary k m t₁ t₂ ∧ p.1 = .binary Q L R w₀ ∧ st[q₁]? = some L ∧ st[q₂]? = some R ∧
          (numGrammar st ps filter).Derives word ok i m q₁ t₁ w₁ ∧ (numGrammar st ps filter).Derives word ok m j q₂ t₂ w₂ ∧ w = w₀ * w₁ * w₂ ∧
          treeWord (ps.map Prod.snd) t₁ = some v₁ ∧ treeWord (ps.map Prod.snd) t₂ = some v₂ ∧ v = inBrackets p.2.left v₁ ++ inBrackets p.2.right v₂)) := by
    intro i j q t w h
    cases h with
    | nullary ha hr ho =>
      obtain ⟨_, Q, h1, h2⟩ := hr
      obtain ⟨b, h3, h4⟩ := hrule _ _ h1
      exact ⟨_, _, inBrackets b.left [], Q, h3, h2, rfl, by simp only [treeWord, h4, Option.map_some], .inl ⟨rfl, rfl, _, rfl⟩⟩
    | unary hr ho hd =>
      obtain ⟨_, Q, S, h1, h2, h2'⟩ := hr
      obtain ⟨b, h3, h4⟩ := hrule _ _ h1
      obtain ⟨v, hv⟩ := hsome hd
      exact ⟨_, _, inBrackets b.left v, Q, h3, h2, rfl, by simp only [treeWord, h4, hv, Option.bind_some, Option.map_some],
        .inr (.inl ⟨_, _, S, _, _, v, rfl, rfl, h2', hd, rfl, hv, rfl⟩)⟩
    | binary hr ho hd₁ hd₂ =>
      obtain ⟨_, Q, L, R, h1, h2, h2', h2''⟩ := hr
      obtain ⟨b, h3, h4⟩ := hrule _ _ h1
      obtain ⟨v, hv⟩ := hsome hd₁
      obtain ⟨v', hv'⟩ := hsome hd₂
      exact ⟨_, _, inBrackets b.left v ++ inBrackets b.right v', Q, h3, h2, rfl, by simp only [treeWord, h4, hv, hv', Option.bind_some, Option.map_some],
        .inr (.inr ⟨_, _, _, _, _, L, R, _, _, _, v, v', rfl, rfl, h2', h2'', hd₁, hd₂, rfl, hv, hv', rfl⟩)⟩
  have hstq : ∀ {q q' : Nat} {S}, st[q]? = some S → st[q']? = some S → q = q' := by
    intro q q' S h h'
    exact (List.getElem?_inj (List.getElem?_eq_some_iff.1 h).1 hst).1 (h.trans h'.symm)
  intro t
  induction t with
  | nullary rid =>
    intro t' i j j' q w w' h h' he
    obtain ⟨k, p, v, Q, h1, h2, h3, h4, h5⟩ := htop h
    obtain ⟨k', p', v', Q', h1', h2', h3', h4', h5'⟩ := htop h'
    rw [h2, Option.some.injEq] at h2'
    subst h2'
    rw [h4, h4', Option.some.injEq] at he
    obtain ⟨rfl, rfl, rfl⟩ := same_prod hp hid h1 h1' (h3.trans h3'.symm) he
    rcases h5 with ⟨e1, e2, a, e3⟩ | ⟨t₁, _, _, _, _, _, e1, _⟩ | ⟨_, _, _, _, _, _, _, _, _, _, _, _, e1, _⟩
    · rcases h5' with ⟨e1', e2', a', e3'⟩ | ⟨t₁, _, _, _, _, _, _, e3', _⟩ | ⟨_, _, _, _, _, _, _, _, _, _, _, _, _, e3', _⟩
      · rw [e3] at e3'
        cases e3'
        exact ⟨e1.trans e1'.symm, by omega, rfl⟩
      · rw [e3] at e3'; cases e3'
      · rw [e3] at e3'; cases e3'
    · cases e1
    · cases e1
  | unary rid t ih =>
    intro t' i j j' q w w' h h' he
    obtain ⟨k, p, v, Q, h1, h2, h3, h4, h5⟩ := htop h
    obtain ⟨k', p', v', Q', h1', h2', h3', h4', h5'⟩ := htop h'
    rw [h2, Option.some.injEq] at h2'
    subst h2'
    rw [h4, h4', Option.some.injEq] at he
    obtain ⟨rfl, rfl, rfl⟩ := same_prod hp hid h1 h1' (h3.trans h3'.symm) he
    rcases h5 with ⟨e1, e2, a, e3⟩ | ⟨t₁, q₁, S, w₀, w₁, v₁, e1, e3, e4, e5, e6, e7, e8⟩ | ⟨_, _, _, _, _, _, _, _, _, _, _, _, e1, _⟩
    · cases e1
    · rcases h5' with ⟨e1', e2', a', e3'⟩ | ⟨t₁', q₁', S', w₀', w₁', v₁', e1', e3', e4', e5', e6', e7', e8'⟩ | ⟨_, _, _, _, _, _, _, _, _, _, _, _, _, e3', _⟩
      · rw [e3] at e3'; cases e3'
      · rw [e3] at e3'
        cases e3'
        cases e1
        cases hstq e4 e4'
        have hv := inBrackets_inj (e8.symm.trans e8')
        obtain ⟨rfl, rfl, rfl⟩ := ih t₁' e5 e5' (by rw [e7, e7', hv])
        exact ⟨e1'.symm, rfl, by rw [e6, e6']⟩
      · rw [e3] at e3'; cases e3'
    · cases e1
  | binary rid m t₁ t₂ ih₁ ih₂ =>
    intro t' i j j' q w w' h h' he
    obtain ⟨k, p, v, Q, h1, h2, h3, h4, h5⟩ := htop h
    obtain ⟨k', p', v', Q', h1', h2', h3', h4', h5'⟩ := htop h'
    rw [h2, Option.some.injEq] at h2'
    subst h2'
    rw [h4, h4', Option.some.injEq] at he
    obtain ⟨rfl, rfl, rfl⟩ := same_prod hp hid h1 h1' (h3.trans h3'.symm) he
    rcases h5 with ⟨e1, e2, a, e3⟩ | ⟨t₁, _, _, _, _, _, e1, _⟩ | ⟨m₁, l₁, l₂, q₁, q₂, L, R, w₀, w₁, w₂, v₁, v₂, e1, e3, e4, e4', e5, e5', e6, e7, e7', e8⟩
    · cases e1
    · cases e1
    · rcases h5' with ⟨_, _, a', e3'⟩ | ⟨t₁', _, _, _, _, _, _, e3', _⟩ | ⟨m₁', l₁', l₂', q₁', q₂', L', R', w₀', w₁', w₂', v₁', v₂', f1, f3, f4, f4', f5, f5', f6, f7, f7', f8⟩
      · rw [e3] at e3'; cases e3'
      · rw [e3] at e3'; cases e3'
      · rw [e3] at f3
        cases f3
        cases e1
        cases hstq e4 f4
        cases hstq e4' f4'
        -- the second part is in brackets
        have hright : p.2.right ≠ .ignore := by
          obtain ⟨r, _, cid, c, f, _, _, hr⟩ := (grammarProds_mem rules hp).1 (List.mem_of_getElem? h1)
          cases hr with
          | nullary => cases e3
          | unary _ => cases e3
          | binary g1 g2 g3 =>
            obtain ⟨_, _, _, _, _, rfl⟩ := varSymbol_getElem g1 g3
            simp
        have hv := e8.symm.trans f8
        rw [inBrackets_cons hright, inBrackets_cons hright] at hv
        obtain ⟨hv1, _, hv2⟩ := dyck_last (dyck_inBrackets (dyck_treeWord _ e7)) (dyck_inBrackets (dyck_treeWord _ f7)) (dyck_treeWord _ e7') (dyck_treeWord _ f7') hv
        have hv1 := inBrackets_inj hv1
        obtain ⟨rfl, rfl, rfl⟩ := ih₁ l₁' e5 f5 (by rw [e7, f7, hv1])
        obtain ⟨rfl, rfl, rfl⟩ := ih₂ l₂' e5' f5' (by rw [e7', f7', hv2])
        exact ⟨f1.symm, rfl, by rw [e6, f6]⟩

end

end Rustomata
