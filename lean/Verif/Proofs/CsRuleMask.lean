import Verif.Model.CsRuleMask
import Verif.Spec.CsRuleMask
import Verif.Proofs.CsAutomaton

/-!
# Proofs for the rule filter of the Chomsky-Schützenberger parser
-/

namespace Rustomata
open Spec

section
variable {N T W : Type _}

/-- The nonterminals that the filter regards as the right-hand side of a rule. -/
def effTail (r : PMCFGRule N T W) : List N := if (MaskBuild.terminalOf r.composition).isSome then [] else r.tail

/-- The number of identifiers of a rule. -/
def idCount (r : PMCFGRule N T W) : Nat :=
  if (MaskBuild.terminalOf r.composition).isSome then 1 else (r.composition.map fun c => max (c.length - 1) 1).sum

/-- The first identifier of the `k`-th rule. -/
def idOffset (rs : List (PMCFGRule N T W)) (k : Nat) : Nat := ((rs.take k).map idCount).sum

/-- `l` are numbers of exactly the elements of `ns`. -/
def Codes (V : List N) (l : List Nat) (ns : List N) : Prop :=
  (∀ y ∈ l, ∃ n ∈ ns, V[y]? = some n) ∧ ∀ n ∈ ns, ∃ y ∈ l, V[y]? = some n

theorem Codes.ext {V : List N} {l : List Nat} {ns : List N} (h : Codes V l ns) (r : List N) : Codes (V ++ r) l ns := by
  have key : ∀ {y : Nat} {n : N}, V[y]? = some n → (V ++ r)[y]? = some n := fun {y n} h => by
    rw [List.getElem?_append_left (List.getElem?_eq_some_iff.1 h).1]; exact h
  refine ⟨fun y hy => ?_, fun n hn => ?_⟩
  · obtain ⟨n, h1, h2⟩ := h.1 y hy
    exact ⟨n, h1, key h2⟩
  · obtain ⟨y, h1, h2⟩ := h.2 n hn
    exact ⟨y, h1, key h2⟩

theorem idOffset_concat_lt {rs : List (PMCFGRule N T W)} {k : Nat} (hk : k ≤ rs.length) (r : PMCFGRule N T W) : idOffset (rs ++ [r]) k = idOffset rs k := by
  unfold idOffset
  rw [List.take_append_of_le_length hk]

end

section
variable {N T W : Type _} [DecidableEq N] [DecidableEq T]

/-- The local variables of `new` after the rules `rs`. -/
structure MaskBuild.Rep (b : MaskBuild N T) (rs : List (PMCFGRule N T W)) : Prop where
  nodup : b.ints.values.Nodup
  term : ∀ a q, q ∈ (b.terminal.get a).getD [] → ∃ r ∈ rs, terminalOf r.composition = some a ∧ b.ints.values[q]? = some r.head
  term' : ∀ r ∈ rs, ∀ a, terminalOf r.composition = some a → ∃ q, b.ints.values[q]? = some r.head ∧ q ∈ (b.terminal.get a).getD []
  inner : ∀ x e, e ∈ b.inner.abs x → ∃ r ∈ rs, b.ints.values[e.2]? = some r.head ∧ (∃ n ∈ effTail r, b.ints.values[x]? = some n) ∧
    (∀ y ∈ e.1, ∃ n ∈ effTail r, b.ints.values[y]? = some n) ∧ ∀ n ∈ effTail r, b.ints.values[x]? = some n ∨ ∃ y ∈ e.1, b.ints.values[y]? = some n
  inner' : ∀ r ∈ rs, ∀ n ∈ effTail r, ∃ x e, e ∈ b.inner.abs x ∧ b.ints.values[x]? = some n ∧ b.ints.values[e.2]? = some r.head ∧
    ∀ y ∈ e.1, ∃ n' ∈ effTail r, b.ints.values[y]? = some n'
  td : ∀ q e, e ∈ b.td.abs q → ∃ (k : Nat) (r : PMCFGRule N T W), rs[k]? = some r ∧ b.ints.values[q]? = some r.head ∧
    e.1 = List.range' (idOffset rs k) (idCount r) ∧ Codes b.ints.values e.2 (effTail r)
  td' : ∀ (k : Nat) r, rs[k]? = some r → ∃ q e, e ∈ b.td.abs q ∧ b.ints.values[q]? = some r.head ∧
    e.1 = List.range' (idOffset rs k) (idCount r) ∧ Codes b.ints.values e.2 (effTail r)
  rid : b.rid = idOffset rs rs.length

omit [DecidableEq N] in
theorem MaskBuild.rep_empty : (MaskBuild.empty : MaskBuild N T).Rep ([] : List (PMCFGRule N T W)) := by
  constructor <;> simp [MaskBuild.empty, Integeriser.new, VecMultiMap.abs, AMap.get, idOffset]

omit [DecidableEq N] in
theorem MaskBuild.Rep.ext {b b' : MaskBuild N T} {rs : List (PMCFGRule N T W)} (h : b.Rep rs) (hnd : b'.ints.values.Nodup)
    (hx : ∃ r, b'.ints.values = b.ints.values ++ r) (h1 : b'.terminal = b.terminal) (h2 : b'.inner = b.inner) (h3 : b'.td = b.td) (h4 : b'.rid = b.rid) :
    b'.Rep rs := by
  obtain ⟨r, hr⟩ := hx
  have key : ∀ {y : Nat} {n : N}, b.ints.values[y]? = some n → b'.ints.values[y]? = some n := fun {y n} h => by
    rw [hr, List.getElem?_append_left (List.getElem?_eq_some_iff.1 h).1]; exact h
  have keyc : ∀ {l ns}, Codes b.ints.values l ns → Codes b'.ints.values l ns := fun h => hr ▸ h.ext r
  refine ⟨hnd, ?_, ?_, ?_, ?_, ?_, ?_, h4 ▸ h.rid⟩
  · intro a q hq
    rw [h1] at hq
    obtain ⟨r, g1, g2, g3⟩ := h.term a q hq
    exact ⟨r, g1, g2, key g3⟩
  · intro r hr a ha
    obtain ⟨q, g1, g2⟩ := h.term' r hr a ha
    exact ⟨q, key g1, h1 ▸ g2⟩
  · intro x e he
    rw [h2] at he
    obtain ⟨r, g1, g2, ⟨n, g3, g4⟩, g5, g6⟩ := h.inner x e he
    refine ⟨r, g1, key g2, ⟨n, g3, key g4⟩, fun y hy => ?_, fun n hn => ?_⟩
    · obtain ⟨n, g7, g8⟩ := g5 y hy
      exact ⟨n, g7, key g8⟩
    · rcases g6 n hn with g | ⟨y, g7, g8⟩
      · exact .inl (key g)
      · exact .inr ⟨y, g7, key g8⟩
  · intro r hr n hn
    obtain ⟨x, e, g1, g2, g3, g4⟩ := h.inner' r hr n hn
    refine ⟨x, e, h2 ▸ g1, key g2, key g3, fun y hy => ?_⟩
    obtain ⟨n, g7, g8⟩ := g4 y hy
    exact ⟨n, g7, key g8⟩
  · intro q e he
    rw [h3] at he
    obtain ⟨k, r, g1, g2, g3, g4⟩ := h.td q e he
    exact ⟨k, r, g1, key g2, g3, keyc g4⟩
  · intro k r hr
    obtain ⟨q, e, g1, g2, g3, g4⟩ := h.td' k r hr
    exact ⟨q, e, h3 ▸ g1, key g2, g3, keyc g4⟩

omit [DecidableEq T] in
theorem MaskBuild.key_spec {b : MaskBuild N T} (hnd : b.ints.values.Nodup) (n : N) :
    (b.key n).1.ints.values.Nodup ∧ (b.key n).1.ints.values[(b.key n).2]? = some n ∧ (∃ r, (b.key n).1.ints.values = b.ints.values ++ r) ∧
      (b.key n).1.terminal = b.terminal ∧ (b.key n).1.inner = b.inner ∧ (b.key n).1.td = b.td ∧ (b.key n).1.rid = b.rid := by
  obtain ⟨h1, h2, h3⟩ := integerise_spec hnd n
  exact ⟨h1, h2, h3, rfl, rfl, rfl, rfl⟩

omit [DecidableEq T] in
theorem MaskBuild.keys_spec (ns : List N) : ∀ {b : MaskBuild N T}, b.ints.values.Nodup →
    (keys ns b).1.ints.values.Nodup ∧ Codes (keys ns b).1.ints.values (keys ns b).2 ns ∧ (∃ r, (keys ns b).1.ints.values = b.ints.values ++ r) ∧
      (keys ns b).1.terminal = b.terminal ∧ (keys ns b).1.inner = b.inner ∧ (keys ns b).1.td = b.td ∧ (keys ns b).1.rid = b.rid := by
  induction ns with
  | nil =>
    intro b hnd
    exact ⟨hnd, ⟨by simp [keys], by simp⟩, ⟨[], by simp [keys]⟩, rfl, rfl, rfl, rfl⟩
  | cons n ns ih =>
    intro b hnd
    obtain ⟨h1, h2, ⟨r, h3⟩, h4, h5, h6, h7⟩ := MaskBuild.key_spec (b := b) hnd n
    obtain ⟨g1, g2, ⟨r', g3⟩, g4, g5, g6, g7⟩ := ih h1
    refine ⟨g1, ⟨?_, ?_⟩, ⟨r ++ r', ?_⟩, g4.trans h4, g5.trans h5, g6.trans h6, g7.trans h7⟩
    · intro y hy
      simp only [keys, List.mem_cons] at hy
      rcases hy with rfl | hy
      · refine ⟨n, by simp, ?_⟩
        simp only [keys]
        rw [g3, List.getElem?_append_left (List.getElem?_eq_some_iff.1 h2).1]
        exact h2
      · obtain ⟨m, e1, e2⟩ := g2.1 y hy
        exact ⟨m, List.mem_cons_of_mem _ e1, e2⟩
    · intro m hm
      rcases List.mem_cons.1 hm with rfl | hm
      · refine ⟨(b.key m).2, by simp [keys], ?_⟩
        simp only [keys]
        rw [g3, List.getElem?_append_left (List.getElem?_eq_some_iff.1 h2).1]
        exact h2
      · obtain ⟨y, e1, e2⟩ := g2.2 m hm
        exact ⟨y, by simp [keys, e1], e2⟩
    · simp only [keys]
      rw [g3, h3, List.append_assoc]

omit [DecidableEq N] [DecidableEq T] in
theorem MaskBuild.ruleIds_spec (c : Composition T) : ∀ rid l, ruleIds c rid = some l → l = List.range' rid (c.map fun c => max (c.length - 1) 1).sum := by
  induction c with
  | nil => intro rid l h; simp only [ruleIds, Option.some.injEq] at h; simp [← h]
  | cons c cs ih =>
    intro rid l h
    simp only [ruleIds] at h
    split at h
    · exact absurd h (by simp)
    rw [Option.map_eq_some_iff] at h
    obtain ⟨l', h1, rfl⟩ := h
    rw [ih _ _ h1, List.map_cons, List.sum_cons, List.range'_append_1]

theorem mem_pushInner_aux (l : List (Nat × Nat)) (rhs : List Nat) (nid : Nat) : ∀ (m : VecMultiMap (List Nat × Nat)) (x : Nat) (e : List Nat × Nat),
    e ∈ (l.foldl (fun m p => m.pushTo p.1 (rhs.eraseIdx p.2, nid)) m).abs x ↔ e ∈ m.abs x ∨ ∃ i, (x, i) ∈ l ∧ e = (rhs.eraseIdx i, nid) := by
  induction l with
  | nil => simp
  | cons p l ih =>
    intro m x e
    obtain ⟨y, j⟩ := p
    rw [List.foldl_cons, ih, VecMultiMap.mem_pushTo]
    constructor
    · rintro ((h | ⟨rfl, rfl⟩) | ⟨i, h1, h2⟩)
      · exact .inl h
      · exact .inr ⟨j, by simp, rfl⟩
      · exact .inr ⟨i, List.mem_cons_of_mem _ h1, h2⟩
    · rintro (h | ⟨i, h1, h2⟩)
      · exact .inl (.inl h)
      · rcases List.mem_cons.1 h1 with h | h
        · rw [Prod.mk.injEq] at h
          obtain ⟨rfl, rfl⟩ := h
          exact .inl (.inr ⟨rfl, h2⟩)
        · exact .inr ⟨i, h, h2⟩

theorem mem_pushInner {rhs : List Nat} {nid : Nat} {m : VecMultiMap (List Nat × Nat)} {x : Nat} {e : List Nat × Nat} :
    e ∈ (MaskBuild.pushInner rhs nid m).abs x ↔ e ∈ m.abs x ∨ ∃ i, rhs[i]? = some x ∧ e = (rhs.eraseIdx i, nid) := by
  unfold MaskBuild.pushInner
  rw [mem_pushInner_aux]
  refine or_congr_right (exists_congr fun i => and_congr_left fun _ => ?_)
  rw [List.mem_zipIdx_iff_getElem?]

omit [DecidableEq N] [DecidableEq T] in
theorem idOffset_succ {rs : List (PMCFGRule N T W)} (r : PMCFGRule N T W) : idOffset (rs ++ [r]) (rs ++ [r]).length = idOffset rs rs.length + idCount r := by
  unfold idOffset
  simp

/-- Laws of the order of a `HashSet`. -/
def HashOrder (order : Nat → List Nat → List Nat) : Prop := ∀ k l, (order k l).Nodup ∧ ∀ x, x ∈ order k l ↔ x ∈ l

theorem MaskBuild.Rep.rule {order : List Nat → List Nat} (ho : ∀ l, (order l).Nodup ∧ ∀ x, x ∈ order l ↔ x ∈ l) {b b' : MaskBuild N T}
    {rs : List (PMCFGRule N T W)} {r : PMCFGRule N T W} (h : b.Rep rs) (hb : MaskBuild.rule order r b = some b') : b'.Rep (rs ++ [r]) := by
  obtain ⟨k1, k2, k3, k4, k5, k6, k7⟩ := MaskBuild.key_spec h.nodup r.head
  have hk := h.ext k1 k3 k4 k5 k6 k7
  unfold MaskBuild.rule at hb
  simp only at hb
  generalize b.key r.head = h' at *
  obtain ⟨c, hq⟩ := h'
  simp only at *
  have hlast : (rs ++ [r])[rs.length]? = some r := by simp
  have hold : ∀ {k : Nat} {r'}, rs[k]? = some r' → (rs ++ [r])[k]? = some r' ∧ idOffset (rs ++ [r]) k = idOffset rs k := by
    intro k r' hk'
    have hk'' := (List.getElem?_eq_some_iff.1 hk').1
    exact ⟨by rw [List.getElem?_append_left hk'']; exact hk', idOffset_concat_lt hk''.le r⟩
  have hoff : idOffset (rs ++ [r]) rs.length = idOffset rs rs.length := idOffset_concat_lt le_rfl r
  split at hb
  · rename_i a ha
    rw [Option.some.injEq] at hb
    subst hb
    have het : effTail r = [] := by simp [effTail, ha]
    have hic : idCount r = 1 := by simp [idCount, ha]
    have hmem : ∀ a' q, q ∈ ((c.terminal.set a ((c.terminal.get a).getD [] ++ [hq])).get a').getD [] ↔
        q ∈ (c.terminal.get a').getD [] ∨ (a' = a ∧ q = hq) := by
      intro a' q
      rw [AMap.get_set]
      by_cases haa : a = a'
      · subst haa; simp
      · simp [haa, Ne.symm haa]
    refine ⟨hk.nodup, ?_, ?_, ?_, ?_, ?_, ?_, ?_⟩
    · intro a' q hq'
      rcases (hmem a' q).1 hq' with hq' | ⟨rfl, rfl⟩
      · obtain ⟨r', g1, g2, g3⟩ := hk.term a' q hq'
        exact ⟨r', List.mem_append_left _ g1, g2, g3⟩
      · exact ⟨r, by simp, ha, k2⟩
    · intro r' hr' a' ha'
      rcases List.mem_append.1 hr' with hr' | hr'
      · obtain ⟨q, g1, g2⟩ := hk.term' r' hr' a' ha'
        exact ⟨q, g1, (hmem a' q).2 (.inl g2)⟩
      · rw [List.mem_singleton] at hr'
        subst hr'
        rw [ha, Option.some.injEq] at ha'
        exact ⟨hq, k2, (hmem a' hq).2 (.inr ⟨ha'.symm, rfl⟩)⟩
    · intro x e he
      obtain ⟨r', g1, g2⟩ := hk.inner x e he
      exact ⟨r', List.mem_append_left _ g1, g2⟩
    · intro r' hr' n hn
      rcases List.mem_append.1 hr' with hr' | hr'
      · exact hk.inner' r' hr' n hn
      · rw [List.mem_singleton] at hr'
        subst hr'
        rw [het] at hn
        exact absurd hn (by simp)
    · intro q e he
      rcases VecMultiMap.mem_pushTo.1 he with he | ⟨rfl, rfl⟩
      · obtain ⟨k, r', g1, g2, g3, g4⟩ := hk.td q e he
        exact ⟨k, r', (hold g1).1, g2, by rw [(hold g1).2]; exact g3, g4⟩
      · refine ⟨rs.length, r, hlast, k2, ?_, ?_⟩
        · rw [hoff, hic, ← hk.rid]
          simp
        · rw [het]
          exact ⟨by simp, by simp⟩
    · intro k r' hr'
      rcases getElem?_concat_iff.1 hr' with hr' | ⟨rfl, rfl⟩
      · obtain ⟨q, e, g1, g2, g3, g4⟩ := hk.td' k r' hr'
        exact ⟨q, e, VecMultiMap.mem_pushTo.2 (.inl g1), g2, by rw [(hold hr').2]; exact g3, g4⟩
      · refine ⟨hq, ([c.rid], []), VecMultiMap.mem_pushTo.2 (.inr ⟨rfl, rfl⟩), k2, ?_, ?_⟩
        · rw [hoff, hic, ← hk.rid]
          simp
        · rw [het]
          exact ⟨by simp, by simp⟩
    · simp only
      rw [idOffset_succ, hic, hk.rid]
  · rename_i ha
    split at hb
    · exact absurd hb (by simp)
    rename_i rids hrids
    rw [Option.some.injEq] at hb
    have hids := MaskBuild.ruleIds_spec _ _ _ hrids
    have het : effTail r = r.tail := by simp [effTail, ha]
    have hic : idCount r = (r.composition.map fun c => max (c.length - 1) 1).sum := by simp [idCount, ha]
    obtain ⟨t1, t2, t3, t4, t5, t6, t7⟩ := MaskBuild.keys_spec r.tail (b := { c with rid := c.rid + rids.length }) k1
    generalize MaskBuild.keys r.tail { c with rid := c.rid + rids.length } = t at *
    obtain ⟨c', ks⟩ := t
    simp only at *
    have hc' : MaskBuild.Rep { c' with rid := c.rid } rs := hk.ext t1 t3 t4 t5 t6 rfl
    have hrid : c'.rid = idOffset rs rs.length + idCount r := by
      rw [t7, hk.rid, hids, List.length_range', hic]
    obtain ⟨o1, o2⟩ := ho ks
    generalize order ks = rhs at *
    have hcodes : Codes c'.ints.values rhs (effTail r) := by
      rw [het]
      refine ⟨fun y hy => t2.1 y ((o2 y).1 hy), fun n hn => ?_⟩
      obtain ⟨y, g1, g2⟩ := t2.2 n hn
      exact ⟨y, (o2 y).2 g1, g2⟩
    have hhead : c'.ints.values[hq]? = some r.head := by
      obtain ⟨r', hr'⟩ := t3
      rw [hr', List.getElem?_append_left (List.getElem?_eq_some_iff.1 k2).1]
      exact k2
    have hids' : rids = List.range' (idOffset rs rs.length) (idCount r) := by rw [hids, hic, hk.rid]
    subst hb
    refine ⟨hc'.nodup, ?_, ?_, ?_, ?_, ?_, ?_, ?_⟩
    · intro a' q hq'
      obtain ⟨r', g1, g2, g3⟩ := hc'.term a' q hq'
      exact ⟨r', List.mem_append_left _ g1, g2, g3⟩
    · intro r' hr' a' ha'
      rcases List.mem_append.1 hr' with hr' | hr'
      · exact hc'.term' r' hr' a' ha'
      · rw [List.mem_singleton] at hr'
        subst hr'
        rw [ha] at ha'
        exact absurd ha' (by simp)
    · intro x e he
      rcases mem_pushInner.1 he with he | ⟨i, g1, rfl⟩
      · obtain ⟨r', g1, g2⟩ := hc'.inner x e he
        exact ⟨r', List.mem_append_left _ g1, g2⟩
      · refine ⟨r, by simp, hhead, hcodes.1 x (List.mem_of_getElem? g1), fun y hy => hcodes.1 y (List.mem_of_mem_eraseIdx hy), fun n hn => ?_⟩
        obtain ⟨y, g2, g3⟩ := hcodes.2 n hn
        by_cases hyx : y = x
        · subst hyx
          exact .inl g3
        · refine .inr ⟨y, ?_, g3⟩
          obtain ⟨j, hj⟩ := List.mem_iff_getElem?.1 g2
          rw [List.mem_eraseIdx_iff_getElem?]
          refine ⟨j, fun hji => ?_, hj⟩
          subst hji
          rw [hj, Option.some.injEq] at g1
          exact hyx g1
    · intro r' hr' n hn
      rcases List.mem_append.1 hr' with hr' | hr'
      · obtain ⟨x, e, g1, g2⟩ := hc'.inner' r' hr' n hn
        exact ⟨x, e, mem_pushInner.2 (.inl g1), g2⟩
      · rw [List.mem_singleton] at hr'
        subst hr'
        obtain ⟨y, g2, g3⟩ := hcodes.2 n hn
        obtain ⟨j, hj⟩ := List.mem_iff_getElem?.1 g2
        exact ⟨y, _, mem_pushInner.2 (.inr ⟨j, hj, rfl⟩), g3, hhead, fun y hy => hcodes.1 y (List.mem_of_mem_eraseIdx hy)⟩
    · intro q e he
      rcases VecMultiMap.mem_pushTo.1 he with he | ⟨rfl, rfl⟩
      · obtain ⟨k, r', g1, g2, g3, g4⟩ := hc'.td q e he
        exact ⟨k, r', (hold g1).1, g2, by rw [(hold g1).2]; exact g3, g4⟩
      · exact ⟨rs.length, r, hlast, hhead, by rw [hoff]; exact hids', hcodes⟩
    · intro k r' hr'
      rcases getElem?_concat_iff.1 hr' with hr' | ⟨rfl, rfl⟩
      · obtain ⟨q, e, g1, g2, g3, g4⟩ := hc'.td' k r' hr'
        exact ⟨q, e, VecMultiMap.mem_pushTo.2 (.inl g1), g2, by rw [(hold hr').2]; exact g3, g4⟩
      · exact ⟨hq, (rids, rhs), VecMultiMap.mem_pushTo.2 (.inr ⟨rfl, rfl⟩), hhead, by rw [hoff]; exact hids', hcodes⟩
    · simp only
      rw [idOffset_succ, hrid]

theorem MaskBuild.Rep.rules {order : Nat → List Nat → List Nat} (ho : HashOrder order) (new : List (PMCFGRule N T W)) :
    ∀ (k : Nat) (b b' : MaskBuild N T) (rs : List (PMCFGRule N T W)), b.Rep rs → MaskBuild.rules order new k b = some b' → b'.Rep (rs ++ new) := by
  induction new with
  | nil => intro k b b' rs h hb; simp only [MaskBuild.rules, Option.some.injEq] at hb; subst hb; simpa using h
  | cons r new ih =>
    intro k b b' rs h hb
    simp only [MaskBuild.rules] at hb
    split at hb
    · exact absurd hb (by simp)
    rename_i b₁ hb₁
    have := ih (k + 1) b₁ b' _ (h.rule (ho k) hb₁) hb
    simpa using this

/-! ### `new` -/

/-- The tables of the filter for the rules `rs`; `V` assigns numbers to nonterminals. -/
structure RuleMaskBuilder.Rep (b : RuleMaskBuilder T) (V : List N) (rs : List (PMCFGRule N T W)) : Prop where
  nodup : V.Nodup
  states : b.states = V.length
  innerLen : b.inner.length = V.length
  tdLen : b.td.length = V.length
  ruleids : b.ruleids = idOffset rs rs.length
  term : ∀ a q, q ∈ (b.terminal.get a).getD [] → ∃ r ∈ rs, MaskBuild.terminalOf r.composition = some a ∧ V[q]? = some r.head
  term' : ∀ r ∈ rs, ∀ a, MaskBuild.terminalOf r.composition = some a → ∃ q, V[q]? = some r.head ∧ q ∈ (b.terminal.get a).getD []
  inner : ∀ (x : Nat) (l : List (List Nat × Nat)) (e : List Nat × Nat), b.inner[x]? = some l → e ∈ l → ∃ r ∈ rs, V[e.2]? = some r.head ∧ (∃ n ∈ effTail r, V[x]? = some n) ∧
    (∀ y ∈ e.1, ∃ n ∈ effTail r, V[y]? = some n) ∧ ∀ n ∈ effTail r, V[x]? = some n ∨ ∃ y ∈ e.1, V[y]? = some n
  inner' : ∀ r ∈ rs, ∀ n ∈ effTail r, ∃ (x : Nat) (e : List Nat × Nat) (l : List (List Nat × Nat)), b.inner[x]? = some l ∧ e ∈ l ∧ V[x]? = some n ∧ V[e.2]? = some r.head ∧
    ∀ y ∈ e.1, ∃ n' ∈ effTail r, V[y]? = some n'
  td : ∀ (q : Nat) (l : List (List Nat × List Nat)) (e : List Nat × List Nat), b.td[q]? = some l → e ∈ l → ∃ (k : Nat) (r : PMCFGRule N T W), rs[k]? = some r ∧ V[q]? = some r.head ∧
    e.1 = List.range' (idOffset rs k) (idCount r) ∧ Codes V e.2 (effTail r)
  td' : ∀ (k : Nat) r, rs[k]? = some r → ∃ (q : Nat) (e : List Nat × List Nat) (l : List (List Nat × List Nat)), b.td[q]? = some l ∧ e ∈ l ∧ V[q]? = some r.head ∧
    e.1 = List.range' (idOffset rs k) (idCount r) ∧ Codes V e.2 (effTail r)

theorem RuleMaskBuilder.new_rep {order : Nat → List Nat → List Nat} (ho : HashOrder order) {rs : List (PMCFGRule N T W)} {init : N} {b : RuleMaskBuilder T}
    (h : RuleMaskBuilder.new order rs init = some b) : ∃ V : List N, b.Rep V rs ∧ V[b.initial]? = some init := by
  unfold RuleMaskBuilder.new at h
  rw [Option.bind_eq_some_iff] at h
  obtain ⟨m, h1, h2⟩ := h
  rw [Option.map_eq_some_iff] at h2
  obtain ⟨q, h2, rfl⟩ := h2
  have hm := MaskBuild.Rep.rules ho rs 0 _ m [] MaskBuild.rep_empty h1
  rw [List.nil_append] at hm
  have hlt : ∀ {k : Nat} {s}, m.ints.values[k]? = some s → k < m.ints.values.length := fun h => (List.getElem?_eq_some_iff.1 h).1
  refine ⟨m.ints.values, ⟨hm.nodup, rfl, VecMultiMap.resize_length _ _, VecMultiMap.resize_length _ _, hm.rid, hm.term, hm.term', ?_, ?_, ?_, ?_⟩, ?_⟩
  · intro x l e hl he
    exact hm.inner x e ((mem_intoVecWithSize _ _ x e).1 ⟨l, hl, he⟩).2
  · intro r hr n hn
    obtain ⟨x, e, g1, g2, g3, g4⟩ := hm.inner' r hr n hn
    obtain ⟨l, hl, he⟩ := (mem_intoVecWithSize m.inner m.ints.values.length x e).2 ⟨hlt g2, g1⟩
    exact ⟨x, e, l, hl, he, g2, g3, g4⟩
  · intro q l e hl he
    exact hm.td q e ((mem_intoVecWithSize _ _ q e).1 ⟨l, hl, he⟩).2
  · intro k r hr
    obtain ⟨q, e, g1, g2, g3, g4⟩ := hm.td' k r hr
    obtain ⟨l, hl, he⟩ := (mem_intoVecWithSize m.td m.ints.values.length q e).2 ⟨hlt g2, g1⟩
    exact ⟨q, e, l, hl, he, g2, g3, g4⟩
  · unfold Integeriser.findKey at h2
    rw [List.findIdx?_eq_some_iff_getElem] at h2
    obtain ⟨g1, g2, _⟩ := h2
    simp only
    rw [List.getElem?_eq_getElem g1]
    simpa using g2

/-! ### The potential of a worklist -/

/-- Sum of the costs of the elements without flag. -/
def pot : List Nat → List Bool → Nat
  | c :: cs, f :: fs => (if f then 0 else c) + pot cs fs
  | _, _ => 0

theorem pot_set : ∀ (costs : List Nat) (flags : List Bool) (k c : Nat), costs[k]? = some c → flags[k]? = some false →
    pot costs (flags.set k true) + c = pot costs flags := by
  intro costs
  induction costs with
  | nil => intro flags k c h; simp at h
  | cons c' cs ih =>
    intro flags k c hc hf
    cases flags with
    | nil => simp at hf
    | cons f fs =>
      cases k with
      | zero =>
        simp only [List.getElem?_cons_zero, Option.some.injEq] at hc hf
        subst hc hf
        simp [pot]
        omega
      | succ k =>
        simp only [List.getElem?_cons_succ] at hc hf
        have := ih fs k c hc hf
        simp only [List.set_cons_succ, pot]
        omega

theorem pot_false : ∀ (costs : List Nat) (n : Nat), pot costs (List.replicate n false) ≤ costs.sum := by
  intro costs
  induction costs with
  | nil => intro n; simp [pot]
  | cons c cs ih =>
    intro n
    cases n with
    | zero => simp [pot]
    | succ n =>
      have := ih n
      simp only [List.replicate_succ, pot, List.sum_cons]
      simp
      omega

/-! ### `build` -/

namespace RuleMaskBuilder

theorem allSet_spec (flags : List Bool) : ∀ (l : List Nat), (∀ y ∈ l, y < flags.length) →
    ∃ o, allSet flags l = some o ∧ (o = true ↔ ∀ y ∈ l, flags[y]? = some true) := by
  intro l
  induction l with
  | nil => exact fun _ => ⟨true, rfl, by simp⟩
  | cons x l ih =>
    intro h
    have hx := h x (by simp)
    obtain ⟨o, h1, h2⟩ := ih fun y hy => h y (List.mem_cons_of_mem _ hy)
    unfold allSet
    rw [List.getElem?_eq_getElem hx]
    cases hf : flags[x] with
    | false =>
      refine ⟨false, rfl, ?_⟩
      simp [List.getElem?_eq_getElem hx, hf]
    | true =>
      refine ⟨o, h1, ?_⟩
      rw [h2, List.forall_mem_cons, List.getElem?_eq_getElem hx, hf]
      simp

theorem newlyProductive_spec (flags : List Bool) : ∀ (es : List (List Nat × Nat)),
    (∀ e ∈ es, e.2 < flags.length ∧ ∀ y ∈ e.1, y < flags.length) →
    ∃ new, newlyProductive flags es = some new ∧ new.length ≤ es.length ∧
      ∀ q, q ∈ new ↔ ∃ others, (others, q) ∈ es ∧ flags[q]? = some false ∧ ∀ y ∈ others, flags[y]? = some true := by
  intro es
  induction es with
  | nil => exact fun _ => ⟨[], rfl, by simp, by simp⟩
  | cons e es ih =>
    intro h
    obtain ⟨others, top⟩ := e
    obtain ⟨h1, h2⟩ := h _ (List.mem_cons_self)
    obtain ⟨new, g1, g2, g3⟩ := ih fun e he => h e (List.mem_cons_of_mem _ he)
    obtain ⟨o, g4, g5⟩ := allSet_spec flags others h2
    unfold newlyProductive
    rw [List.getElem?_eq_getElem h1]
    have hne : ∀ q, (∃ os, (os, q) ∈ (others, top) :: es ∧ flags[q]? = some false ∧ ∀ y ∈ os, flags[y]? = some true) ↔
        ((q = top ∧ flags[top]? = some false ∧ ∀ y ∈ others, flags[y]? = some true) ∨
          ∃ os, (os, q) ∈ es ∧ flags[q]? = some false ∧ ∀ y ∈ os, flags[y]? = some true) := by
      intro q
      constructor
      · rintro ⟨os, hm, hr⟩
        rcases List.mem_cons.1 hm with hm | hm
        · rw [Prod.mk.injEq] at hm
          obtain ⟨rfl, rfl⟩ := hm
          exact .inl ⟨rfl, hr⟩
        · exact .inr ⟨os, hm, hr⟩
      · rintro (⟨rfl, hr⟩ | ⟨os, hm, hr⟩)
        · exact ⟨others, by simp, hr⟩
        · exact ⟨os, List.mem_cons_of_mem _ hm, hr⟩
    cases hf : flags[top] with
    | true =>
      refine ⟨new, g1, by simp; omega, fun q => ?_⟩
      rw [hne, ← g3, List.getElem?_eq_getElem h1, hf]
      simp
    | false =>
      simp only [g4]
      cases o with
      | false =>
        refine ⟨new, g1, by simp; omega, fun q => ?_⟩
        rw [hne, ← g3, ← g5]
        simp
      | true =>
        refine ⟨top :: new, by simp [g1], by simp; omega, fun q => ?_⟩
        rw [hne, ← g3, ← g5, List.getElem?_eq_getElem h1, hf]
        simp

end RuleMaskBuilder

/-- The nonterminals that the first loop marks. -/
inductive MarkedProductive (rs : List (PMCFGRule N T W)) (word : List T) : N → Prop
  | term {r a} : r ∈ rs → MaskBuild.terminalOf r.composition = some a → a ∈ word → MarkedProductive rs word r.head
  | inner {r} : r ∈ rs → effTail r ≠ [] → (∀ n ∈ effTail r, MarkedProductive rs word n) → MarkedProductive rs word r.head

namespace RuleMaskBuilder

theorem productiveLoop_spec {b : RuleMaskBuilder T} {V : List N} {rs : List (PMCFGRule N T W)} (hb : b.Rep V rs) (word : List T) :
    ∀ (fuel : Nat) (stack : List Nat) (flags : List Bool), flags.length = V.length →
      (∀ q : Nat, flags[q]? = some true → ∃ n, V[q]? = some n ∧ MarkedProductive rs word n) →
      (∀ q ∈ stack, ∃ n, V[q]? = some n ∧ MarkedProductive rs word n) →
      (∀ a ∈ word, ∀ q ∈ (b.terminal.get a).getD [], flags[q]? = some true ∨ q ∈ stack) →
      (∀ r ∈ rs, effTail r ≠ [] → (∀ n ∈ effTail r, ∃ y : Nat, V[y]? = some n ∧ flags[y]? = some true) →
        ∃ q : Nat, V[q]? = some r.head ∧ (flags[q]? = some true ∨ q ∈ stack)) →
      stack.length + pot (b.inner.map List.length) flags ≤ fuel →
      ∃ flags', productiveLoop b fuel stack flags = some flags' ∧ flags'.length = V.length ∧
        ∀ (q : Nat) n, V[q]? = some n → (flags'[q]? = some true ↔ MarkedProductive rs word n) := by
  intro fuel
  induction fuel with
  | zero =>
    intro stack flags hlen hs hst ht hc hfuel
    have : stack = [] := by
      cases stack with
      | nil => rfl
      | cons _ _ => simp at hfuel
    subst this
    refine ⟨flags, by simp [productiveLoop], hlen, fun q n hq => ⟨fun h => ?_, fun h => ?_⟩⟩
    · obtain ⟨n', h1, h2⟩ := hs q h
      rw [hq, Option.some.injEq] at h1
      exact h1 ▸ h2
    · have : ∃ q' : Nat, V[q']? = some n ∧ flags[q']? = some true := by
        clear hq
        induction h with
        | term h1 h2 h3 =>
          obtain ⟨q', g1, g2⟩ := hb.term' _ h1 _ h2
          rcases ht _ h3 q' g2 with g | g
          · exact ⟨q', g1, g⟩
          · simp at g
        | inner h1 h2 h3 ih =>
          obtain ⟨q', g1, g2⟩ := hc _ h1 h2 ih
          rcases g2 with g | g
          · exact ⟨q', g1, g⟩
          · simp at g
      obtain ⟨q', g1, g2⟩ := this
      rwa [nodup_index hb.nodup hq g1]
  | succ fuel ih =>
    intro stack flags hlen hs hst ht hc hfuel
    cases stack with
    | nil =>
      refine ⟨flags, by simp [productiveLoop], hlen, fun q n hq => ⟨fun h => ?_, fun h => ?_⟩⟩
      · obtain ⟨n', h1, h2⟩ := hs q h
        rw [hq, Option.some.injEq] at h1
        exact h1 ▸ h2
      · have : ∃ q' : Nat, V[q']? = some n ∧ flags[q']? = some true := by
          clear hq
          induction h with
          | term h1 h2 h3 =>
            obtain ⟨q', g1, g2⟩ := hb.term' _ h1 _ h2
            rcases ht _ h3 q' g2 with g | g
            · exact ⟨q', g1, g⟩
            · simp at g
          | inner h1 h2 h3 ih =>
            obtain ⟨q', g1, g2⟩ := hc _ h1 h2 ih
            rcases g2 with g | g
            · exact ⟨q', g1, g⟩
            · simp at g
        obtain ⟨q', g1, g2⟩ := this
        rwa [nodup_index hb.nodup hq g1]
    | cons nt stack =>
      obtain ⟨n₀, hn₀, hp₀⟩ := hst nt (by simp)
      have hlt : nt < flags.length := hlen ▸ (List.getElem?_eq_some_iff.1 hn₀).1
      unfold productiveLoop
      cases hf : flags[nt]? with
      | none => rw [List.getElem?_eq_none_iff] at hf; omega
      | some f =>
        cases f with
        | true =>
          simp only
          refine ih stack flags hlen hs (fun q hq => hst q (List.mem_cons_of_mem _ hq)) ?_ ?_ (by simp at hfuel; omega)
          · intro a ha q hq
            rcases ht a ha q hq with g | g
            · exact .inl g
            · rcases List.mem_cons.1 g with rfl | g
              · exact .inl hf
              · exact .inr g
          · intro r hr hne hall
            obtain ⟨q, g1, g2⟩ := hc r hr hne hall
            refine ⟨q, g1, ?_⟩
            rcases g2 with g | g
            · exact .inl g
            · rcases List.mem_cons.1 g with rfl | g
              · exact .inl hf
              · exact .inr g
        | false =>
          simp only
          have hlt' : nt < b.inner.length := by rw [hb.innerLen]; exact (List.getElem?_eq_some_iff.1 hn₀).1
          obtain ⟨es, hes⟩ : ∃ es, b.inner[nt]? = some es := ⟨_, List.getElem?_eq_getElem hlt'⟩
          rw [hes]
          simp only
          have hset : ∀ q : Nat, (flags.set nt true)[q]? = some true ↔ q = nt ∨ flags[q]? = some true := by
            intro q
            rw [List.getElem?_set]
            by_cases hq : nt = q
            · subst hq
              simp [hlt]
            · simp [hq, Ne.symm hq]
          have hVlt : ∀ {y : Nat} {n : N}, V[y]? = some n → y < flags.length := fun h => hlen ▸ (List.getElem?_eq_some_iff.1 h).1
          obtain ⟨new, hnew, hnl, hnm⟩ := newlyProductive_spec (flags.set nt true) es (by
            intro e he
            obtain ⟨r, g1, g2, _, g3, _⟩ := hb.inner nt es e hes he
            rw [List.length_set]
            exact ⟨hVlt g2, fun y hy => (g3 y hy).elim fun n g => hVlt g.2⟩)
          rw [hnew]
          simp only
          refine ih (new.reverse ++ stack) (flags.set nt true) (by simpa using hlen) ?_ ?_ ?_ ?_ ?_
          · intro q hq
            rcases (hset q).1 hq with rfl | hq
            · exact ⟨n₀, hn₀, hp₀⟩
            · exact hs q hq
          · intro q hq
            rcases List.mem_append.1 hq with hq | hq
            · rw [List.mem_reverse, hnm] at hq
              obtain ⟨others, g1, _, g2⟩ := hq
              obtain ⟨r, g3, g4, ⟨n', g5', g5⟩, _, g6⟩ := hb.inner nt es _ hes g1
              refine ⟨r.head, g4, .inner g3 (List.ne_nil_of_mem g5') fun n hn => ?_⟩
              rcases g6 n hn with g7 | ⟨y, g7, g8⟩
              · rw [hn₀, Option.some.injEq] at g7
                exact g7 ▸ hp₀
              · rcases (hset y).1 (g2 y g7) with rfl | g9
                · rw [hn₀, Option.some.injEq] at g8
                  exact g8 ▸ hp₀
                · obtain ⟨n'', g10, g11⟩ := hs y g9
                  rw [g8, Option.some.injEq] at g10
                  exact g10 ▸ g11
            · exact hst q (List.mem_cons_of_mem _ hq)
          · intro a ha q hq
            rcases ht a ha q hq with g | g
            · exact .inl ((hset q).2 (.inr g))
            · rcases List.mem_cons.1 g with rfl | g
              · exact .inl ((hset q).2 (.inl rfl))
              · exact .inr (List.mem_append_right _ g)
          · intro r hr hne hall
            by_cases hnt : n₀ ∈ effTail r
            · obtain ⟨x, e, l, g1, g2, g3, g4, g5⟩ := hb.inner' r hr n₀ hnt
              have hx : x = nt := nodup_index hb.nodup g3 hn₀
              subst hx
              rw [hes, Option.some.injEq] at g1
              subst g1
              refine ⟨e.2, g4, ?_⟩
              have hb2 : e.2 < (flags.set x true).length := by rw [List.length_set]; exact hVlt g4
              cases hfe : (flags.set x true)[e.2]? with
              | none => rw [List.getElem?_eq_none_iff] at hfe; omega
              | some f =>
                cases f with
                | true => exact .inl rfl
                | false =>
                  refine .inr (List.mem_append_left _ ?_)
                  rw [List.mem_reverse, hnm]
                  refine ⟨e.1, g2, hfe, fun y hy => ?_⟩
                  obtain ⟨n', g6, g7⟩ := g5 y hy
                  obtain ⟨y', g8, g9⟩ := hall n' g6
                  rwa [nodup_index hb.nodup g7 g8]
            · obtain ⟨q, g1, g2⟩ := hc r hr hne (by
                intro n hn
                obtain ⟨y, g3, g4⟩ := hall n hn
                refine ⟨y, g3, ?_⟩
                rcases (hset y).1 g4 with rfl | g4
                · rw [hn₀, Option.some.injEq] at g3
                  exact absurd (g3 ▸ hn) hnt
                · exact g4)
              refine ⟨q, g1, ?_⟩
              rcases g2 with g | g
              · exact .inl ((hset q).2 (.inr g))
              · rcases List.mem_cons.1 g with rfl | g
                · exact .inl ((hset q).2 (.inl rfl))
                · exact .inr (List.mem_append_right _ g)
          · have := pot_set (b.inner.map List.length) flags nt es.length (by rw [List.getElem?_map, hes]; rfl) hf
            simp only [List.length_append, List.length_reverse, List.length_cons] at hfuel ⊢
            omega

theorem mem_foldl_set (ids : List Nat) : ∀ (mask : List Bool), (∀ i ∈ ids, i < mask.length) → (ids.foldl (fun m i => m.set i true) mask).length = mask.length ∧
    ∀ i : Nat, (ids.foldl (fun m i => m.set i true) mask)[i]? = some true ↔ mask[i]? = some true ∨ i ∈ ids := by
  induction ids with
  | nil => intro mask _; simp
  | cons j ids ih =>
    intro mask h
    obtain ⟨h1, h2⟩ := ih (mask.set j true) (by intro i hi; rw [List.length_set]; exact h i (List.mem_cons_of_mem _ hi))
    rw [List.foldl_cons]
    refine ⟨by rw [h1, List.length_set], fun i => ?_⟩
    rw [h2, List.getElem?_set, List.mem_cons]
    have hj := h j (by simp)
    by_cases hij : j = i
    · subst hij
      simp [hj]
    · simp [hij, Ne.symm hij]

theorem useRules_spec (productive : List Bool) : ∀ (es : List (List Nat × List Nat)) (mask : List Bool) (stack : List Nat),
    (∀ e ∈ es, (∀ i ∈ e.1, i < mask.length) ∧ ∀ y ∈ e.2, y < productive.length) →
    ∃ mask' stack', useRules productive es mask stack = some (mask', stack') ∧ mask'.length = mask.length ∧
      stack'.length ≤ stack.length + (es.map fun e => e.2.length).sum ∧
      (∀ i : Nat, mask'[i]? = some true ↔ mask[i]? = some true ∨ ∃ e ∈ es, i ∈ e.1 ∧ ∀ y ∈ e.2, productive[y]? = some true) ∧
      ∀ q, q ∈ stack' ↔ q ∈ stack ∨ ∃ e ∈ es, q ∈ e.2 ∧ ∀ y ∈ e.2, productive[y]? = some true := by
  intro es
  induction es with
  | nil => intro mask stack _; exact ⟨mask, stack, rfl, rfl, by simp, by simp, by simp⟩
  | cons e es ih =>
    intro mask stack h
    obtain ⟨ids, bottom⟩ := e
    obtain ⟨h1, h2⟩ := h _ List.mem_cons_self
    simp only at h1 h2
    obtain ⟨o, h3, h4⟩ := allSet_spec productive bottom h2
    unfold useRules
    simp only [h3]
    cases o with
    | false =>
      have h4' : ¬ ∀ y ∈ bottom, productive[y]? = some true := fun hh => by simpa using h4.2 hh
      obtain ⟨m', s', g1, g2, g3, g4, g5⟩ := ih mask stack fun e he => h e (List.mem_cons_of_mem _ he)
      refine ⟨m', s', g1, g2, by simp; omega, fun i => ?_, fun q => ?_⟩
      · rw [g4, List.exists_mem_cons_iff]
        simp only [h4', and_false, false_or]
      · rw [g5, List.exists_mem_cons_iff]
        simp only [h4', and_false, false_or]
    | true =>
      have h4' := h4.1 rfl
      have hall : ids.all (· < mask.length) = true := by rw [List.all_eq_true]; exact fun i hi => by simpa using h1 i hi
      simp only [hall, if_true]
      obtain ⟨f1, f2⟩ := mem_foldl_set ids mask h1
      obtain ⟨m', s', g1, g2, g3, g4, g5⟩ := ih (ids.foldl (fun m i => m.set i true) mask) (bottom.reverse ++ stack) fun e he => by
        rw [f1]; exact h e (List.mem_cons_of_mem _ he)
      refine ⟨m', s', g1, g2.trans f1, by simp at g3 ⊢; omega, fun i => ?_, fun q => ?_⟩
      · rw [g4, f2, List.exists_mem_cons_iff]
        simp only [iff_true_intro h4', and_true, or_assoc]
      · rw [g5, List.exists_mem_cons_iff, List.mem_append, List.mem_reverse]
        simp only [iff_true_intro h4', and_true]
        rw [or_comm (a := q ∈ bottom), or_assoc]

end RuleMaskBuilder

/-- The nonterminals that the second loop marks. -/
inductive MarkedReachable (rs : List (PMCFGRule N T W)) (word : List T) (init : N) : N → Prop
  | init : MarkedReachable rs word init init
  | step {r A} : MarkedReachable rs word init r.head → MarkedProductive rs word r.head → r ∈ rs → (∀ B ∈ effTail r, MarkedProductive rs word B) →
      A ∈ effTail r → MarkedReachable rs word init A

/-- The rules that the filter keeps. -/
def Kept (rs : List (PMCFGRule N T W)) (word : List T) (init : N) (r : PMCFGRule N T W) : Prop :=
  MarkedReachable rs word init r.head ∧ MarkedProductive rs word r.head ∧ ∀ B ∈ effTail r, MarkedProductive rs word B

namespace RuleMaskBuilder

theorem idOffset_add_le {rs : List (PMCFGRule N T W)} {k : Nat} {r : PMCFGRule N T W} (h : rs[k]? = some r) :
    idOffset rs k + idCount r ≤ idOffset rs rs.length := by
  obtain ⟨hk, rfl⟩ := List.getElem?_eq_some_iff.1 h
  unfold idOffset
  have : ((rs.take (k + 1)).map idCount).sum = ((rs.take k).map idCount).sum + idCount rs[k] := by
    rw [List.take_add_one, List.getElem?_eq_getElem hk, Option.toList_some, List.map_append, List.sum_append, List.map_singleton, List.sum_singleton]
  rw [← this, List.take_length]
  conv_rhs => rw [← List.take_append_drop (k + 1) rs, List.map_append, List.sum_append]
  omega

theorem reachableLoop_spec {b : RuleMaskBuilder T} {V : List N} {rs : List (PMCFGRule N T W)} (hb : b.Rep V rs) (word : List T) (init : N)
    {productive : List Bool} (hpl : productive.length = V.length)
    (hp : ∀ (q : Nat) n, V[q]? = some n → (productive[q]? = some true ↔ MarkedProductive rs word n)) :
    ∀ (fuel : Nat) (stack : List Nat) (flags mask : List Bool), flags.length = V.length → mask.length = b.ruleids →
      (∀ q : Nat, flags[q]? = some true → ∃ n, V[q]? = some n ∧ MarkedReachable rs word init n) →
      (∀ q ∈ stack, ∃ n, V[q]? = some n ∧ MarkedReachable rs word init n) →
      (∃ q : Nat, V[q]? = some init ∧ (flags[q]? = some true ∨ q ∈ stack)) →
      (∀ r ∈ rs, (∃ q : Nat, V[q]? = some r.head ∧ flags[q]? = some true) → MarkedProductive rs word r.head → (∀ B ∈ effTail r, MarkedProductive rs word B) →
        ∀ A ∈ effTail r, ∃ q : Nat, V[q]? = some A ∧ (flags[q]? = some true ∨ q ∈ stack)) →
      (∀ i : Nat, mask[i]? = some true ↔ ∃ (k : Nat) (r : PMCFGRule N T W), rs[k]? = some r ∧ i ∈ List.range' (idOffset rs k) (idCount r) ∧
        (∃ q : Nat, V[q]? = some r.head ∧ flags[q]? = some true) ∧ MarkedProductive rs word r.head ∧ ∀ B ∈ effTail r, MarkedProductive rs word B) →
      stack.length + pot (b.td.map fun es => (es.map fun e => e.2.length).sum) flags ≤ fuel →
      ∃ mask', reachableLoop b productive fuel stack flags mask = some mask' ∧ mask'.length = b.ruleids ∧
        ∀ i : Nat, mask'[i]? = some true ↔ ∃ (k : Nat) (r : PMCFGRule N T W), rs[k]? = some r ∧ i ∈ List.range' (idOffset rs k) (idCount r) ∧ Kept rs word init r := by
  have final : ∀ (flags mask : List Bool), (∀ q : Nat, flags[q]? = some true → ∃ n, V[q]? = some n ∧ MarkedReachable rs word init n) →
      (∃ q : Nat, V[q]? = some init ∧ (flags[q]? = some true ∨ q ∈ ([] : List Nat))) →
      (∀ r ∈ rs, (∃ q : Nat, V[q]? = some r.head ∧ flags[q]? = some true) → MarkedProductive rs word r.head → (∀ B ∈ effTail r, MarkedProductive rs word B) →
        ∀ A ∈ effTail r, ∃ q : Nat, V[q]? = some A ∧ (flags[q]? = some true ∨ q ∈ ([] : List Nat))) →
      (∀ i : Nat, mask[i]? = some true ↔ ∃ (k : Nat) (r : PMCFGRule N T W), rs[k]? = some r ∧ i ∈ List.range' (idOffset rs k) (idCount r) ∧
        (∃ q : Nat, V[q]? = some r.head ∧ flags[q]? = some true) ∧ MarkedProductive rs word r.head ∧ ∀ B ∈ effTail r, MarkedProductive rs word B) →
      ∀ i : Nat, mask[i]? = some true ↔ ∃ (k : Nat) (r : PMCFGRule N T W), rs[k]? = some r ∧ i ∈ List.range' (idOffset rs k) (idCount r) ∧ Kept rs word init r := by
    intro flags mask hs hi hc hm i
    rw [hm]
    refine exists_congr fun k => exists_congr fun r => and_congr_right fun _ => and_congr_right fun _ => ?_
    have : (∃ q : Nat, V[q]? = some r.head ∧ flags[q]? = some true) ↔ MarkedReachable rs word init r.head := by
      constructor
      · rintro ⟨q, h1, h2⟩
        obtain ⟨n, h3, h4⟩ := hs q h2
        rw [h1, Option.some.injEq] at h3
        exact h3 ▸ h4
      · intro h
        generalize r.head = n at h
        induction h with
        | init => obtain ⟨q, h1, h2⟩ := hi; exact ⟨q, h1, by simpa using h2⟩
        | step h1 h2 h3 h4 h5 ih =>
          obtain ⟨q, g1, g2⟩ := hc _ h3 ih h2 h4 _ h5
          exact ⟨q, g1, by simpa using g2⟩
    rw [this]
    rfl
  intro fuel
  induction fuel with
  | zero =>
    intro stack flags mask hlen hml hs hst hi hc hm hfuel
    have : stack = [] := by
      cases stack with
      | nil => rfl
      | cons _ _ => simp at hfuel
    subst this
    exact ⟨mask, by simp [reachableLoop], hml, final flags mask hs hi hc hm⟩
  | succ fuel ih =>
    intro stack flags mask hlen hml hs hst hi hc hm hfuel
    cases stack with
    | nil => exact ⟨mask, by simp [reachableLoop], hml, final flags mask hs hi hc hm⟩
    | cons nt stack =>
      obtain ⟨n₀, hn₀, hr₀⟩ := hst nt (by simp)
      have hlt : nt < flags.length := hlen ▸ (List.getElem?_eq_some_iff.1 hn₀).1
      unfold reachableLoop
      cases hf : flags[nt]? with
      | none => rw [List.getElem?_eq_none_iff] at hf; omega
      | some f =>
        cases f with
        | true =>
          simp only
          refine ih stack flags mask hlen hml hs (fun q hq => hst q (List.mem_cons_of_mem _ hq)) ?_ ?_ hm (by simp at hfuel; omega)
          · obtain ⟨q, g1, g2⟩ := hi
            refine ⟨q, g1, ?_⟩
            rcases g2 with g | g
            · exact .inl g
            · rcases List.mem_cons.1 g with rfl | g
              · exact .inl hf
              · exact .inr g
          · intro r hr h1 h2 h3 A hA
            obtain ⟨q, g1, g2⟩ := hc r hr h1 h2 h3 A hA
            refine ⟨q, g1, ?_⟩
            rcases g2 with g | g
            · exact .inl g
            · rcases List.mem_cons.1 g with rfl | g
              · exact .inl hf
              · exact .inr g
        | false =>
          simp only
          have hset : ∀ q : Nat, (flags.set nt true)[q]? = some true ↔ q = nt ∨ flags[q]? = some true := by
            intro q
            rw [List.getElem?_set]
            by_cases hq : nt = q
            · subst hq
              simp [hlt]
            · simp [hq, Ne.symm hq]
          have hs' : ∀ q : Nat, (flags.set nt true)[q]? = some true → ∃ n, V[q]? = some n ∧ MarkedReachable rs word init n := by
            intro q hq
            rcases (hset q).1 hq with rfl | hq
            · exact ⟨n₀, hn₀, hr₀⟩
            · exact hs q hq
          have hlift : ∀ {q : Nat} {s : List Nat}, (∀ x ∈ stack, x ∈ s) → (flags[q]? = some true ∨ q ∈ nt :: stack) → (flags.set nt true)[q]? = some true ∨ q ∈ s := by
            intro q s hsub h
            rcases h with g | g
            · exact .inl ((hset q).2 (.inr g))
            · rcases List.mem_cons.1 g with rfl | g
              · exact .inl ((hset q).2 (.inl rfl))
              · exact .inr (hsub q g)
          have hnt : nt < V.length := (List.getElem?_eq_some_iff.1 hn₀).1
          obtain ⟨es, hes⟩ : ∃ es, b.td[nt]? = some es := ⟨_, List.getElem?_eq_getElem (by rw [hb.tdLen]; exact hnt)⟩
          have hpot := pot_set (b.td.map fun es => (es.map fun e => e.2.length).sum) flags nt (es.map fun e => e.2.length).sum
            (by rw [List.getElem?_map, hes]; rfl) hf
          -- the flag is set for exactly one more nonterminal
          have hhead : ∀ r : PMCFGRule N T W, (∃ q : Nat, V[q]? = some r.head ∧ (flags.set nt true)[q]? = some true) ↔
              (∃ q : Nat, V[q]? = some r.head ∧ flags[q]? = some true) ∨ r.head = n₀ := by
            intro r
            constructor
            · rintro ⟨q, h1, h2⟩
              rcases (hset q).1 h2 with rfl | h2
              · rw [hn₀, Option.some.injEq] at h1
                exact .inr h1.symm
              · exact .inl ⟨q, h1, h2⟩
            · rintro (⟨q, h1, h2⟩ | h)
              · exact ⟨q, h1, (hset q).2 (.inr h2)⟩
              · exact ⟨nt, h ▸ hn₀, (hset nt).2 (.inl rfl)⟩
          cases hpn : productive[nt]? with
          | none => rw [List.getElem?_eq_none_iff] at hpn; omega
          | some f =>
            have hpn' : f = true ↔ MarkedProductive rs word n₀ := by rw [← hp nt n₀ hn₀, hpn]; simp
            cases f with
            | false =>
              have hnp : ¬ MarkedProductive rs word n₀ := fun h => by simpa using hpn'.2 h
              simp only
              refine ih stack (flags.set nt true) mask (by simpa using hlen) hml hs' (fun q hq => hst q (List.mem_cons_of_mem _ hq)) ?_ ?_ ?_ ?_
              · obtain ⟨q, g1, g2⟩ := hi
                exact ⟨q, g1, hlift (fun _ h => h) g2⟩
              · intro r hr h1 h2 h3 A hA
                rcases (hhead r).1 h1 with h1 | h1
                · obtain ⟨q, g1, g2⟩ := hc r hr h1 h2 h3 A hA
                  exact ⟨q, g1, hlift (fun _ h => h) g2⟩
                · exact absurd (h1 ▸ h2) hnp
              · intro i
                rw [hm]
                refine exists_congr fun k => exists_congr fun r => and_congr_right fun _ => and_congr_right fun _ => ?_
                rw [hhead]
                constructor
                · exact fun h => ⟨.inl h.1, h.2⟩
                · rintro ⟨h1 | h1, h2, h3⟩
                  · exact ⟨h1, h2, h3⟩
                  · exact absurd (h1 ▸ h2) hnp
              · simp only [List.length_cons] at hfuel
                omega
            | true =>
              have hyp := hpn'.1 rfl
              simp only [hes]
              have htd : ∀ e ∈ es, _ := fun e he => hb.td nt es e hes he
              obtain ⟨mask', stack', g1, g2, g3, g4, g5⟩ := useRules_spec productive es mask stack (by
                intro e he
                obtain ⟨k, r, e1, e2, e3, e4⟩ := htd e he
                refine ⟨fun i hi => ?_, fun y hy => ?_⟩
                · rw [e3, List.mem_range'_1] at hi
                  have := idOffset_add_le e1
                  rw [hml, hb.ruleids]
                  omega
                · obtain ⟨n, _, h2⟩ := e4.1 y hy
                  rw [hpl]
                  exact (List.getElem?_eq_some_iff.1 h2).1)
              rw [g1]
              simp only
              have hcodes : ∀ {l : List Nat} {ns : List N}, Codes V l ns → ((∀ y ∈ l, productive[y]? = some true) ↔ ∀ B ∈ ns, MarkedProductive rs word B) := by
                intro l ns hcd
                constructor
                · intro h B hB
                  obtain ⟨y, e1, e2⟩ := hcd.2 B hB
                  exact (hp y B e2).1 (h y e1)
                · intro h y hy
                  obtain ⟨B, e1, e2⟩ := hcd.1 y hy
                  exact (hp y B e2).2 (h B e1)
              refine ih stack' (flags.set nt true) mask' (by simpa using hlen) (g2.trans hml) hs' ?_ ?_ ?_ ?_ ?_
              · intro q hq
                rcases (g5 q).1 hq with hq | ⟨e, he, h1, h2⟩
                · exact hst q (List.mem_cons_of_mem _ hq)
                · obtain ⟨k, r, e1, e2, e3, e4⟩ := htd e he
                  obtain ⟨A, h3, h4⟩ := e4.1 q h1
                  rw [hn₀, Option.some.injEq] at e2
                  exact ⟨A, h4, .step (r := r) (e2 ▸ hr₀) (e2 ▸ hyp) (List.mem_of_getElem? e1) ((hcodes e4).1 h2) h3⟩
              · obtain ⟨q, e1, e2⟩ := hi
                exact ⟨q, e1, hlift (fun x hx => (g5 x).2 (.inl hx)) e2⟩
              · intro r hr h1 h2 h3 A hA
                rcases (hhead r).1 h1 with h1 | h1
                · obtain ⟨q, e1, e2⟩ := hc r hr h1 h2 h3 A hA
                  exact ⟨q, e1, hlift (fun x hx => (g5 x).2 (.inl hx)) e2⟩
                · obtain ⟨k, hk⟩ := List.mem_iff_getElem?.1 hr
                  obtain ⟨q', e, l, e1, e2, e3, e4, e5⟩ := hb.td' k r hk
                  have hq' : q' = nt := nodup_index hb.nodup e3 (h1 ▸ hn₀)
                  subst hq'
                  rw [hes, Option.some.injEq] at e1
                  subst e1
                  obtain ⟨y, e6, e7⟩ := e5.2 A hA
                  exact ⟨y, e7, .inr ((g5 y).2 (.inr ⟨e, e2, e6, (hcodes e5).2 h3⟩))⟩
              · intro i
                rw [g4, hm]
                constructor
                · rintro (⟨k, r, h1, h2, h3, h4⟩ | ⟨e, he, h1, h2⟩)
                  · exact ⟨k, r, h1, h2, (hhead r).2 (.inl h3), h4⟩
                  · obtain ⟨k, r, e1, e2, e3, e4⟩ := htd e he
                    rw [hn₀, Option.some.injEq] at e2
                    exact ⟨k, r, e1, e3 ▸ h1, (hhead r).2 (.inr e2.symm), e2 ▸ hyp, (hcodes e4).1 h2⟩
                · rintro ⟨k, r, h1, h2, h3, h4, h5⟩
                  rcases (hhead r).1 h3 with h3 | h3
                  · exact .inl ⟨k, r, h1, h2, h3, h4, h5⟩
                  · obtain ⟨q', e, l, e1, e2, e3, e4, e5⟩ := hb.td' k r h1
                    have hq' : q' = nt := nodup_index hb.nodup e3 (h3 ▸ hn₀)
                    subst hq'
                    rw [hes, Option.some.injEq] at e1
                    subst e1
                    exact .inr ⟨e, e2, e4 ▸ h2, (hcodes e5).2 h5⟩
              · simp only [List.length_cons] at hfuel
                omega

/-- The filter for a word. -/
theorem build_spec {b : RuleMaskBuilder T} {V : List N} {rs : List (PMCFGRule N T W)} {init : N} (hb : b.Rep V rs) (hi : V[b.initial]? = some init)
    (word : List T) : ∃ mask, b.build word = some mask ∧ mask.length = idOffset rs rs.length ∧
      ∀ i : Nat, mask[i]? = some true ↔ ∃ (k : Nat) (r : PMCFGRule N T W), rs[k]? = some r ∧ i ∈ List.range' (idOffset rs k) (idCount r) ∧ Kept rs word init r := by
  have hfalse : ∀ (n q : Nat), (List.replicate n false)[q]? ≠ some true := by
    intro n q h
    rw [List.getElem?_replicate] at h
    split at h <;> simp at h
  have hstack : ∀ q, q ∈ b.initialStack word ↔ ∃ a ∈ word, q ∈ (b.terminal.get a).getD [] := by
    intro q
    unfold initialStack
    rw [List.mem_reverse, List.mem_flatMap]
  obtain ⟨flags, h1, h2, h3⟩ := productiveLoop_spec hb word ((b.initialStack word).length + (b.inner.map List.length).sum) (b.initialStack word)
    (List.replicate b.states false) (by simp [hb.states]) (fun q h => absurd h (hfalse _ q))
    (by
      intro q hq
      obtain ⟨a, g1, g2⟩ := (hstack q).1 hq
      obtain ⟨r, g3, g4, g5⟩ := hb.term a q g2
      exact ⟨r.head, g5, .term g3 g4 g1⟩)
    (fun a ha q hq => .inr ((hstack q).2 ⟨a, ha, hq⟩))
    (by
      intro r hr hne hall
      obtain ⟨n, hn⟩ := List.exists_mem_of_ne_nil _ hne
      obtain ⟨y, _, h⟩ := hall n hn
      exact absurd h (hfalse _ y))
    (Nat.add_le_add_left (pot_false _ _) _)
  obtain ⟨mask, g1, g2, g3⟩ := reachableLoop_spec hb word init h2 h3 (1 + (b.td.map fun es => (es.map fun e => e.2.length).sum).sum) [b.initial]
    (List.replicate b.states false) (List.replicate b.ruleids false) (by simp [hb.states]) (by simp) (fun q h => absurd h (hfalse _ q))
    (by
      intro q hq
      rw [List.mem_singleton] at hq
      exact ⟨init, hq ▸ hi, .init⟩)
    ⟨b.initial, hi, .inr (by simp)⟩
    (by
      rintro r hr ⟨q, _, h⟩
      exact absurd h (hfalse _ q))
    (by
      intro i
      constructor
      · exact fun h => absurd h (hfalse _ i)
      · rintro ⟨_, _, _, _, ⟨q, _, h⟩, _⟩
        exact absurd h (hfalse _ q))
    (by
      have := pot_false (b.td.map fun es => (es.map fun e => e.2.length).sum) b.states
      simp only [List.length_singleton]
      omega)
  refine ⟨mask, ?_, g2.trans hb.ruleids, g3⟩
  unfold build
  rw [h1]
  exact g1

end RuleMaskBuilder

end

end Rustomata
