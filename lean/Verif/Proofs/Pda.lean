import Verif.Proofs.Integerise

/-!
# Helper lemmas: push-down automata and finite state automata
-/

set_option linter.unusedSectionVars false
set_option linter.unusedSimpArgs false

namespace Rustomata
open Relator Spec

section push_down
variable {A B T W : Type _} [DecidableEq A] [DecidableEq B] [DecidableEq T]

theorem PushDown.replace_ok {p q cur new : List A} :
    PushDown.replace p cur new = .ok q ↔ ∃ below, p = below ++ cur.reverse ∧ q = below ++ new := by
  unfold PushDown.replace
  by_cases h : cur.reverse.isSuffixOf p
  · obtain ⟨b, hb⟩ := List.isSuffixOf_iff_suffix.1 h
    simp only [h, if_true, Except.ok.injEq]
    have ht : List.take (p.length - cur.length) p = b := by
      rw [← hb]
      simp
    rw [ht]
    constructor
    · rintro rfl; exact ⟨b, hb.symm, rfl⟩
    · rintro ⟨b', h1, rfl⟩
      rw [← hb] at h1
      rw [List.append_cancel_right h1]
  · simp only [h]
    constructor
    · intro h; simp at h
    · rintro ⟨b, h1, _⟩
      exact absurd (List.isSuffixOf_iff_suffix.2 ⟨b, h1.symm⟩) h

theorem PdInstr.mem_apply {i : PdInstr A} {p q : PushDown A} :
    q ∈ i.apply p ↔ ∃ below, p = below ++ i.current.reverse ∧ q = below ++ i.new := by
  unfold PdInstr.apply
  rw [← PushDown.replace_ok]
  cases PushDown.replace p i.current i.new with
  | ok r => simp [eq_comm]
  | error r => simp

/-- `apply` in closed form. -/
theorem PdInstr.apply_eq (i : PdInstr A) (p : PushDown A) :
    i.apply p = if _cur : i.current.isPrefixOf p.reverse = true then [(p.reverse.drop i.current.length).reverse ++ i.new] else [] := by
  unfold PdInstr.apply PushDown.replace
  have : i.current.reverse.isSuffixOf p = i.current.isPrefixOf p.reverse := by
    unfold List.isSuffixOf; simp
  rw [this]
  split
  · rename_i q h
    split at h
    · rename_i h1
      simp only [Except.ok.injEq] at h
      rw [dif_pos h1, ← h, List.drop_reverse, List.reverse_reverse]
    · simp at h
  · rename_i q h
    split at h
    · simp at h
    · rename_i h1
      rw [dif_neg h1]

/-- Related instructions. -/
def PdInstr.Rel (R : A → B → Prop) (x : PdInstr A) (y : PdInstr B) : Prop :=
  List.Forall₂ R x.current y.current ∧ List.Forall₂ R x.new y.new

theorem PdInstr.Rel.biUnique {R : A → B → Prop} (h : BiUnique R) : BiUnique (PdInstr.Rel R) := by
  constructor
  · rintro ⟨a, b⟩ ⟨c, d⟩ ⟨e, f⟩ ⟨h1, h2⟩ ⟨h3, h4⟩
    simp only at *
    rw [h.forall₂.1 h1 h3, h.forall₂.1 h2 h4]
  · rintro ⟨a, b⟩ ⟨c, d⟩ ⟨e, f⟩ ⟨h1, h2⟩ ⟨h3, h4⟩
    simp only at *
    rw [h.forall₂.2 h1 h3, h.forall₂.2 h2 h4]

theorem PdInstr.integLaws : IntegLaws (PdInstr.integ (A := A)) (fun i => PdInstr.Rel i.Rel) where
  mono h hr := ⟨hr.1.imp fun _ _ r => r.mono h, hr.2.imp fun _ _ r => r.mono h⟩
  unInteg := by
    intro i y x
    simp only [PdInstr.integ]
    constructor
    · intro h
      split at h
      · rename_i h1 h2
        simp only [Option.some.injEq] at h
        subst h
        exact ⟨Integeriser.unList_iff.1 h1, Integeriser.unList_iff.1 h2⟩
      · simp at h
    · rintro ⟨h1, h2⟩
      rw [Integeriser.unList_iff.2 h1, Integeriser.unList_iff.2 h2]
  biUnique h := PdInstr.Rel.biUnique (Integeriser.biUnique h)
  integerise := by
    intro i h x
    obtain ⟨h1, h2, h3⟩ := Integeriser.integeriseList_spec h x.current
    obtain ⟨h4, h5, h6⟩ := Integeriser.integeriseList_spec h1 x.new
    exact ⟨h4, h2.trans h5, h3.imp fun _ _ r => r.mono h5, h6⟩

theorem PushDown.integLaws : IntegLaws (PushDown.integ (A := A)) (fun i => List.Forall₂ i.Rel) where
  mono h hr := hr.imp fun _ _ r => r.mono h
  unInteg := Integeriser.unList_iff
  biUnique h := (Integeriser.biUnique h).forall₂
  integerise h x := Integeriser.integeriseList_spec h x

theorem PdInstr.apply_rel {R : A → B → Prop} (h : BiUnique R) {x : PdInstr A} {y : PdInstr B} (hxy : PdInstr.Rel R x y)
    {p : PushDown A} {q : PushDown B} (hpq : List.Forall₂ R p q) :
    List.Forall₂ (List.Forall₂ R) (x.apply p) (y.apply q) := by
  rw [PdInstr.apply_eq, PdInstr.apply_eq]
  have e := forall₂_isPrefixOf h hxy.1 (List.rel_reverse hpq)
  by_cases hc : x.current.isPrefixOf p.reverse = true
  · rw [dif_pos hc, dif_pos (by rw [← e]; exact hc), hxy.1.length_eq]
    exact .cons (List.rel_append (List.rel_reverse (List.forall₂_drop _ (List.rel_reverse hpq))) hxy.2) .nil
  · rw [dif_neg hc, dif_neg (by rw [← e]; exact hc)]
    exact .nil

end push_down

namespace PDA
variable {A T W : Type _} [DecidableEq A] [DecidableEq T]

/-- The part of a transition that identifies it. -/
def keyOf {I T W : Type _} (t : Transition I T W) : List T × I := (t.word, t.instruction)

/-- Sum of the weights of the transitions with a given key, in order. -/
def total [Zero W] [Add W] {I T : Type _} [DecidableEq I] [DecidableEq T] (ts : List (Transition I T W)) (k : List T × I) : W :=
  ((ts.filter fun t => keyOf t = k).map Transition.weight).foldl (· + ·) 0

theorem total_sum [AddMonoid W] {I T : Type _} [DecidableEq I] [DecidableEq T] (ts : List (Transition I T W)) (k : List T × I) :
    total ts k = ((ts.filter fun t => keyOf t = k).map Transition.weight).sum := by
  unfold total
  rw [List.sum_eq_foldl]

/-- Invariant of the loop in `new`. -/
structure Inv [Zero W] [Add W] (s : BuildState A T W) (done : List (Transition (PdInstr A) T W)) (done' : List (Transition (PdInstr Nat) Nat W)) : Prop where
  wfA : s.aInt.Wf
  wfT : s.tInt.Wf
  rel : List.Forall₂ (TrRel s.tInt.Rel (PdInstr.Rel s.aInt.Rel)) done' done
  nodup : (s.map.map Prod.fst).Nodup
  inner : ∀ p ∈ s.map, (p.2.map Prod.fst).Nodup
  mem : ∀ k key u, (∃ l, (k, l) ∈ s.map ∧ (key, u) ∈ l) ↔
    key.2.current[0]? = some k ∧ key ∈ done'.map keyOf ∧ u = total done' key

theorem total_snoc [Zero W] [Add W] {I T : Type _} [DecidableEq I] [DecidableEq T] (ts : List (Transition I T W)) (t : Transition I T W)
    (k : List T × I) : total (ts ++ [t]) k = if keyOf t = k then total ts k + t.weight else total ts k := by
  unfold total
  rw [List.filter_append]
  by_cases h : keyOf t = k <;> simp [h]

theorem total_of_not_mem [Zero W] [Add W] {I T : Type _} [DecidableEq I] [DecidableEq T] {ts : List (Transition I T W)} {k : List T × I}
    (h : k ∉ ts.map keyOf) : total ts k = 0 := by
  unfold total
  rw [List.filter_eq_nil_iff.2]
  · rfl
  · intro t ht
    simp only [decide_eq_true_eq]
    rintro rfl
    exact h (List.mem_map.2 ⟨t, ht, rfl⟩)

theorem upd_inner_mem [Zero W] [Add W] {L : List ((List Nat × PdInstr Nat) × W)} (hL : (L.map Prod.fst).Nodup) {k0 : List Nat × PdInstr Nat} {x : W}
    {key : List Nat × PdInstr Nat} {u : W} : (key, u) ∈ HMap.upd k0 0 (· + x) L ↔
      ((key, u) ∈ L ∧ key ≠ k0) ∨ (key = k0 ∧ ∃ v, (((k0, v) ∈ L) ∨ (k0 ∉ L.map Prod.fst ∧ v = 0)) ∧ u = v + x) :=
  HMap.mem_upd hL

theorem buildStep_inv [Zero W] [Add W] {s s' : BuildState A T W} {done : List (Transition (PdInstr A) T W)}
    {done' : List (Transition (PdInstr Nat) Nat W)} (h : Inv s done done') {t : Transition (PdInstr A) T W} (hs : buildStep s t = some s') :
    ∃ t', Inv s' (done ++ [t]) (done' ++ [t']) ∧ s.aInt.Le s'.aInt := by
  unfold buildStep at hs
  obtain ⟨h1, h2, h3, h4, h5⟩ := Transition.integerise_spec (W := W) PdInstr.integLaws h.wfT h.wfA t
  revert hs h1 h2 h3 h4 h5
  generalize Transition.integerise PdInstr.integ s.tInt s.aInt t = r
  obtain ⟨⟨tI, aI⟩, t'⟩ := r
  intro hs h1 h2 h3 h4 h5
  simp only at *
  split at hs
  · simp at hs
  rename_i a ha
  simp only [Option.some.injEq] at hs
  subst hs
  refine ⟨t', ⟨h2, h1, ?_, HMap.upd_nodup h.nodup, ?_, ?_⟩, h4⟩
  · exact List.rel_append (h.rel.imp fun _ _ hr => TrRel.mono PdInstr.integLaws h3 h4 hr) (.cons h5 .nil)
  · intro p hp
    simp only at hp
    rcases (HMap.mem_upd h.nodup).1 hp with ⟨h6, _⟩ | ⟨_, v, h6, h7⟩
    · exact h.inner p h6
    · rw [h7]
      apply HMap.upd_nodup
      rcases h6 with h6 | ⟨_, rfl⟩
      · exact h.inner _ h6
      · exact List.nodup_nil
  · intro k key u
    simp only
    have hk0 : keyOf t' = (t'.word, t'.instruction) := rfl
    -- inner lists of the old map
    have hold := h.mem
    -- the inner list that is updated
    have hv : ∃ v, (((a, v) ∈ s.map) ∨ (a ∉ s.map.map Prod.fst ∧ v = [])) := by
      by_cases ha' : a ∈ s.map.map Prod.fst
      · obtain ⟨⟨x, v⟩, hx, rfl⟩ := List.mem_map.1 ha'
        exact ⟨v, .inl hx⟩
      · exact ⟨[], .inr ⟨ha', rfl⟩⟩
    obtain ⟨v, hv⟩ := hv
    have hvnd : (v.map Prod.fst).Nodup := by
      rcases hv with hv | ⟨_, rfl⟩
      · exact h.inner _ hv
      · exact List.nodup_nil
    have hvuniq : ∀ v', (((a, v') ∈ s.map) ∨ (a ∉ s.map.map Prod.fst ∧ v' = [])) → v' = v := by
      intro v' hv'
      rcases hv with hv | ⟨hn, rfl⟩ <;> rcases hv' with hv' | ⟨hn', rfl⟩
      · have := List.inj_on_of_nodup_map h.nodup hv hv' rfl
        exact (Prod.mk.injEq _ _ _ _ ▸ this).2.symm
      · exact absurd (List.mem_map.2 ⟨_, hv, rfl⟩) hn'
      · exact absurd (List.mem_map.2 ⟨_, hv', rfl⟩) hn
      · rfl
    have hvmem : ∀ key u, (key, u) ∈ v ↔ key.2.current[0]? = some a ∧ key ∈ done'.map keyOf ∧ u = total done' key := by
      intro key u
      rw [← hold]
      constructor
      · intro hm
        rcases hv with hv | ⟨_, rfl⟩
        · exact ⟨v, hv, hm⟩
        · simp at hm
      · rintro ⟨l, hl, hm⟩
        rw [← hvuniq l (.inl hl)]; exact hm
    have hnew : (∃ l, (k, l) ∈ HMap.upd a [] (HMap.upd (t'.word, t'.instruction) 0 (· + t'.weight)) s.map ∧ (key, u) ∈ l) ↔
        (k ≠ a ∧ ∃ l, (k, l) ∈ s.map ∧ (key, u) ∈ l) ∨
        (k = a ∧ (key, u) ∈ HMap.upd (t'.word, t'.instruction) 0 (· + t'.weight) v) := by
      constructor
      · rintro ⟨l, hl, hm⟩
        rcases (HMap.mem_upd h.nodup).1 hl with ⟨h6, h7⟩ | ⟨h6, v', h7, h8⟩
        · exact .inl ⟨h7, l, h6, hm⟩
        · simp only at h6 h8
          rw [hvuniq v' h7] at h8
          exact .inr ⟨h6, h8 ▸ hm⟩
      · rintro (⟨h6, l, hl, hm⟩ | ⟨rfl, hm⟩)
        · exact ⟨l, (HMap.mem_upd h.nodup).2 (.inl ⟨hl, h6⟩), hm⟩
        · exact ⟨_, (HMap.mem_upd h.nodup).2 (.inr ⟨rfl, v, hv, rfl⟩), hm⟩
    rw [hnew, upd_inner_mem hvnd, hold k key u]
    rw [total_snoc, List.map_append, List.mem_append]
    simp only [List.map_cons, List.map_nil, List.mem_singleton, ← hk0]
    by_cases hkey : key = keyOf t'
    · subst hkey
      have hkc : (keyOf t').2.current[0]? = some a := ha
      simp only [hkc, Option.some.injEq, ne_eq, not_true_eq_false, and_false, or_true, true_and, if_true, false_or]
      constructor
      · rintro (⟨h6, h7, _⟩ | ⟨rfl, v', h6, rfl⟩)
        · exact absurd h7.symm h6
        · refine ⟨rfl, ?_⟩
          rcases h6 with h6 | ⟨h6, rfl⟩
          · rw [((hvmem _ _).1 h6).2.2]
          · rw [total_of_not_mem]
            intro hm
            exact h6 (List.mem_map.2 ⟨_, (hvmem _ _).2 ⟨hkc, hm, rfl⟩, rfl⟩)
      · rintro ⟨rfl, rfl⟩
        refine .inr ⟨rfl, total done' (keyOf t'), ?_, rfl⟩
        by_cases hm : keyOf t' ∈ done'.map keyOf
        · exact .inl ((hvmem _ _).2 ⟨hkc, hm, rfl⟩)
        · refine .inr ⟨?_, total_of_not_mem hm⟩
          intro h8
          obtain ⟨⟨x, y⟩, h9, h10⟩ := List.mem_map.1 h8
          simp only at h10
          subst h10
          exact hm ((hvmem _ _).1 h9).2.1
    · have hkey' : ¬ keyOf t' = key := fun e => hkey e.symm
      simp only [hkey, hkey', ne_eq, not_false_eq_true, and_true, false_and, or_false, if_false]
      rw [hvmem]
      constructor
      · rintro (⟨_, h6⟩ | ⟨rfl, h6⟩)
        · exact h6
        · exact h6
      · intro h6
        by_cases hka : k = a
        · subst hka; exact .inr ⟨rfl, h6⟩
        · exact .inl ⟨hka, h6⟩

theorem foldlM_inv [Zero W] [Add W] (ts : List (Transition (PdInstr A) T W)) {s s' : BuildState A T W} {done : List (Transition (PdInstr A) T W)}
    {done' : List (Transition (PdInstr Nat) Nat W)} (h : Inv s done done') (hs : ts.foldlM buildStep s = some s') :
    ∃ d, Inv s' (done ++ ts) d ∧ s.aInt.Le s'.aInt := by
  induction ts generalizing s done done' with
  | nil =>
    simp only [List.foldlM_nil, Option.pure_def, Option.some.injEq] at hs
    subst hs
    exact ⟨done', by simpa using h, .refl _⟩
  | cons t ts ih =>
    rw [List.foldlM_cons, Option.bind_eq_bind, Option.bind_eq_some_iff] at hs
    obtain ⟨s1, h1, h2⟩ := hs
    obtain ⟨t', h3, h4⟩ := buildStep_inv h h1
    obtain ⟨d, h5, h6⟩ := ih h3 h2
    exact ⟨d, by simpa using h5, h4.trans h6⟩

/-- `new` panics exactly on an empty `current_val`. -/
theorem foldlM_isSome [Zero W] [Add W] (ts : List (Transition (PdInstr A) T W)) (s : BuildState A T W)
    (h : ∀ t ∈ ts, t.instruction.current ≠ []) : (ts.foldlM buildStep s).isSome := by
  induction ts generalizing s with
  | nil => rfl
  | cons t ts ih =>
    rw [List.foldlM_cons]
    have : ∃ s1, buildStep s t = some s1 := by
      unfold buildStep
      have hne := h t (by simp)
      simp only [Transition.integerise, PdInstr.integ]
      cases hc : t.instruction.current with
      | nil => exact absurd hc hne
      | cons x xs => simp [Integeriser.integeriseList]
    obtain ⟨s1, h1⟩ := this
    rw [h1]
    exact ih s1 (fun t ht => h t (by simp [ht]))

theorem foldlM_none [Zero W] [Add W] (ts : List (Transition (PdInstr A) T W)) (s : BuildState A T W)
    {t : Transition (PdInstr A) T W} (ht : t ∈ ts) (h : t.instruction.current = []) : ts.foldlM buildStep s = none := by
  induction ts generalizing s with
  | nil => simp at ht
  | cons t0 ts ih =>
    rw [List.foldlM_cons]
    rcases List.mem_cons.1 ht with rfl | ht
    · have : buildStep s t = none := by
        unfold buildStep
        simp [Transition.integerise, PdInstr.integ, h, Integeriser.integeriseList]
      rw [this]; rfl
    · cases hb : buildStep s t0 with
      | none => rfl
      | some s1 => exact ih s1 ht

/-- Everything about a freshly built automaton. -/
structure Built [Zero W] [Add W] (P : PDA A T W) (ts : List (Transition (PdInstr A) T W)) (initial : PushDown A)
    (L : List (Transition (PdInstr A) T W)) : Prop where
  wfA : P.aInt.Wf
  wfT : P.tInt.Wf
  init : List.Forall₂ P.aInt.Rel P.initial initial
  list : List.Forall₂ (TrRel P.tInt.Rel (PdInstr.Rel P.aInt.Rel)) (P.table.flatMap Prod.snd) L
  nodupK : (P.table.map Prod.fst).Nodup
  keyed : ∀ k l, (k, l) ∈ P.table → ∀ t ∈ l, t.instruction.current[0]? = some k
  nodup : (L.map keyOf).Nodup
  mem : ∀ k, k ∈ L.map keyOf ↔ k ∈ ts.map keyOf
  weight : ∀ t ∈ L, t.weight = total ts (keyOf t)

theorem keyRel_biUnique {tI : Integeriser T} {aI : Integeriser A} (h1 : tI.Wf) (h2 : aI.Wf)
    {x y : List Nat × PdInstr Nat} {a b : List T × PdInstr A}
    (hx : List.Forall₂ tI.Rel x.1 a.1 ∧ PdInstr.Rel aI.Rel x.2 a.2) (hy : List.Forall₂ tI.Rel y.1 b.1 ∧ PdInstr.Rel aI.Rel y.2 b.2) :
    x = y ↔ a = b := by
  have u1 := (Integeriser.biUnique h1).forall₂
  have u2 := PdInstr.Rel.biUnique (Integeriser.biUnique h2)
  constructor
  · rintro rfl
    exact Prod.ext (u1.2 hx.1 hy.1) (u2.2 hx.2 hy.2)
  · rintro rfl
    exact Prod.ext (u1.1 hx.1 hy.1) (u2.1 hx.2 hy.2)

theorem new_built [Zero W] [Add W] {ts : List (Transition (PdInstr A) T W)} {initial : PushDown A} {P : PDA A T W}
    (h : new ts initial = some P) : ∃ L, P.listTransitions = some L ∧ Built P ts initial L := by
  unfold new at h
  obtain ⟨h1, h2, h3⟩ := PushDown.integLaws.integerise (Integeriser.wf_new (A := A)) initial
  revert h h1 h2 h3
  generalize PushDown.integ.integerise Integeriser.new initial = r
  obtain ⟨aI, ini⟩ := r
  intro h h1 h2 h3
  simp only at *
  split at h
  · simp at h
  rename_i s hs
  simp only [Option.some.injEq] at h
  have hinv0 : Inv (⟨aI, Integeriser.new, []⟩ : BuildState A T W) [] [] :=
    ⟨h1, Integeriser.wf_new, .nil, List.nodup_nil, by simp, by simp⟩
  obtain ⟨d, hinv, hle⟩ := foldlM_inv ts hinv0 hs
  rw [List.nil_append] at hinv
  simp only at hle
  -- the flat list of internal transitions
  have hflat : ∀ t' : Transition (PdInstr Nat) Nat W, t' ∈ P.table.flatMap Prod.snd ↔
      ∃ k, t'.instruction.current[0]? = some k ∧ keyOf t' ∈ d.map keyOf ∧ t'.weight = total d (keyOf t') := by
    intro t'
    rw [← h]
    simp only [List.mem_flatMap, List.mem_map]
    constructor
    · rintro ⟨_, ⟨⟨k, l⟩, hl, rfl⟩, hm⟩
      obtain ⟨⟨key, u⟩, hm2, rfl⟩ := List.mem_map.1 hm
      have := (hinv.mem k key u).1 ⟨l, hl, hm2⟩
      exact ⟨k, this.1, this.2.1 |> List.mem_map.1, this.2.2⟩
    · rintro ⟨k, h4, h5, h6⟩
      obtain ⟨l, hl, hm⟩ := (hinv.mem k (keyOf t') t'.weight).2 ⟨h4, List.mem_map.2 h5, h6⟩
      exact ⟨_, ⟨_, hl, rfl⟩, List.mem_map.2 ⟨_, hm, rfl⟩⟩
  have hnd : ((P.table.flatMap Prod.snd).map keyOf).Nodup := by
    have e : (P.table.flatMap Prod.snd).map keyOf = s.map.flatMap fun p => p.2.map Prod.fst := by
      rw [← h]
      simp only [List.flatMap_map, List.map_flatMap, List.map_map]
      rfl
    rw [e, List.nodup_flatMap]
    refine ⟨fun p hp => hinv.inner p hp, ?_⟩
    have hp := List.pairwise_map.1 hinv.nodup
    refine hp.imp_of_mem ?_
    intro p q hp hq hpq key hk1 hk2
    obtain ⟨⟨_, u⟩, hu, rfl⟩ := List.mem_map.1 hk1
    obtain ⟨⟨key, u'⟩, hu', e⟩ := List.mem_map.1 hk2
    simp only at e
    subst e
    have e1 := ((hinv.mem p.1 _ _).1 ⟨p.2, hp, hu⟩).1
    have e2 := ((hinv.mem q.1 _ _).1 ⟨q.2, hq, hu'⟩).1
    rw [e1] at e2
    exact hpq (Option.some.inj e2)
  have hwfA : P.aInt.Wf := by rw [← h]; exact hinv.wfA
  have hwfT : P.tInt.Wf := by rw [← h]; exact hinv.wfT
  have hrel : List.Forall₂ (TrRel P.tInt.Rel (PdInstr.Rel P.aInt.Rel)) d ts := by rw [← h]; exact hinv.rel
  -- each internal transition has a counterpart
  have hex : ∀ t' ∈ P.table.flatMap Prod.snd, ∃ t, TrRel P.tInt.Rel (PdInstr.Rel P.aInt.Rel) t' t := by
    intro t' ht'
    obtain ⟨k, _, h5, _⟩ := (hflat t').1 ht'
    obtain ⟨t0, h6, h7⟩ := List.mem_map.1 h5
    obtain ⟨t, _, h8⟩ := forall₂_exists_right hrel h6
    have hk := Prod.mk.inj h7
    exact ⟨⟨t.word, t'.weight, t.instruction⟩, by rw [← hk.1]; exact h8.word, rfl, by rw [← hk.2]; exact h8.instruction⟩
  have hlist : ∃ L, List.Forall₂ (TrRel P.tInt.Rel (PdInstr.Rel P.aInt.Rel)) (P.table.flatMap Prod.snd) L := by
    obtain ⟨L, hL⟩ := forall₂_exists_list (R := fun a b => TrRel P.tInt.Rel (PdInstr.Rel P.aInt.Rel) b a) (l' := P.table.flatMap Prod.snd) hex
    exact ⟨L, hL.flip⟩
  obtain ⟨L, hL⟩ := hlist
  have hkeys : List.Forall₂ (fun x a => List.Forall₂ P.tInt.Rel x.1 a.1 ∧ PdInstr.Rel P.aInt.Rel x.2 a.2)
      ((P.table.flatMap Prod.snd).map keyOf) (L.map keyOf) := by
    refine List.rel_map ?_ hL
    intro a b hab
    exact ⟨hab.word, hab.instruction⟩
  have hkeysd : List.Forall₂ (fun x a => List.Forall₂ P.tInt.Rel x.1 a.1 ∧ PdInstr.Rel P.aInt.Rel x.2 a.2)
      (d.map keyOf) (ts.map keyOf) := by
    refine List.rel_map ?_ hrel
    intro a b hab
    exact ⟨hab.word, hab.instruction⟩
  have htotal : ∀ x a, (List.Forall₂ P.tInt.Rel x.1 a.1 ∧ PdInstr.Rel P.aInt.Rel x.2 a.2) → total d x = total ts a := by
    intro x a hxa
    unfold total
    congr 1
    clear hkeysd hinv hs hflat hinv0
    induction hrel with
    | nil => rfl
    | cons h1 _ ih =>
      rename_i y b l1 l2 _
      have hk := keyRel_biUnique hwfT hwfA (x := keyOf y) (a := keyOf b) ⟨h1.word, h1.instruction⟩ hxa
      simp only [List.filter_cons, decide_eq_true_eq]
      by_cases hc : keyOf y = x
      · rw [if_pos hc, if_pos (hk.1 hc), List.map_cons, List.map_cons, ih, h1.weight]
      · rw [if_neg hc, if_neg (fun e => hc (hk.2 e)), ih]
  have hmem : ∀ k, k ∈ L.map keyOf ↔ k ∈ ts.map keyOf := by
    intro k
    constructor
    · intro hk
      obtain ⟨x, hx, hr⟩ := forall₂_exists_left hkeys hk
      obtain ⟨t', ht', rfl⟩ := List.mem_map.1 hx
      obtain ⟨_, _, h5, _⟩ := (hflat t').1 ht'
      obtain ⟨a, ha, hr'⟩ := forall₂_exists_right hkeysd h5
      rw [(keyRel_biUnique hwfT hwfA hr hr').1 rfl]; exact ha
    · intro hk
      obtain ⟨x, hx, hr⟩ := forall₂_exists_left hkeysd hk
      -- the current value is not empty
      have hne : ∃ k0, x.2.current[0]? = some k0 := by
        obtain ⟨t, ht, rfl⟩ := List.mem_map.1 hk
        have h7 : t.instruction.current ≠ [] := by
          intro e
          rw [foldlM_none ts _ ht e] at hs
          simp at hs
        have h8 := hr.2.1.length_eq
        cases hc : x.2.current with
        | nil =>
          rw [hc] at h8
          exact absurd (List.length_eq_zero_iff.1 h8.symm) h7
        | cons y ys => exact ⟨y, rfl⟩
      obtain ⟨k0, hk0⟩ := hne
      have h9 : (⟨x.1, total d x, x.2⟩ : Transition (PdInstr Nat) Nat W) ∈ P.table.flatMap Prod.snd :=
        (hflat _).2 ⟨k0, hk0, hx, rfl⟩
      obtain ⟨b, hb, hr'⟩ := forall₂_exists_right hkeys (List.mem_map.2 ⟨_, h9, rfl⟩)
      rw [(keyRel_biUnique hwfT hwfA hr hr').1 rfl]; exact hb
  refine ⟨L, ?_, ⟨hwfA, hwfT, ?_, hL, ?_, ?_, ?_, hmem, ?_⟩⟩
  · unfold listTransitions
    rw [mapM_eq_some_iff]
    exact hL.imp fun _ _ hr => (Transition.unInteg_iff PdInstr.integLaws).2 hr
  · rw [← h]
    exact h3.imp fun _ _ hr => hr.mono hle
  · rw [← h]
    simp only [List.map_map]
    exact hinv.nodup
  · intro k l hl t ht
    rw [← h] at hl
    simp only [List.mem_map, Prod.mk.injEq] at hl
    obtain ⟨⟨k', l'⟩, hl', rfl, rfl⟩ := hl
    obtain ⟨⟨key, u⟩, hm, rfl⟩ := List.mem_map.1 ht
    exact ((hinv.mem k' key u).1 ⟨l', hl', hm⟩).1
  · rw [List.nodup_iff_pairwise_ne] at hnd ⊢
    clear hflat hex htotal hmem hkeysd
    revert hkeys hnd
    generalize (P.table.flatMap Prod.snd).map keyOf = K1
    generalize L.map keyOf = K2
    intro hnd hk
    induction hk with
    | nil => exact .nil
    | cons h1 h2 ih =>
      rw [List.pairwise_cons] at hnd ⊢
      refine ⟨?_, ih hnd.2⟩
      intro b hb e
      obtain ⟨x, hx, hr⟩ := forall₂_exists_left h2 hb
      exact hnd.1 x hx ((keyRel_biUnique hwfT hwfA h1 hr).2 e)
  · intro t ht
    obtain ⟨t', ht', hr⟩ := forall₂_exists_left hL ht
    obtain ⟨_, _, _, h6⟩ := (hflat t').1 ht'
    rw [← hr.weight, h6]
    exact htotal _ _ ⟨hr.word, hr.instruction⟩

/-- What a user sees of a push-down automaton with the given transitions and initial store. -/
def device (L : List (Transition (PdInstr A) T W)) (initial : PushDown A) : Device (PushDown A) (PdInstr A) T W where
  apply := PdInstr.apply
  transitions := L
  initial := initial
  accepts p := p.length == 1

theorem Built.represents [Zero W] [Add W] {P : PDA A T W} {ts L : List (Transition (PdInstr A) T W)} {initial : PushDown A}
    (h : Built P ts initial L) :
    Represents P.automaton (device L initial) P.terminalToInt P.itemMap P.tInt.Rel (List.Forall₂ P.aInt.Rel) (PdInstr.Rel P.aInt.Rel) where
  uT := Integeriser.biUnique h.wfT
  uS := (Integeriser.biUnique h.wfA).forall₂
  uI := PdInstr.Rel.biUnique (Integeriser.biUnique h.wfA)
  apply := fun i i' s s' hi hs => PdInstr.apply_rel (Integeriser.biUnique h.wfA) hi hs
  transitions := h.list
  initial := h.init
  terminal := by
    intro c c' hc
    simp only [automaton, device, PushDown.isBottom, Bool.and_eq_true, List.isEmpty_iff, beq_iff_eq]
    rw [hc.storage.length_eq]
    have := hc.word.length_eq
    constructor
    · rintro ⟨h1, h2⟩
      rw [h1] at this
      exact ⟨List.length_eq_zero_iff.1 this.symm, h2⟩
    · rintro ⟨h1, h2⟩
      rw [h1] at this
      exact ⟨List.length_eq_zero_iff.1 this, h2⟩
  toInt := fun _ _ => Integeriser.findKey_some h.wfT
  itemMap := fun _ _ => itemMap_iff PdInstr.integLaws PushDown.integLaws

theorem Built.coherent [Zero W] [Add W] [Mul W] {P : PDA A T W} {ts L : List (Transition (PdInstr A) T W)} {initial : PushDown A}
    (h : Built P ts initial L) : P.automaton.Coherent where
  nodup := h.nodupK
  key := by
    intro k l hl t ht c c' hst k' hk
    have h1 := h.keyed k l hl t ht
    have h2 := hst.storage
    obtain ⟨below, h3, _⟩ := PdInstr.mem_apply.1 h2
    simp only [automaton, PushDown.currentSymbol] at hk
    cases hc : t.instruction.current with
    | nil => rw [hc] at h1; simp at h1
    | cons x xs =>
      rw [hc] at h1 h3
      simp only [List.getElem?_cons_zero, Option.some.injEq] at h1
      subst h1
      rw [h3] at hk
      simpa using hk.symm

end PDA

/-! ### tables without merging -/

section buildTable
variable {A T I J W : Type _} [DecidableEq A] [DecidableEq T] {Z : Integerisable A I J} {RI : Integeriser A → J → I → Prop}

theorem HMap.upd_flat {K V : Type _} [DecidableEq K] (k : K) (x : V) (m : List (K × List V)) :
    ((HMap.upd k [] (x :: ·) m).flatMap Prod.snd).Perm (x :: m.flatMap Prod.snd) := by
  induction m with
  | nil => simp [HMap.upd]
  | cons p m ih =>
    obtain ⟨k', l⟩ := p
    unfold HMap.upd
    split
    · simp
    · simp only [List.flatMap_cons]
      exact (ih.append_left l).trans List.perm_middle

theorem HMap.upd_keyed {V : Type _} {key : V → Nat} {x : V} {m : List (Nat × List V)} (hnd : (m.map Prod.fst).Nodup)
    (h : ∀ k l, (k, l) ∈ m → ∀ t ∈ l, key t = k) : ∀ k l, (k, l) ∈ HMap.upd (key x) [] (x :: ·) m → ∀ t ∈ l, key t = k := by
  intro k l hl t ht
  rcases (HMap.mem_upd hnd).1 hl with ⟨h1, _⟩ | ⟨h1, v, h2, h3⟩
  · exact h k l h1 t ht
  · simp only at h1 h3
    subst h1 h3
    rcases List.mem_cons.1 ht with rfl | ht
    · rfl
    · rcases h2 with h2 | ⟨_, rfl⟩
      · exact h _ _ h2 t ht
      · simp at ht

theorem buildTable_spec (hZ : IntegLaws Z RI) (key : J → Nat) (ts : List (Transition I T W)) {tI : Integeriser T} {aI : Integeriser A}
    {m : List (Nat × List (Transition J Nat W))} {done : List (Transition I T W)} {done' : List (Transition J Nat W)}
    (ht : tI.Wf) (ha : aI.Wf) (hnd : (m.map Prod.fst).Nodup) (hk : ∀ k l, (k, l) ∈ m → ∀ t ∈ l, key t.instruction = k)
    (hrel : List.Forall₂ (TrRel tI.Rel (RI aI)) done' done) (hp : (m.flatMap Prod.snd).Perm done') :
    let b := buildTable Z key tI aI m ts
    b.1.Wf ∧ b.2.1.Wf ∧ tI.Le b.1 ∧ aI.Le b.2.1 ∧ (b.2.2.map Prod.fst).Nodup ∧
      (∀ k l, (k, l) ∈ b.2.2 → ∀ t ∈ l, key t.instruction = k) ∧
      ∃ d, List.Forall₂ (TrRel b.1.Rel (RI b.2.1)) d (ts.reverse ++ done) ∧ (b.2.2.flatMap Prod.snd).Perm d := by
  induction ts generalizing tI aI m done done' with
  | nil => exact ⟨ht, ha, .refl _, .refl _, hnd, hk, done', hrel, hp⟩
  | cons t ts ih =>
    obtain ⟨h1, h2, h3, h4, h5⟩ := Transition.integerise_spec (W := W) hZ ht ha t
    simp only [buildTable]
    have := ih (m := HMap.upd (key (Transition.integerise Z tI aI t).2.instruction) [] ((Transition.integerise Z tI aI t).2 :: ·) m)
      (done := t :: done) (done' := (Transition.integerise Z tI aI t).2 :: done') h1 h2 (HMap.upd_nodup hnd)
      (HMap.upd_keyed (key := fun t : Transition J Nat W => key t.instruction) hnd hk)
      (.cons h5 (hrel.imp fun _ _ hr => TrRel.mono hZ h3 h4 hr))
      ((HMap.upd_flat _ _ _).trans (hp.cons _))
    obtain ⟨g1, g2, g3, g4, g5, g6, d, g7, g8⟩ := this
    exact ⟨g1, g2, h3.trans g3, h4.trans g4, g5, g6, d, by simpa using g7, g8⟩

/-- The list of outer transitions of a table: a permutation of the given ones. -/
theorem buildTable_list (hZ : IntegLaws Z RI) (key : J → Nat) (ts : List (Transition I T W)) {aI : Integeriser A} (ha : aI.Wf) :
    let b := buildTable Z key (Integeriser.new : Integeriser T) aI [] ts
    b.1.Wf ∧ b.2.1.Wf ∧ aI.Le b.2.1 ∧ (b.2.2.map Prod.fst).Nodup ∧
      (∀ k l, (k, l) ∈ b.2.2 → ∀ t ∈ l, key t.instruction = k) ∧
      ∃ L : List (Transition I T W), List.Forall₂ (TrRel b.1.Rel (RI b.2.1)) (b.2.2.flatMap Prod.snd) L ∧ L.Perm ts := by
  have := buildTable_spec (done := []) (done' := []) hZ key ts (Integeriser.wf_new (A := T)) ha (m := []) List.nodup_nil (by simp) .nil (by simp)
  obtain ⟨g1, g2, _, g4, g5, g6, d, g7, g8⟩ := this
  refine ⟨g1, g2, g4, g5, g6, ?_⟩
  rw [List.append_nil] at g7
  have : Relation.Comp List.Perm (List.Forall₂ (TrRel _ _)) _ _ := ⟨d, g8, g7⟩
  rw [← List.forall₂_comp_perm_eq_perm_comp_forall₂] at this
  obtain ⟨L, h1, h2⟩ := this
  exact ⟨L, h1, h2.trans (List.reverse_perm ts)⟩

end buildTable

/-! ### finite state automata -/

section fsa
variable {Q Q' T W : Type _} [DecidableEq Q] [DecidableEq Q'] [DecidableEq T]

def FsInstr.Rel (R : Q → Q' → Prop) (x : FsInstr Q) (y : FsInstr Q') : Prop := R x.source y.source ∧ R x.target y.target

theorem FsInstr.Rel.biUnique {R : Q → Q' → Prop} (h : BiUnique R) : BiUnique (FsInstr.Rel R) := by
  constructor
  · rintro ⟨a, b⟩ ⟨c, d⟩ ⟨e, f⟩ ⟨h1, h2⟩ ⟨h3, h4⟩
    simp only at *
    rw [h.1 h1 h3, h.1 h2 h4]
  · rintro ⟨a, b⟩ ⟨c, d⟩ ⟨e, f⟩ ⟨h1, h2⟩ ⟨h3, h4⟩
    simp only at *
    rw [h.2 h1 h3, h.2 h2 h4]

theorem FsInstr.integLaws : IntegLaws (FsInstr.integ (Q := Q)) (fun i => FsInstr.Rel i.Rel) where
  mono h hr := ⟨hr.1.mono h, hr.2.mono h⟩
  unInteg := by
    intro i y x
    simp only [FsInstr.integ]
    constructor
    · intro h
      split at h
      · rename_i h1 h2
        simp only [Option.some.injEq] at h
        subst h
        exact ⟨h1, h2⟩
      · simp at h
    · rintro ⟨h1, h2⟩
      have h1' : i.findValue y.source = some x.source := h1
      have h2' : i.findValue y.target = some x.target := h2
      rw [h1', h2']
  biUnique h := FsInstr.Rel.biUnique (Integeriser.biUnique h)
  integerise := by
    intro i h x
    obtain ⟨h1, h2, h3⟩ := Integeriser.integerise_spec h x.source
    obtain ⟨h4, h5, h6⟩ := Integeriser.integerise_spec h1 x.target
    exact ⟨h4, h2.trans h5, h3.mono h5, h6⟩

theorem stateInteg_laws : IntegLaws (stateInteg (Q := Q)) Integeriser.Rel where
  mono h hr := hr.mono h
  unInteg := Iff.rfl
  biUnique h := Integeriser.biUnique h
  integerise h x := Integeriser.integerise_spec h x

theorem FsInstr.apply_rel {R : Q → Q' → Prop} (h : BiUnique R) {x : FsInstr Q} {y : FsInstr Q'} (hxy : FsInstr.Rel R x y)
    {p : Q} {q : Q'} (hpq : R p q) : List.Forall₂ R (x.apply p) (y.apply q) := by
  unfold FsInstr.apply
  have : x.source = p ↔ y.source = q :=
    ⟨fun e => h.2 hxy.1 (by rw [e]; exact hpq), fun e => h.1 hxy.1 (by rw [e]; exact hpq)⟩
  by_cases hc : x.source = p
  · rw [if_pos hc, if_pos (this.1 hc)]; exact .cons hxy.2 .nil
  · rw [if_neg hc, if_neg (fun e => hc (this.2 e))]; exact .nil

namespace FSA

/-- What a user sees of a finite state automaton. -/
def device (L : List (Transition (FsInstr Q) T W)) (initial : Q) (finals : List Q) : Device Q (FsInstr Q) T W where
  apply := FsInstr.apply
  transitions := L
  initial := initial
  accepts q := decide (q ∈ finals)

theorem new_represents (ts : List (Transition (FsInstr Q) T W)) (initial : Q) (finals : List Q) :
    ∃ L, (new ts initial finals).listTransitions = some L ∧ L.Perm ts ∧ (new ts initial finals).initialState = some initial ∧
      Represents (new ts initial finals).automaton (device L initial finals) (new ts initial finals).tInt.findKey
        (itemMap FsInstr.integ stateInteg (new ts initial finals).tInt (new ts initial finals).qInt)
        (new ts initial finals).tInt.Rel (new ts initial finals).qInt.Rel (FsInstr.Rel (new ts initial finals).qInt.Rel) := by
  obtain ⟨a1, a2, a3⟩ := Integeriser.integerise_spec (Integeriser.wf_new (A := Q)) initial
  obtain ⟨b1, b2, b3⟩ := Integeriser.integeriseList_spec a1 finals
  obtain ⟨g1, g2, g3, g4, g5, L, g6, g7⟩ := buildTable_list (T := T) (W := W) FsInstr.integLaws FsInstr.source ts b1
  refine ⟨L, ?_, g7, (a3.mono b2).mono g3, ?_⟩
  · unfold listTransitions
    rw [mapM_eq_some_iff]
    exact g6.imp fun _ _ hr => (Transition.unInteg_iff FsInstr.integLaws).2 hr
  · refine ⟨Integeriser.biUnique g1, Integeriser.biUnique g2, FsInstr.Rel.biUnique (Integeriser.biUnique g2),
      fun i i' s s' hi hs => FsInstr.apply_rel (Integeriser.biUnique g2) hi hs, g6, (a3.mono b2).mono g3, ?_,
      fun _ _ => Integeriser.findKey_some g1, fun _ _ => itemMap_iff FsInstr.integLaws stateInteg_laws⟩
    intro c c' hc
    have hlen := hc.word.length_eq
    have hw : c.word = [] ↔ c'.word = [] := by
      rw [← List.length_eq_zero_iff, ← List.length_eq_zero_iff, hlen]
    simp only [automaton, device, Bool.and_eq_true, List.isEmpty_iff, hw, decide_eq_true_eq, and_congr_right_iff]
    intro _
    have hfin : List.Forall₂ (new ts initial finals).qInt.Rel (new ts initial finals).finals finals :=
      b3.imp fun _ _ hr => hr.mono g3
    constructor
    · intro h
      obtain ⟨b, hb, hr⟩ := forall₂_exists_right hfin h
      rw [(Integeriser.biUnique g2).2 hc.storage hr]; exact hb
    · intro h
      obtain ⟨b, hb, hr⟩ := forall₂_exists_left hfin h
      rw [(Integeriser.biUnique g2).1 hc.storage hr]; exact hb

theorem new_coherent [Mul W] (ts : List (Transition (FsInstr Q) T W)) (initial : Q) (finals : List Q) :
    (new ts initial finals).automaton.Coherent := by
  obtain ⟨a1, a2, a3⟩ := Integeriser.integerise_spec (Integeriser.wf_new (A := Q)) initial
  obtain ⟨b1, b2, b3⟩ := Integeriser.integeriseList_spec a1 finals
  obtain ⟨g1, g2, g3, g4, g5, _⟩ := buildTable_list (T := T) (W := W) FsInstr.integLaws FsInstr.source ts b1
  refine ⟨g4, ?_⟩
  intro k l hl t ht c c' hst k' hk
  have h1 := g5 k l hl t ht
  have h2 : c'.storage ∈ t.instruction.apply c.storage := hst.storage
  unfold FsInstr.apply at h2
  split at h2
  · rename_i h3
    have : c.storage = k' := by simpa [automaton] using hk
    rw [← this, ← h3, h1]
  · simp at h2

end FSA
end fsa

end Rustomata
