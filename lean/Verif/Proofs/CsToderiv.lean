import Verif.Proofs.CsWords
import Verif.Proofs.CsUseful
import Verif.Model.CsParse

/-!
# Bracket words and derivations
-/

namespace Rustomata
open Spec

/-! ### `toderiv` collects the visited rules -/

/-- Inserts rules at positions; fails if there is already a different rule. -/
def insertAll : GornTree Nat → List (List Nat × Nat) → Option (GornTree Nat)
  | m, [] => some m
  | m, (p, r) :: vs =>
    match m.get p with
    | none => insertAll (m.insert p r) vs
    | some r' => if r' ≠ r then none else insertAll m vs

theorem insertAll_append (m : GornTree Nat) (vs vs' : List (List Nat × Nat)) : insertAll m (vs ++ vs') = (insertAll m vs).bind fun m' => insertAll m' vs' := by
  induction vs generalizing m with
  | nil => rfl
  | cons x vs ih =>
    obtain ⟨p, r⟩ := x
    simp only [List.cons_append, insertAll]
    split
    · exact ih _
    · split
      · rfl
      · exact ih _

theorem insertAll_cons (m : GornTree Nat) (x : List Nat × Nat) (vs : List (List Nat × Nat)) :
    insertAll m (x :: vs) = (insertAll m [x]).bind fun m' => insertAll m' vs := insertAll_append m [x] vs

theorem toderivLoop_component (rid c : Nat) (v : List (Bracket BracketContent)) (m : GornTree Nat) (p : List Nat) :
    toderivLoop (.open_ (.component rid c) :: v) m p = (insertAll m [(p, rid)]).bind fun m' => toderivLoop v m' p := by
  simp only [toderivLoop, insertAll]
  cases m.get p with
  | none => rfl
  | some r' => simp only; split <;> rfl

theorem toderivLoop_parts (P : Parts) : ∀ (rid : Nat) (v : List (Bracket BracketContent)) (m : GornTree Nat) (p : List Nat),
    toderivLoop (P.word rid ++ v) m p = (insertAll m (P.visits p)).bind fun m' => toderivLoop v m' p := by
  induction P with
  | nil => intro rid v m p; rfl
  | term P ih => intro rid v m p; exact ih rid v m p
  | part i j r P₁ P₂ ih₁ ih₂ =>
    intro rid v m p
    simp only [Spec.Parts.word, Spec.Parts.visits, List.cons_append, List.append_assoc]
    rw [toderivLoop, toderivLoop_component, insertAll_cons m (p ++ [i], r) (_ ++ _)]
    cases insertAll m [(p ++ [i], r)] with
    | none => rfl
    | some m₁ =>
      simp only [Option.bind_some]
      rw [ih₁, insertAll_append]
      cases insertAll m₁ (P₁.visits (p ++ [i])) with
      | none => rfl
      | some m₂ =>
        simp only [Option.bind_some]
        rw [toderivLoop, toderivLoop, List.dropLast_concat, ih₂]
        all_goals simp

theorem toderivLoop_compWord (rid c : Nat) (P : Parts) : toderivLoop (compWord rid c P) [] [] = insertAll [] (([], rid) :: P.visits []) := by
  unfold compWord
  rw [List.cons_append, toderivLoop_component, insertAll_cons _ _ (P.visits [])]
  cases insertAll [] [([], rid)] with
  | none => rfl
  | some m =>
    simp only [Option.bind_some]
    rw [toderivLoop_parts]
    cases insertAll m (P.visits []) with
    | none => rfl
    | some m' => simp [toderivLoop]

/-- All rules at one position are equal. -/
def Functional (vs : List (List Nat × Nat)) : Prop := ∀ p r r', (p, r) ∈ vs → (p, r') ∈ vs → r = r'

theorem GornTree.mem_insert {V : Type _} {m : GornTree V} {k : List Nat} {v : V} {x : List Nat × V} (h : x ∈ m.insert k v) : x = (k, v) ∨ x ∈ m := by
  induction m with
  | nil => simpa [GornTree.insert] using h
  | cons p m ih =>
    obtain ⟨k0, v0⟩ := p
    unfold GornTree.insert at h
    split at h
    · rcases List.mem_cons.1 h with h | h
      · exact .inl h
      · exact .inr (by simp [h])
    · split at h
      · rcases List.mem_cons.1 h with h | h
        · exact .inl h
        · exact .inr h
      · rcases List.mem_cons.1 h with h | h
        · exact .inr (by simp [h])
        · exact (ih h).imp id fun h => by simp [h]

theorem insertAll_spec (vs : List (List Nat × Nat)) : ∀ m : GornTree Nat, 
    match insertAll m vs with
    | none => ∃ p r r', (p, r) ∈ vs ∧ r ≠ r' ∧ (m.get p = some r' ∨ (p, r') ∈ vs)
    | some m' => (∀ p r, m'.get p = some r ↔ m.get p = some r ∨ (p, r) ∈ vs) ∧ (∀ x ∈ m', x ∈ m ∨ x ∈ vs) ∧ (m.Sorted → m'.Sorted) := by
  induction vs with
  | nil => intro m; simp [insertAll]
  | cons x vs ih =>
    intro m
    obtain ⟨p, r⟩ := x
    simp only [insertAll]
    cases hg : m.get p with
    | none =>
      simp only
      have := ih (m.insert p r)
      cases h : insertAll (m.insert p r) vs with
      | none =>
        rw [h] at this
        obtain ⟨p', r₁, r₂, h1, h2, h3⟩ := this
        rw [GornTree.get_insert] at h3
        refine ⟨p', r₁, r₂, List.mem_cons_of_mem _ h1, h2, ?_⟩
        rcases h3 with h3 | h3
        · split at h3
          · rename_i e
            rw [Option.some.injEq] at h3
            subst e h3
            exact .inr (by simp)
          · exact .inl h3
        · exact .inr (by simp [h3])
      | some m' =>
        rw [h] at this
        obtain ⟨h1, h2, h3⟩ := this
        refine ⟨fun q s => ?_, fun x hx => ?_, fun hs => h3 (GornTree.sorted_insert hs _ _)⟩
        · rw [h1, GornTree.get_insert]
          split
          · rename_i e
            subst e
            simp only [Option.some.injEq, hg, List.mem_cons, Prod.mk.injEq, true_and, reduceCtorEq, false_or, eq_comm]
          · rename_i e
            simp [e]
        · rcases h2 x hx with h | h
          · rcases GornTree.mem_insert h with h | h
            · exact .inr (by simp [h])
            · exact .inl h
          · exact .inr (by simp [h])
    | some r' =>
      simp only
      by_cases e : r' ≠ r
      · rw [if_pos e]
        exact ⟨p, r, r', by simp, Ne.symm e, .inl hg⟩
      · rw [if_neg e]
        simp only [ne_eq, Decidable.not_not] at e
        subst e
        have := ih m
        cases h : insertAll m vs with
        | none =>
          rw [h] at this
          obtain ⟨p', r₁, r₂, h1, h2, h3⟩ := this
          exact ⟨p', r₁, r₂, by simp [h1], h2, h3.imp id fun h => by simp [h]⟩
        | some m' =>
          rw [h] at this
          obtain ⟨h1, h2, h3⟩ := this
          refine ⟨fun q s => ?_, fun x hx => (h2 x hx).imp id fun h => by simp [h], h3⟩
          rw [h1]
          constructor
          · rintro (h | h)
            · exact .inl h
            · exact .inr (by simp [h])
          · rintro (h | h)
            · exact .inl h
            · rcases List.mem_cons.1 h with h | h
              · cases h
                exact .inl hg
              · exact .inr h

theorem insertAll_functional {vs : List (List Nat × Nat)} : (insertAll [] vs).isSome ↔ Functional vs := by
  have := insertAll_spec vs []
  cases h : insertAll [] vs with
  | none =>
    rw [h] at this
    obtain ⟨p, r, r', h1, h2, h3⟩ := this
    simp only [Option.isSome_none, Bool.false_eq_true, false_iff]
    intro hf
    rcases h3 with h3 | h3
    · simp [GornTree.get] at h3
    · exact h2 (hf _ _ _ h1 h3)
  | some m =>
    rw [h] at this
    simp only [Option.isSome_some, true_iff]
    intro p r r' h1 h2
    have e1 := (this.1 p r).2 (.inr h1)
    have e2 := (this.1 p r').2 (.inr h2)
    rw [e1, Option.some.injEq] at e2
    exact e2

theorem mapM_values_get {R : Type _} {rules : List R} {m : GornTree Nat} {m' : GornTree R} (h : (m.mapM fun x => (rules[x.2]?).map fun r => (x.1, r)) = some m')
    (p : List Nat) : m'.get p = (m.get p).bind fun rid => rules[rid]? := by
  rw [mapM_some_iff] at h
  induction h with
  | nil => rfl
  | @cons x y m m' h _ ih =>
    obtain ⟨q, rid⟩ := x
    simp only [Option.map_eq_some_iff] at h
    obtain ⟨r, h1, rfl⟩ := h
    simp only [GornTree.get]
    split
    · exact h1.symm
    · exact ih

theorem mapM_values_sorted {R : Type _} {rules : List R} {m : GornTree Nat} {m' : GornTree R} (h : (m.mapM fun x => (rules[x.2]?).map fun r => (x.1, r)) = some m')
    (hs : m.Sorted) : m'.Sorted := by
  have : m'.map Prod.fst = m.map Prod.fst := by
    clear hs
    rw [mapM_some_iff] at h
    induction h with
    | nil => rfl
    | cons h _ ih =>
      simp only [Option.map_eq_some_iff] at h
      obtain ⟨r, h1, rfl⟩ := h
      simp [ih]
  unfold GornTree.Sorted
  rw [this]
  exact hs

/-- `toderiv` fails iff the rules at some position differ. -/
theorem toderiv_none {R : Type _} {rules : List R} {rid c : Nat} {P : Parts} : toderiv rules (compWord rid c P) = some none ↔ ¬ Consistent rid P := by
  have hf := insertAll_functional (vs := ([], rid) :: P.visits [])
  unfold toderiv
  rw [toderivLoop_compWord]
  cases h : insertAll [] (([], rid) :: P.visits []) with
  | none =>
    rw [h] at hf
    simp only [Option.isSome_none, Bool.false_eq_true, false_iff] at hf
    exact ⟨fun _ => hf, fun _ => rfl⟩
  | some m =>
    rw [h] at hf
    simp only [Option.isSome_some, true_iff] at hf
    simp only [Option.map_eq_some_iff]
    constructor
    · rintro ⟨_, _, h⟩
      cases h
    · intro h
      exact absurd hf h

theorem toderiv_some {R : Type _} {rules : List R} {rid c : Nat} {P : Parts} (hc : Consistent rid P)
    (hr : ∀ x ∈ ([], rid) :: P.visits [], x.2 < rules.length) :
    ∃ m : GornTree R, toderiv rules (compWord rid c P) = some (some m) ∧ m.Sorted ∧
      ∀ p r, m.get p = some r ↔ ∃ rid', (p, rid') ∈ ([], rid) :: P.visits [] ∧ rules[rid']? = some r := by
  have hf := (insertAll_functional (vs := ([], rid) :: P.visits [])).2 hc
  obtain ⟨m, hm⟩ := Option.isSome_iff_exists.1 hf
  have hs := insertAll_spec (([], rid) :: P.visits []) []
  rw [hm] at hs
  obtain ⟨h1, h2, h3⟩ := hs
  have h4 : ∃ m', (m.mapM fun x => (rules[x.2]?).map fun r => (x.1, r)) = some m' := by
    cases h : (m.mapM fun x => (rules[x.2]?).map fun r => (x.1, r)) with
    | some m' => exact ⟨m', rfl⟩
    | none =>
      rw [mapM_none_iff] at h
      obtain ⟨x, hx, h⟩ := h
      rcases h2 x hx with h' | h'
      · cases h'
      · rw [Option.map_eq_none_iff, List.getElem?_eq_none_iff] at h
        exact absurd (hr x h') (by omega)
  obtain ⟨m', hm'⟩ := h4
  refine ⟨m', ?_, mapM_values_sorted hm' (h3 (by simp [GornTree.Sorted])), fun p r => ?_⟩
  · unfold toderiv
    rw [toderivLoop_compWord, hm]
    simp only
    rw [hm']
    rfl
  · rw [mapM_values_get hm', Option.bind_eq_some_iff]
    refine exists_congr fun rid' => and_congr_left fun _ => ?_
    rw [h1]
    simp [GornTree.get]

/-! ### The visits of an encoded derivation -/

theorem visits_shift (P : Parts) : ∀ q p : List Nat, P.visits (q ++ p) = (P.visits p).map fun x => (q ++ x.1, x.2) := by
  induction P with
  | nil => intro q p; rfl
  | term P ih => intro q p; exact ih q p
  | part i j r P₁ P₂ ih₁ ih₂ =>
    intro q p
    simp only [Spec.Parts.visits, List.append_assoc, ih₁ q (p ++ [i]), ih₂ q p]
    simp

theorem mem_visits_shift {P : Parts} {q p : List Nat} {r : Nat} : (p, r) ∈ P.visits q ↔ ∃ p', p = q ++ p' ∧ (p', r) ∈ P.visits [] := by
  have := visits_shift P q []
  rw [List.append_nil] at this
  rw [this, List.mem_map]
  constructor
  · rintro ⟨⟨p', r'⟩, h, e⟩
    cases e
    exact ⟨p', rfl, h⟩
  · rintro ⟨p', rfl, h⟩
    exact ⟨(p', r), h, rfl⟩

/-- The parts of a component that are not terminals. -/
def Parts.tops : Parts → List ((Nat × Nat) × Nat × Parts)
  | .nil => []
  | .term P => Parts.tops P
  | .part i j rid P₁ P₂ => ((i, j), rid, P₁) :: Parts.tops P₂

theorem mem_visits {P : Parts} {p : List Nat} {r : Nat} : (p, r) ∈ P.visits [] ↔
    ∃ i j rid Q, ((i, j), rid, Q) ∈ Parts.tops P ∧ ∃ p', p = i :: p' ∧ (p', r) ∈ ([], rid) :: Q.visits [] := by
  induction P with
  | nil => simp [Spec.Parts.visits, Parts.tops]
  | term P ih => exact ih
  | part i j rid P₁ P₂ ih₁ ih₂ =>
    simp only [Spec.Parts.visits, Parts.tops, List.nil_append, List.cons_append]
    rw [List.mem_cons, List.mem_append, ih₂, mem_visits_shift]
    constructor
    · rintro (h | ⟨p', rfl, h⟩ | ⟨i', j', rid', Q, h1, h2⟩)
      · cases h
        exact ⟨i, j, r, P₁, by simp, [], rfl, by simp⟩
      · exact ⟨i, j, rid, P₁, by simp, p', rfl, by simp [h]⟩
      · exact ⟨i', j', rid', Q, by simp [h1], h2⟩
    · rintro ⟨i', j', rid', Q, h1, p', rfl, h2⟩
      rcases List.mem_cons.1 h1 with h1 | h1
      · cases h1
        rcases List.mem_cons.1 h2 with h2 | h2
        · cases h2
          exact .inl rfl
        · exact .inr (.inl ⟨p', rfl, h2⟩)
      · exact .inr (.inr ⟨i', j', rid', Q, h1, p', rfl, h2⟩)

section
variable {N T W : Type _} {rules : List (PMCFGRule N T W)}

theorem encodes_visits {ds : List (DTree Nat)} {c : List (VarT T)} {P : Parts} (h : Encodes rules ds c P) (x : Nat) :
    ∀ p r, (p, r) ∈ P.visits [] → (DTree.node x ds).at? p = some r ∧ r < rules.length := by
  induction h generalizing x with
  | nil => intro p r h; cases h
  | term _ ih => exact ih x
  | @part ds c comp i j rid rr es P₁ P₂ h1 h2 h3 _ _ ih₁ ih₂ =>
    intro p r h
    simp only [Spec.Parts.visits, List.nil_append, List.cons_append] at h
    rw [List.mem_cons, List.mem_append, mem_visits_shift] at h
    rcases h with h | ⟨p', rfl, h⟩ | h
    · cases h
      exact ⟨by simp [DTree.at?, h1], (List.getElem?_eq_some_iff.1 h2).1⟩
    · have := ih₁ rid p' r h
      exact ⟨by simpa [DTree.at?, h1] using this.1, this.2⟩
    · exact ih₂ x p r h

theorem encodes_consistent {ds : List (DTree Nat)} {c : List (VarT T)} {P : Parts} {rid : Nat} (h : Encodes rules ds c P) : Consistent rid P := by
  have key : ∀ p r, (p, r) ∈ ([], rid) :: P.visits [] → (DTree.node rid ds).at? p = some r := by
    intro p r h1
    rcases List.mem_cons.1 h1 with h1 | h1
    · cases h1
      rfl
    · exact (encodes_visits h rid p r h1).1
  intro p r r' h1 h2
  have := key p r h1
  rw [key p r' h2, Option.some.injEq] at this
  exact this.symm

theorem encodes_unique {ds : List (DTree Nat)} {c : List (VarT T)} {P : Parts} (h : Encodes rules ds c P) : ∀ {P'}, Encodes rules ds c P' → P' = P := by
  induction h with
  | nil => intro P' h'; cases h'; rfl
  | term _ ih => intro P' h'; cases h' with | term h' => rw [ih h']
  | part h1 h2 h3 _ _ ih₁ ih₂ =>
    intro P' h'
    cases h' with
    | part g1 g2 g3 g4 g5 =>
      rw [h1, Option.some.injEq] at g1
      cases g1
      rw [h2, Option.some.injEq] at g2
      cases g2
      rw [h3, Option.some.injEq] at g3
      cases g3
      rw [ih₁ g4, ih₂ g5]

theorem encodes_tops {ds : List (DTree Nat)} {c : List (VarT T)} {P : Parts} (h : Encodes rules ds c P) {i j : Nat} (hv : VarT.var i j ∈ c) :
    ∃ rid es r comp Q, ds[i]? = some (.node rid es) ∧ rules[rid]? = some r ∧ r.composition[j]? = some comp ∧ Encodes rules es comp Q ∧
      ((i, j), rid, Q) ∈ Parts.tops P := by
  induction h with
  | nil => cases hv
  | term _ ih =>
    rcases List.mem_cons.1 hv with hv | hv
    · cases hv
    · exact ih hv
  | @part ds c comp i' j' rid rr es P₁ P₂ h1 h2 h3 h4 _ _ ih₂ =>
    rcases List.mem_cons.1 hv with hv | hv
    · cases hv
      exact ⟨rid, es, rr, comp, P₁, h1, h2, h3, h4, by simp [Parts.tops]⟩
    · obtain ⟨a, b, c', d, e, g1, g2, g3, g4, g5⟩ := ih₂ hv
      exact ⟨a, b, c', d, e, g1, g2, g3, g4, by simp [Parts.tops, g5]⟩

end

end Rustomata
