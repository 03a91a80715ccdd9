import Verif.Proofs.Recognise
import Mathlib.Data.List.Forall2
import Mathlib.Logic.Relator

/-!
# Internal and outer representation

An automaton works on an internal representation (integers). The two are related by partial bijections on terminals, storages and
instructions; here runs are transported along them.
-/

set_option linter.unusedSectionVars false
set_option linter.unusedSimpArgs false

namespace Rustomata
open Spec Relator

variable {A K S I T W S' I' T' : Type _}

section lists
variable {α β γ δ : Type _} {R : α → β → Prop}

theorem forall₂_count [DecidableEq α] [DecidableEq β] (hR : BiUnique R) {l : List α} {l' : List β} (h : List.Forall₂ R l l')
    {a : α} {b : β} (hab : R a b) : l.count a = l'.count b := by
  induction h with
  | nil => rfl
  | cons h1 _ ih =>
    rename_i x y _ _ _
    rw [List.count_cons, List.count_cons, ih]
    have : (x == a) = (y == b) := by
      rw [Bool.eq_iff_iff, beq_iff_eq, beq_iff_eq]
      exact ⟨fun e => hR.2 h1 (by rw [e]; exact hab), fun e => hR.1 h1 (by rw [e]; exact hab)⟩
    rw [this]

theorem forall₂_exists_left {l : List α} {l' : List β} (h : List.Forall₂ R l l') {b : β} (hb : b ∈ l') :
    ∃ a ∈ l, R a b := by
  induction h with
  | nil => simp at hb
  | cons h1 _ ih =>
    rcases List.mem_cons.1 hb with rfl | hb
    · exact ⟨_, by simp, h1⟩
    · obtain ⟨a, ha, hr⟩ := ih hb
      exact ⟨a, by simp [ha], hr⟩

theorem forall₂_exists_right {l : List α} {l' : List β} (h : List.Forall₂ R l l') {a : α} (ha : a ∈ l) :
    ∃ b ∈ l', R a b := by
  induction h with
  | nil => simp at ha
  | cons h1 _ ih =>
    rcases List.mem_cons.1 ha with rfl | ha
    · exact ⟨_, by simp, h1⟩
    · obtain ⟨b, hb, hr⟩ := ih ha
      exact ⟨b, by simp [hb], hr⟩

/-- Lists over the image have a preimage. -/
theorem forall₂_exists_list {l' : List β} (h : ∀ b ∈ l', ∃ a, R a b) : ∃ l, List.Forall₂ R l l' := by
  induction l' with
  | nil => exact ⟨[], .nil⟩
  | cons b l' ih =>
    obtain ⟨a, ha⟩ := h b (by simp)
    obtain ⟨l, hl⟩ := ih (fun b hb => h b (by simp [hb]))
    exact ⟨a :: l, .cons ha hl⟩

theorem forall₂_isPrefixOf [DecidableEq α] [DecidableEq β] (hR : BiUnique R) {l m : List α} {l' m' : List β}
    (h : List.Forall₂ R l l') (h2 : List.Forall₂ R m m') : l.isPrefixOf m = l'.isPrefixOf m' := by
  induction h generalizing m m' with
  | nil => simp
  | cons h1 _ ih =>
    cases h2 with
    | nil => simp
    | cons h3 h4 =>
      rename_i x y _ _ _ z u _ _
      simp only [List.isPrefixOf]
      rw [ih h4]
      have : (x == z) = (y == u) := by
        rw [Bool.eq_iff_iff, beq_iff_eq, beq_iff_eq]
        exact ⟨fun e => hR.2 h1 (by rw [e]; exact h3), fun e => hR.1 h1 (by rw [e]; exact h3)⟩
      rw [this]

theorem forall₂_append_right {l : List α} {m1 m2 : List β} (h : List.Forall₂ R l (m1 ++ m2)) :
    ∃ l1 l2, List.Forall₂ R l1 m1 ∧ List.Forall₂ R l2 m2 ∧ l = l1 ++ l2 := by
  induction m1 generalizing l with
  | nil => exact ⟨[], l, .nil, h, rfl⟩
  | cons b m1 ih =>
    cases h with
    | cons h1 h2 =>
      obtain ⟨l1, l2, h3, h4, rfl⟩ := ih h2
      exact ⟨_ :: l1, l2, .cons h1 h3, h4, rfl⟩

theorem mapM_eq_some_iff {f : α → Option β} {l : List α} {l' : List β} :
    l.mapM f = some l' ↔ List.Forall₂ (fun a b => f a = some b) l l' := by
  induction l generalizing l' with
  | nil => simp [eq_comm]
  | cons a l ih =>
    rw [List.mapM_cons]
    cases hf : f a with
    | none => simp [hf, List.forall₂_cons_left_iff]
    | some b =>
      simp only [Option.bind_eq_bind, Option.bind_some, List.forall₂_cons_left_iff, hf, Option.some.injEq]
      cases hm : l.mapM f with
      | none =>
        simp only [Option.bind_none, reduceCtorEq, false_iff, not_exists, not_and]
        rintro b' u' rfl h
        have := ih.2 h
        rw [hm] at this; simp at this
      | some u =>
        simp only [Option.bind_some, Option.pure_def, Option.some.injEq]
        constructor
        · rintro rfl
          exact ⟨b, u, rfl, ih.1 hm, rfl⟩
        · rintro ⟨b', u', rfl, h, rfl⟩
          have := ih.2 h
          rw [hm] at this
          simp only [Option.some.injEq] at this
          rw [this]

theorem mapM_eq_none_iff {f : α → Option β} {l : List α} : l.mapM f = none ↔ ∃ a ∈ l, f a = none := by
  induction l with
  | nil => simp
  | cons a l ih =>
    rw [List.mapM_cons]
    cases hf : f a with
    | none => simp [hf]
    | some b =>
      simp only [Option.bind_eq_bind, Option.bind_some, List.mem_cons, exists_eq_or_imp, hf, reduceCtorEq, false_or]
      rw [← ih]
      cases l.mapM f <;> simp

end lists

/-- Related transitions. -/
structure TrRel (RT : T → T' → Prop) (RI : I → I' → Prop) (t : Transition I T W) (t' : Transition I' T' W) : Prop where
  word : List.Forall₂ RT t.word t'.word
  weight : t.weight = t'.weight
  instruction : RI t.instruction t'.instruction

/-- Related configurations. -/
structure CRel (RT : T → T' → Prop) (RS : S → S' → Prop) (c : Configuration S T W) (c' : Configuration S' T' W) : Prop where
  word : List.Forall₂ RT c.word c'.word
  weight : c.weight = c'.weight
  storage : RS c.storage c'.storage

/-- Related items. -/
structure ItemRel (RT : T → T' → Prop) (RS : S → S' → Prop) (RI : I → I' → Prop) (i : Item S I T W) (i' : Item S' I' T' W) : Prop where
  conf : CRel RT RS i.conf i'.conf
  run : List.Forall₂ (TrRel RT RI) i.run.toVec i'.run.toVec

/-- The automaton `M` is a faithful internal representation of the device `D`. -/
structure Represents (M : Automaton K S I T W) (D : Device S' I' T' W) (toInt : T' → Option T)
    (itemMap : Item S I T W → Option (Item S' I' T' W)) (RT : T → T' → Prop) (RS : S → S' → Prop) (RI : I → I' → Prop) : Prop where
  uT : BiUnique RT
  uS : BiUnique RS
  uI : BiUnique RI
  apply : ∀ i i' s s', RI i i' → RS s s' → List.Forall₂ RS (M.apply i s) (D.apply i' s')
  transitions : List.Forall₂ (TrRel RT RI) M.transitions D.transitions
  initial : RS M.initial D.initial
  terminal : ∀ c c', CRel RT RS c c' → (M.isTerminal c = true ↔ c'.word = [] ∧ D.accepts c'.storage = true)
  toInt : ∀ t' t, toInt t' = some t ↔ RT t t'
  itemMap : ∀ i i', itemMap i = some i' ↔ ItemRel RT RS RI i i'

section
variable {RT : T → T' → Prop} {RS : S → S' → Prop} {RI : I → I' → Prop}

theorem TrRel.biUnique (hT : BiUnique RT) (hI : BiUnique RI) : BiUnique (TrRel (W := W) RT RI) := by
  constructor
  · rintro ⟨w1, u1, i1⟩ ⟨w2, u2, i2⟩ ⟨w3, u3, i3⟩ ⟨h1, h2, h3⟩ ⟨h4, h5, h6⟩
    simp only at *
    rw [hT.forall₂.1 h1 h4, h2, h5, hI.1 h3 h6]
  · rintro ⟨w1, u1, i1⟩ ⟨w2, u2, i2⟩ ⟨w3, u3, i3⟩ ⟨h1, h2, h3⟩ ⟨h4, h5, h6⟩
    simp only at *
    rw [hT.forall₂.2 h1 h4, ← h2, ← h5, hI.2 h3 h6]

theorem CRel.biUnique (hT : BiUnique RT) (hS : BiUnique RS) : BiUnique (CRel (W := W) RT RS) := by
  constructor
  · rintro ⟨w1, u1, i1⟩ ⟨w2, u2, i2⟩ ⟨w3, u3, i3⟩ ⟨h1, h2, h3⟩ ⟨h4, h5, h6⟩
    simp only at *
    rw [hT.forall₂.1 h1 h4, h2, h5, hS.1 h3 h6]
  · rintro ⟨w1, u1, i1⟩ ⟨w2, u2, i2⟩ ⟨w3, u3, i3⟩ ⟨h1, h2, h3⟩ ⟨h4, h5, h6⟩
    simp only at *
    rw [hT.forall₂.2 h1 h4, ← h2, ← h5, hS.2 h3 h6]

theorem ItemRel.biUnique (hT : BiUnique RT) (hS : BiUnique RS) (hI : BiUnique RI) : BiUnique (ItemRel (W := W) RT RS RI) := by
  constructor
  · rintro ⟨c1, p1⟩ ⟨c2, p2⟩ ⟨c3, p3⟩ ⟨h1, h2⟩ ⟨h3, h4⟩
    simp only at *
    rw [(CRel.biUnique hT hS).1 h1 h3, Pushdown.toVec_injective ((TrRel.biUnique hT hI).forall₂.1 h2 h4)]
  · rintro ⟨c1, p1⟩ ⟨c2, p2⟩ ⟨c3, p3⟩ ⟨h1, h2⟩ ⟨h3, h4⟩
    simp only at *
    rw [(CRel.biUnique hT hS).2 h1 h3, Pushdown.toVec_injective ((TrRel.biUnique hT hI).forall₂.2 h2 h4)]

theorem storages_rel {ap : I → S → List S} {ap' : I' → S' → List S'}
    (h : ∀ i i' s s', RI i i' → RS s s' → List.Forall₂ RS (ap i s) (ap' i' s')) {is : List I} {is' : List I'}
    (hi : List.Forall₂ RI is is') {s : S} {s' : S'} (hs : RS s s') :
    List.Forall₂ RS (storages ap is s) (storages ap' is' s') := by
  induction hi generalizing s s' with
  | nil => exact .cons hs .nil
  | cons h1 _ ih =>
    simp only [storages]
    exact List.rel_flatMap (h _ _ _ _ h1 hs) (fun _ _ h => ih h)

theorem wordOf_rel {ts : List (Transition I T W)} {ts' : List (Transition I' T' W)} (h : List.Forall₂ (TrRel RT RI) ts ts') :
    List.Forall₂ RT (wordOf ts) (wordOf ts') :=
  List.rel_flatMap h (fun _ _ h => h.word)

theorem weightFrom_rel [Mul W] (w : W) {ts : List (Transition I T W)} {ts' : List (Transition I' T' W)} (h : List.Forall₂ (TrRel RT RI) ts ts') :
    weightFrom w ts = weightFrom w ts' := by
  unfold weightFrom
  induction h generalizing w with
  | nil => rfl
  | cons h1 _ ih => simp only [List.foldl_cons, h1.weight, ih]

theorem weightOf_rel [Mul W] [One W] {ts : List (Transition I T W)} {ts' : List (Transition I' T' W)} (h : List.Forall₂ (TrRel RT RI) ts ts') :
    weightOf ts = weightOf ts' := weightFrom_rel 1 h

theorem instr_rel {ts : List (Transition I T W)} {ts' : List (Transition I' T' W)} (h : List.Forall₂ (TrRel RT RI) ts ts') :
    List.Forall₂ RI (ts.map Transition.instruction) (ts'.map Transition.instruction) :=
  List.rel_map (fun _ _ h => h.instruction) h

end

namespace Represents
variable {M : Automaton K S I T W} {D : Device S' I' T' W} {toInt : T' → Option T}
  {itemMap : Item S I T W → Option (Item S' I' T' W)} {RT : T → T' → Prop} {RS : S → S' → Prop} {RI : I → I' → Prop}
  (h : Represents M D toInt itemMap RT RS RI)
include h

theorem mapM_toInt {w' : List T'} {w : List T} : w'.mapM toInt = some w ↔ List.Forall₂ RT w w' := by
  rw [mapM_eq_some_iff]
  constructor
  · intro h1; exact List.Forall₂.flip (h1.imp fun a b hab => (h.toInt a b).1 hab)
  · intro h1; exact List.Forall₂.flip (h1.imp fun a b hab => (h.toInt b a).2 hab)

/-- Internal runs are outer runs. -/
theorem isRun_outer [Mul W] [One W] {w : List T} {w' : List T'} (hw : List.Forall₂ RT w w') {ts : List (Transition I T W)} {c : Configuration S T W}
    (hr : IsRun M.apply M.transitions M.initial w ts c) :
    ∃ ts' c', List.Forall₂ (TrRel RT RI) ts ts' ∧ CRel RT RS c c' ∧ IsRun D.apply D.transitions D.initial w' ts' c' := by
  obtain ⟨he, hm⟩ := hr
  rw [exec_iff_from] at he
  obtain ⟨h1, h2, h3⟩ := he
  have hts : ∃ ts', List.Forall₂ (TrRel (W := W) RT RI) ts ts' ∧ ∀ t ∈ ts', t ∈ D.transitions := by
    clear h1 h2 h3
    induction ts with
    | nil => exact ⟨[], .nil, by simp⟩
    | cons t ts ih =>
      obtain ⟨ts', h4, h5⟩ := ih (fun t ht => hm t (by simp [ht]))
      obtain ⟨t', h6, h7⟩ := forall₂_exists_right h.transitions (hm t (by simp))
      refine ⟨t' :: ts', .cons h7 h4, ?_⟩
      intro u hu
      rcases List.mem_cons.1 hu with rfl | hu
      · exact h6
      · exact h5 u hu
  obtain ⟨ts', h4, h5⟩ := hts
  obtain ⟨s', h6, h7⟩ := forall₂_exists_right (storages_rel h.apply (instr_rel h4) h.initial) h2
  have hwo := wordOf_rel h4
  simp only at h1
  rw [h1] at hw
  have hwd := List.forall₂_drop (wordOf ts).length hw
  have hwt := List.forall₂_take (wordOf ts).length hw
  rw [List.drop_left] at hwd
  rw [List.take_left] at hwt
  have hwe : w'.take (wordOf ts).length = wordOf ts' := h.uT.forall₂.2 hwt hwo
  refine ⟨ts', ⟨w'.drop (wordOf ts).length, s', c.weight⟩, h4, ⟨hwd, rfl, h7⟩, ?_, h5⟩
  rw [exec_iff_from]
  refine ⟨?_, h6, ?_⟩
  · rw [← hwe]; simp
  · rw [← weightFrom_rel _ h4]; exact h3

/-- Outer runs are internal runs. -/
theorem isRun_inner [Mul W] [One W] {w : List T} {w' : List T'} (hw : List.Forall₂ RT w w') {ts' : List (Transition I' T' W)} {c' : Configuration S' T' W}
    (hr : IsRun D.apply D.transitions D.initial w' ts' c') :
    ∃ ts c, List.Forall₂ (TrRel RT RI) ts ts' ∧ CRel RT RS c c' ∧ IsRun M.apply M.transitions M.initial w ts c := by
  obtain ⟨he, hm⟩ := hr
  rw [exec_iff_from] at he
  obtain ⟨h1, h2, h3⟩ := he
  have hts : ∃ ts, List.Forall₂ (TrRel (W := W) RT RI) ts ts' ∧ ∀ t ∈ ts, t ∈ M.transitions := by
    clear h1 h2 h3
    induction ts' with
    | nil => exact ⟨[], .nil, by simp⟩
    | cons t ts ih =>
      obtain ⟨ts', h4, h5⟩ := ih (fun t ht => hm t (by simp [ht]))
      obtain ⟨t', h6, h7⟩ := forall₂_exists_left h.transitions (hm t (by simp))
      refine ⟨t' :: ts', .cons h7 h4, ?_⟩
      intro u hu
      rcases List.mem_cons.1 hu with rfl | hu
      · exact h6
      · exact h5 u hu
  obtain ⟨ts, h4, h5⟩ := hts
  obtain ⟨s, h6, h7⟩ := forall₂_exists_left (storages_rel h.apply (instr_rel h4) h.initial) h2
  have hwo := wordOf_rel h4
  simp only at h1
  rw [h1] at hw
  have hwd := List.forall₂_drop (wordOf ts').length hw
  have hwt := List.forall₂_take (wordOf ts').length hw
  rw [List.drop_left] at hwd
  rw [List.take_left] at hwt
  have hwe : w.take (wordOf ts').length = wordOf ts := h.uT.forall₂.1 hwt hwo
  refine ⟨ts, ⟨w.drop (wordOf ts').length, s, c'.weight⟩, h4, ⟨hwd, rfl, h7⟩, ?_, h5⟩
  rw [exec_iff_from]
  refine ⟨?_, h6, ?_⟩
  · rw [← hwe]; simp
  · rw [weightFrom_rel _ h4]; exact h3

/-- The word of an outer run that is read completely consists of known terminals. -/
theorem word_known [Mul W] [One W] {w' : List T'} {ts' : List (Transition I' T' W)} {c' : Configuration S' T' W}
    (hr : IsRun D.apply D.transitions D.initial w' ts' c') (hc : c'.word = []) :
    ∃ w, List.Forall₂ RT w w' := by
  obtain ⟨he, hm⟩ := hr
  rw [exec_iff_from] at he
  have h1 : w' = wordOf ts' := by simpa [hc] using he.1
  rw [h1]
  have : ∃ ts, List.Forall₂ (TrRel (W := W) RT RI) ts ts' :=
    forall₂_exists_list fun t ht => by
      obtain ⟨u, _, hu⟩ := forall₂_exists_left h.transitions (hm t ht)
      exact ⟨u, hu⟩
  obtain ⟨ts, hts⟩ := this
  exact ⟨_, wordOf_rel hts⟩

theorem recogniseOuter_some [Mul W] [One W] [DecidableEq K] [DecidableEq T] {G : Agenda A (Item S I T W)} {empty : A} {w' : List T'} {n : Nat}
    {out' : List (Item S' I' T' W)} {a : A} (hr : M.recogniseOuter toInt itemMap G empty w' n = some (out', a)) :
    ∃ out, M.recognise G empty (w'.mapM toInt) n = some (out, a) ∧ List.Forall₂ (ItemRel RT RS RI) out out' := by
  unfold Automaton.recogniseOuter at hr
  split at hr
  · simp at hr
  · rename_i out b hro
    split at hr
    · simp at hr
    · rename_i o ho
      simp only [Option.some.injEq, Prod.mk.injEq] at hr
      obtain ⟨rfl, rfl⟩ := hr
      exact ⟨out, hro, (mapM_eq_some_iff.1 ho).imp fun a b hab => (h.itemMap a b).1 hab⟩

/-- `item_map` never panics on a run. -/
theorem recogniseOuter_no_panic [Mul W] [One W] [DecidableEq K] [DecidableEq T] {G : Agenda A (Item S I T W)}
    {content : A → Multiset (Item S I T W)} (hG : G.Sound content) {empty : A} (hempty : content empty = 0) {w' : List T'} {n : Nat}
    {out : List (Item S I T W)} {a : A} (hr : M.recognise G empty (w'.mapM toInt) n = some (out, a)) :
    ∃ out', M.recogniseOuter toInt itemMap G empty w' n = some (out', a) := by
  unfold Automaton.recogniseOuter
  rw [hr]
  simp only
  cases hm : out.mapM itemMap with
  | some o => exact ⟨o, rfl⟩
  | none =>
    exfalso
    obtain ⟨i, hi, hn⟩ := mapM_eq_none_iff.1 hm
    unfold Automaton.recognise at hr
    obtain ⟨⟨Y, b⟩, hr', he⟩ := Option.map_eq_some_iff.1 hr
    simp only [Prod.mk.injEq] at he
    obtain ⟨rfl, rfl⟩ := he
    have hi' := (List.mem_filter.1 hi).1
    have hstart : ∀ x ∈ content (G.extend empty (M.initItem (w'.mapM toInt))),
        Reach (noPanic M.successors) (· ∈ M.initItem (w'.mapM toInt)) x := by
      intro x hx
      have := Multiset.mem_of_le (hG.extend _ _) hx
      rw [hempty, zero_add] at this
      exact .base (by simpa using this)
    have h1 := (Search.run_reach hG (noPanic M.successors) _ n _ hstart).1 i
      (by rw [(Search.runP_run hr').1]; exact hi')
    obtain ⟨w, hw, hrun⟩ := Automaton.reach_isRun h1
    obtain ⟨ts', c', h2, h3, _⟩ := h.isRun_outer (h.mapM_toInt.1 hw) hrun
    have := (h.itemMap i ⟨c', Pushdown.ofSlice ts'⟩).2 ⟨h3, by
      have : (Pushdown.ofSlice ts').toVec = ts' := by
        unfold Pushdown.ofSlice; rw [Pushdown.toVec_foldl]; simp
      simp only [this]; exact h2⟩
    rw [hn] at this
    simp at this

end Represents

end Rustomata
