import Verif.Model.Approximation
import Verif.Spec.Approximation
import Mathlib.Data.List.Nodup

/-!
# Helper lemmas: equivalence relations
-/

namespace Rustomata.EquivalenceRelation
open Spec
variable {A B : Type _} [DecidableEq A] [DecidableEq B]

omit [DecidableEq B] in
theorem get_insert (m : List (A × B)) (k : A) (b : B) (k' : A) : get (insert m k b) k' = if k = k' then some b else get m k' := by
  induction m with
  | nil => by_cases h : k = k' <;> simp [insert, HMap.upd, get, h]
  | cons p m ih =>
    obtain ⟨x, v⟩ := p
    simp only [insert, HMap.upd, get] at ih ⊢
    by_cases h1 : x = k
    · subst h1
      by_cases h2 : x = k' <;> simp [h2]
    · by_cases h2 : x = k'
      · have : ¬ k = k' := fun e => h1 (by rw [h2, e])
        subst h2
        simp [h1, this]
      · simp only [h1, if_false, h2, List.find?_cons, decide_false]
        exact ih

omit [DecidableEq B] in
theorem addMembers_ok (name : B) (vs : List A) (m : List (A × B)) :
    (∃ m', addMembers name vs m = .ok m') ↔ vs.Nodup ∧ ∀ v ∈ vs, get m v = none := by
  induction vs generalizing m with
  | nil => simp [addMembers]
  | cons v vs ih =>
    simp only [addMembers]
    cases hg : get m v with
    | some b => simp [hg]
    | none =>
      simp only [ih, get_insert, List.nodup_cons, List.mem_cons, forall_eq_or_imp, hg, true_and]
      constructor
      · rintro ⟨h1, h2⟩
        refine ⟨⟨fun hv => ?_, h1⟩, fun a ha => ?_⟩
        · have := h2 v hv; simp at this
        · have := h2 a ha
          split at this
          · simp at this
          · exact this
      · rintro ⟨⟨h1, h2⟩, h3⟩
        refine ⟨h2, fun a ha => ?_⟩
        rw [if_neg (by rintro rfl; exact h1 ha)]
        exact h3 a ha

omit [DecidableEq B] in
theorem addMembers_get {name : B} {vs : List A} {m m' : List (A × B)} (h : addMembers name vs m = .ok m') (a : A) :
    get m' a = if a ∈ vs then some name else get m a := by
  induction vs generalizing m with
  | nil => simp only [addMembers, Except.ok.injEq] at h; subst h; simp
  | cons v vs ih =>
    simp only [addMembers] at h
    cases hg : get m v with
    | some b => simp [hg] at h
    | none =>
      rw [hg] at h
      rw [ih h, get_insert]
      by_cases h1 : a ∈ vs
      · simp [h1]
      · by_cases h2 : v = a
        · simp [h2]
        · simp [h1, h2, show ¬ a = v from fun e => h2 e.symm]

theorem addClasses_ok (d : B) (cs : List (B × List A)) (m : List (A × B)) :
    (∃ m', addClasses d cs m = .ok m') ↔ (∀ c ∈ cs, c.1 ≠ d) ∧ (cs.flatMap Prod.snd).Nodup ∧ ∀ a ∈ cs.flatMap Prod.snd, get m a = none := by
  induction cs generalizing m with
  | nil => simp [addClasses]
  | cons c cs ih =>
    obtain ⟨name, vs⟩ := c
    simp only [addClasses]
    by_cases hd : name = d
    · simp [hd]
    · simp only [hd, if_false, List.forall_mem_cons, ne_eq, not_false_eq_true, true_and, List.flatMap_cons, List.nodup_append, List.mem_append]
      cases ha : addMembers name vs m with
      | error e =>
        have : ¬ ∃ m', addMembers name vs m = .ok m' := by rw [ha]; simp
        rw [addMembers_ok] at this
        simp only [reduceCtorEq, exists_false, false_iff]
        rintro ⟨_, ⟨h1, _, _⟩, h2⟩
        exact this ⟨h1, fun v hv => h2 v (.inl hv)⟩
      | ok m1 =>
        obtain ⟨h1, h2⟩ := (addMembers_ok name vs m).1 ⟨m1, ha⟩
        have hg := addMembers_get ha
        simp only [ih]
        constructor
        · rintro ⟨h3, h4, h5⟩
          refine ⟨h3, ⟨h1, h4, ?_⟩, ?_⟩
          · rintro a hav b hb rfl
            have := h5 a hb
            rw [hg, if_pos hav] at this; simp at this
          · rintro a (hav | hb)
            · exact h2 a hav
            · have := h5 a hb
              rw [hg] at this
              split at this
              · simp at this
              · exact this
        · rintro ⟨h3, ⟨_, h4, h5⟩, h6⟩
          refine ⟨h3, h4, fun a hb => ?_⟩
          rw [hg, if_neg (fun hav => h5 a hav a hb rfl)]
          exact h6 a (.inr hb)

theorem addClasses_get {d : B} {cs : List (B × List A)} {m m' : List (A × B)} (h : addClasses d cs m = .ok m') (a : A) (b : B) :
    get m' a = some b ↔ (∃ members, (b, members) ∈ cs ∧ a ∈ members) ∨ get m a = some b := by
  have hok := (addClasses_ok d cs m).1 ⟨m', h⟩
  induction cs generalizing m with
  | nil => simp only [addClasses, Except.ok.injEq] at h; subst h; simp
  | cons c cs ih =>
    obtain ⟨name, vs⟩ := c
    simp only [addClasses] at h
    split at h
    · simp at h
    · cases ha : addMembers name vs m with
      | error e => rw [ha] at h; simp at h
      | ok m1 =>
        rw [ha] at h
        refine (ih h ((addClasses_ok d cs m1).1 ⟨m', h⟩)).trans ?_
        rw [addMembers_get ha]
        obtain ⟨_, h2, h3⟩ := hok
        simp only [List.flatMap_cons, List.mem_append, List.nodup_append] at h2 h3
        constructor
        · rintro (⟨ms, h4, h5⟩ | h4)
          · exact .inl ⟨ms, by simp [h4], h5⟩
          · split at h4
            · rename_i hav
              simp only [Option.some.injEq] at h4
              subst h4
              exact .inl ⟨vs, by simp, hav⟩
            · exact .inr h4
        · rintro (⟨ms, h4, h5⟩ | h4)
          · rcases List.mem_cons.1 h4 with h6 | h6
            · obtain ⟨rfl, rfl⟩ := Prod.mk.inj h6
              exact .inr (by simp [h5])
            · exact .inl ⟨ms, h6, h5⟩
          · refine .inr ?_
            rw [if_neg, h4]
            intro hav
            have := h3 a (.inl hav)
            rw [this] at h4; simp at h4

theorem newSafe_ok {cs : List (B × List A)} {d : B} {r : EquivalenceRelation A B} :
    newSafe cs d = .ok r ↔ addClasses d cs [] = .ok r.map ∧ r.default = d := by
  unfold newSafe
  cases addClasses d cs [] with
  | error e => simp
  | ok m =>
    simp only [Except.ok.injEq]
    constructor
    · rintro rfl; exact ⟨rfl, rfl⟩
    · rintro ⟨rfl, rfl⟩; rfl

theorem newSafe_project {cs : List (B × List A)} {d : B} {r : EquivalenceRelation A B} (h : newSafe cs d = .ok r) (a : A) (b : B) :
    r.project a = b ↔ ClassOf cs d a b := by
  obtain ⟨h1, rfl⟩ := newSafe_ok.1 h
  have hg := addClasses_get h1 a
  have hn : get r.map a = none ↔ ∀ c ∈ cs, a ∉ c.2 := by
    constructor
    · intro hn c hc hac
      have := (hg c.1).2 (.inl ⟨c.2, hc, hac⟩)
      rw [hn] at this; simp at this
    · intro hn
      cases hga : get r.map a with
      | none => rfl
      | some b' =>
        rcases (hg b').1 hga with ⟨ms, h2, h3⟩ | h2
        · exact absurd h3 (hn _ h2)
        · simp [get] at h2
  have hg' : ∀ b, get r.map a = some b ↔ ∃ members, (b, members) ∈ cs ∧ a ∈ members := by
    intro b; rw [hg b]; simp [get]
  unfold project ClassOf
  rw [← hg', ← hn]
  cases hga : get r.map a with
  | none => simp [eq_comm]
  | some b' => simp

omit [DecidableEq B] in
theorem foldl_insert_get (es : List A) (b : B) (m : List (A × B)) (a : A) :
    get (es.foldl (fun m e => insert m e b) m) a = if a ∈ es then some b else get m a := by
  induction es generalizing m with
  | nil => simp
  | cons e es ih =>
    rw [List.foldl_cons, ih, get_insert]
    by_cases h1 : a ∈ es
    · simp [h1]
    · by_cases h2 : e = a
      · simp [h2]
      · simp [h1, h2, show ¬ a = e from fun x => h2 x.symm]

theorem upd_new {K V : Type _} [DecidableEq K] (k : K) (v : V) (m : List (K × V)) (h : k ∉ m.map Prod.fst) :
    HMap.upd k v (fun _ => v) m = m ++ [(k, v)] := by
  induction m with
  | nil => rfl
  | cons p m ih =>
    obtain ⟨k', v'⟩ := p
    simp only [List.map_cons, List.mem_cons, not_or] at h
    simp only [HMap.upd, show ¬ k' = k from fun e => h.1 e.symm, if_false, ih h.2, List.cons_append]

end Rustomata.EquivalenceRelation
