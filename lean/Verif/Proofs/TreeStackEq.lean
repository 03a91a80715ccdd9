import Verif.Proofs.TreeStack

/-!
# Helper lemmas: a tree stack is determined by its tree and pointer
-/

namespace Rustomata
open Spec
variable {A : Type _}

namespace Forest

/-- No vector of children ends with `None`. -/
def Tight : Forest A → Prop
  | .nil => True
  | .vac f => f ≠ .nil ∧ Tight f
  | .occ _ c f => Tight c ∧ Tight f

theorem write_ne_nil {f : Forest A} (h : f ≠ .nil) (n : Nat) (o : Option (A × Forest A)) : f.write n o ≠ .nil := by
  intro e
  have := length_write f n o
  rw [e] at this
  cases f with
  | nil => exact h rfl
  | vac f => simp [length] at this
  | occ v c f => simp [length] at this

theorem tight_pad {f : Forest A} (hf : f.Tight) {v : A} {c : Forest A} (hc : c.Tight) (n : Nat) : ((f.pad n).write n (some (v, c))).Tight := by
  have hnil : ∀ n, (((nil : Forest A).pad n).write n (some (v, c))).Tight := by
    intro n
    induction n with
    | zero => simp [pad, write, Tight, hc]
    | succ n ih =>
      simp only [pad, write, Tight]
      refine ⟨write_ne_nil ?_ _ _, ih⟩
      cases n <;> simp [pad]
  induction f generalizing n with
  | nil => exact hnil n
  | vac f ih =>
    cases n with
    | zero => simp only [pad, write, Tight]; exact ⟨hc, hf.2⟩
    | succ n =>
      simp only [pad, write, Tight]
      refine ⟨write_ne_nil ?_ _ _, ih hf.2 n⟩
      cases f <;> cases n <;> simp [pad]
  | occ w d f _ ih =>
    cases n with
    | zero => simp only [pad, write, Tight]; exact ⟨hc, hf.2⟩
    | succ n => simp only [pad, write, Tight]; exact ⟨hf.1, ih hf.2 n⟩

theorem tight_write {f : Forest A} (hf : f.Tight) {v : A} {c : Forest A} (hc : c.Tight) (n : Nat) : (f.write n (some (v, c))).Tight := by
  induction f generalizing n with
  | nil => simp [write, Tight]
  | vac f ih =>
    cases n with
    | zero => simp only [write, Tight]; exact ⟨hc, hf.2⟩
    | succ n => simp only [write, Tight]; exact ⟨write_ne_nil hf.1 _ _, ih hf.2 n⟩
  | occ w d f _ ih =>
    cases n with
    | zero => simp only [write, Tight]; exact ⟨hc, hf.2⟩
    | succ n => simp only [write, Tight]; exact ⟨hf.1, ih hf.2 n⟩

theorem tight_slot {f : Forest A} (hf : f.Tight) {n : Nat} {v : A} {c : Forest A} (h : f.slot n = some (v, c)) : c.Tight := by
  induction f generalizing n with
  | nil => simp [slot] at h
  | vac f ih => cases n <;> simp [slot] at h; exact ih hf.2 h
  | occ w d f _ ih =>
    cases n with
    | zero => simp only [slot, Option.some.injEq, Prod.mk.injEq] at h; rw [← h.2]; exact hf.1
    | succ n => exact ih hf.2 h

theorem write_write (f : Forest A) (n : Nat) (o o' : Option (A × Forest A)) : (f.write n o).write n o' = f.write n o' := by
  induction f generalizing n with
  | nil => rfl
  | vac f ih => cases n <;> cases o <;> cases o' <;> simp [write, ih]
  | occ v c f _ ih => cases n <;> cases o <;> cases o' <;> simp [write, ih]

theorem tight_occupied {f : Forest A} (hf : f.Tight) (hne : f ≠ .nil) : ∃ n, f.slot n ≠ none := by
  induction f with
  | nil => exact absurd rfl hne
  | vac f ih =>
    obtain ⟨n, hn⟩ := ih hf.2 hf.1
    exact ⟨n + 1, hn⟩
  | occ v c f _ _ => exact ⟨0, by simp [slot]⟩

/-- A vector that does not end with `None` is determined by its subtrees. -/
theorem tight_ext {f g : Forest A} (hf : f.Tight) (hg : g.Tight) (h : ∀ n, f.slot n = g.slot n) : f = g := by
  induction f generalizing g with
  | nil =>
    by_contra hne
    obtain ⟨n, hn⟩ := tight_occupied hg (fun e => hne e.symm)
    exact hn (h n).symm
  | vac f ih =>
    cases g with
    | nil =>
      obtain ⟨n, hn⟩ := tight_occupied hf (by simp)
      exact absurd (h n) hn
    | vac g => rw [ih hf.2 hg.2 fun n => h (n + 1)]
    | occ w d g => exact absurd (h 0) (by simp [slot])
  | occ v c f _ ih =>
    cases g with
    | nil => exact absurd (h 0) (by simp [slot])
    | vac g => exact absurd (h 0) (by simp [slot])
    | occ w d g =>
      have h0 := h 0
      simp only [slot, Option.some.injEq, Prod.mk.injEq] at h0
      rw [ih hf.2 hg.2 fun n => h (n + 1), h0.1, h0.2]

end Forest

namespace TreeStack

/-- A node without trailing `None` is determined by the labels below it. -/
theorem nodeAt_inj {v w : A} {c d : Forest A} (hc : c.Tight) (hd : d.Tight) (h : ∀ p, nodeAt v c p = nodeAt w d p) : v = w ∧ c = d := by
  have key : ∀ (k : Nat) (v w : A) (c d : Forest A), sizeOf c < k → c.Tight → d.Tight → (∀ p, nodeAt v c p = nodeAt w d p) → v = w ∧ c = d := by
    intro k
    induction k with
    | zero => intro v w c d hk; omega
    | succ k ih =>
      intro v w c d hk hc hd h
      refine ⟨by simpa [nodeAt] using h [], Forest.tight_ext hc hd ?_⟩
      intro n
      have h0 := h [n]
      cases hs : c.slot n with
      | none =>
        cases ht : d.slot n with
        | none => rfl
        | some y => obtain ⟨w', d'⟩ := y; simp [nodeAt, hs, ht] at h0
      | some x =>
        obtain ⟨v', c'⟩ := x
        cases ht : d.slot n with
        | none => simp [nodeAt, hs, ht] at h0
        | some y =>
          obtain ⟨w', d'⟩ := y
          have hlt := forest_size c n v' c' hs
          obtain ⟨h1, h2⟩ := ih v' w' c' d' (by omega) (Forest.tight_slot hc hs) (Forest.tight_slot hd ht) (fun p => by simpa [nodeAt, hs, ht] using h (n :: p))
          rw [h1, h2]
  exact key _ v w c d (Nat.lt_succ_self _) hc hd h

/-- No vector of children ends with `None`, if the children on the path to the pointer are put back. -/
def Canon (t : TreeStack A) : Prop := t.children.Tight ∧ ∀ f ∈ t.parents, ∀ v c, Forest.Tight c → (f.children.write f.index (some (v, c))).Tight

theorem canon_push {t s : TreeStack A} (h : t.Canon) {n : Nat} {a : A} (hs : t.push n a = .ok s) : s.Canon := by
  obtain ⟨h1, rfl⟩ := push_ok.1 hs
  refine ⟨trivial, ?_⟩
  intro f hf v c hc
  rcases List.mem_cons.1 hf with rfl | hf
  · show (Forest.write (if n ≥ t.children.length then t.children.pad n else t.children) n (some (v, c))).Tight
    split
    · exact Forest.tight_pad h.1 hc n
    · exact Forest.tight_write h.1 hc n
  · exact h.2 f hf v c hc

theorem canon_up {t s : TreeStack A} (h : t.Canon) {n : Nat} (hs : t.up n = .ok s) : s.Canon := by
  obtain ⟨v, c, h1, rfl⟩ := up_ok.1 hs
  refine ⟨Forest.tight_slot h.1 h1, ?_⟩
  intro f hf v' c' hc'
  rcases List.mem_cons.1 hf with rfl | hf
  · show ((t.children.write n none).write n (some (v', c'))).Tight
    rw [Forest.write_write]
    exact Forest.tight_write h.1 hc' n
  · exact h.2 f hf v' c' hc'

theorem canon_down {t s : TreeStack A} (h : t.Canon) (hs : t.down = .ok s) : s.Canon := by
  obtain ⟨f, ps, h1, rfl⟩ := down_ok.1 hs
  exact ⟨h.2 f (by rw [h1]; simp) _ _ h.1, fun g hg => h.2 g (by rw [h1]; simp [show g ∈ ps from hg])⟩

theorem reachable_canon {t : TreeStack A} (h : Reachable t) : t.Canon := by
  induction h with
  | new a => exact ⟨trivial, by intro f hf; simp [new] at hf⟩
  | set a _ ih => exact ih
  | push _ hs ih => exact canon_push ih hs
  | push_err _ hs ih => rw [(push_err.1 hs).2]; exact ih
  | @pushNext t a s _ hs ih =>
    obtain ⟨s', h1, h2⟩ := pushNext_some t a
    rw [h1] at hs
    cases hs
    exact canon_push ih h2
  | up _ hs ih => exact canon_up ih hs
  | up_err _ hs ih => rw [(up_err.1 hs).2]; exact ih
  | @ups t l s _ hl hm ih =>
    obtain ⟨l', h1, h2⟩ := ups_some t
    rw [h1] at hl
    cases hl
    have : ∀ {ns : List Nat} {l : List (TreeStack A)}, List.Forall₂ (fun n s => t.up n = .ok s) ns l → s ∈ l → ∃ n, t.up n = .ok s := by
      intro ns l h hm
      induction h with
      | nil => simp at hm
      | cons h1 _ ih =>
        rcases List.mem_cons.1 hm with rfl | hm
        · exact ⟨_, h1⟩
        · exact ih hm
    obtain ⟨n, hn⟩ := this h2 hm
    exact canon_up ih hn
  | down _ hs ih => exact canon_down ih hs
  | down_err _ hs ih => rw [(down_err.1 hs).2]; exact ih

theorem view_inj {s t : TreeStack A} (hs : s.Wf) (ht : t.Wf) (cs : s.Canon) (ct : t.Canon) (h : view s = view t) : s = t := by
  have key : ∀ (k : Nat) (s t : TreeStack A), s.parents.length = k → s.Wf → t.Wf → s.Canon → t.Canon → view s = view t → s = t := by
    intro k
    induction k with
    | zero =>
      intro s t hk hs ht cs ct h
      obtain ⟨sp, sv, sc⟩ := s
      obtain ⟨tp, tv, tc⟩ := t
      have hsp : sp = [] := List.length_eq_zero_iff.1 hk
      subst hsp
      have hptr := congrArg Marked.pointer h
      cases tp with
      | cons g qs => rw [pointer_eq, pointer_eq] at hptr; simp [parentsToTree] at hptr
      | nil =>
        have hl : ∀ p, nodeAt sv sc p = nodeAt tv tc p := by
          intro p
          have h1 := view_below hs p
          have h2 := view_below ht p
          rw [h] at h1
          exact h1.symm.trans h2
        obtain ⟨h1, h2⟩ := nodeAt_inj cs.1 ct.1 hl
        have h2' : sc = tc := h2
        rw [h1, h2']
    | succ k ih =>
      intro s t hk hs ht cs ct h
      obtain ⟨sp, sv, sc⟩ := s
      obtain ⟨tp, tv, tc⟩ := t
      have hptr := congrArg Marked.pointer h
      cases sp with
      | nil => simp at hk
      | cons f ps =>
        cases tp with
        | nil => rw [pointer_eq, pointer_eq] at hptr; simp [parentsToTree] at hptr
        | cons g qs =>
          have d1 : (TreeStack.mk (f :: ps) sv sc).down = .ok ⟨ps, f.value, f.children.write f.index (some (sv, sc))⟩ := rfl
          have d2 : (TreeStack.mk (g :: qs) tv tc).down = .ok ⟨qs, g.value, g.children.write g.index (some (tv, tc))⟩ := rfl
          obtain ⟨p1, n1, e1, v1⟩ := view_down hs d1
          obtain ⟨p2, n2, e2, v2⟩ := view_down ht d2
          rw [h, e2] at e1
          obtain ⟨rfl, e3⟩ := List.append_inj' e1 rfl
          have hidx : f.index = g.index := by
            rw [pointer_eq, pointer_eq] at hptr
            exact (List.cons.inj (List.append_inj' hptr rfl).2).1
          have hview : view (⟨ps, f.value, f.children.write f.index (some (sv, sc))⟩ : TreeStack A) = view ⟨qs, g.value, g.children.write g.index (some (tv, tc))⟩ := by
            rw [v1, v2, h]
          have heq := ih _ _ (by simpa using hk) (wf_down hs d1) (wf_down ht d2) (canon_down cs d1) (canon_down ct d2) hview
          simp only [TreeStack.mk.injEq] at heq
          obtain ⟨rfl, hval, hch⟩ := heq
          have hf := hs f (by simp)
          have hg := ht g (by simp)
          have hslot := congrArg (fun c => Forest.slot c f.index) hch
          simp only [Forest.slot_write, hf.1, hidx, hg.1, and_self, if_true, Option.some.injEq, Prod.mk.injEq] at hslot
          rw [← hidx] at hslot
          simp only [hf.1, and_self, if_true, Option.some.injEq, Prod.mk.injEq] at hslot
          have hwr := congrArg (fun c => Forest.write c f.index none) hch
          simp only [← hidx, Forest.write_write] at hwr
          rw [Forest.write_none_of_slot hf.2, Forest.write_none_of_slot (by rw [hidx]; exact hg.2)] at hwr
          obtain ⟨fi, fv, fc⟩ := f
          obtain ⟨gi, gv, gc⟩ := g
          simp only at hidx hval hwr
          rw [hidx, hval, hwr, hslot.1, hslot.2]
  exact key _ s t rfl hs ht cs ct h

end TreeStack

end Rustomata
