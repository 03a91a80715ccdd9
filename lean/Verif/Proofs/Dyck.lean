import Verif.Model.Dyck
import Verif.Proofs.Tsa
import Verif.Proofs.Outer
import Verif.Proofs.Terminate
import Verif.Spec.Dyck

/-!
# Helper lemmas: Dyck languages and multiple Dyck languages
-/

set_option linter.unusedSectionVars false

namespace Rustomata
open Spec

/-! ### Dyck words -/

section dyck
variable {A : Type _}

/-- Words that close the given open brackets. -/
inductive Closes : List A → List (Bracket A) → Prop
  | nil {d} : Dyck d → Closes [] d
  | cons {d a s w} : Dyck d → Closes s w → Closes (a :: s) (d ++ .close a :: w)

theorem Closes.prepend {d : List (Bracket A)} (hd : Dyck d) {s : List A} {w : List (Bracket A)} (h : Closes s w) : Closes s (d ++ w) := by
  cases h with
  | nil h => exact .nil (.append hd h)
  | cons h1 h2 => rw [← List.append_assoc]; exact .cons (.append hd h1) h2

theorem closes_of_loop [DecidableEq A] (s : List A) (w : List (Bracket A)) (h : Bracket.recognizeLoop s w = true) : Closes s w := by
  induction w generalizing s with
  | nil =>
    simp only [Bracket.recognizeLoop, List.isEmpty_iff] at h
    subst h
    exact .nil .nil
  | cons b w ih =>
    cases b with
    | open_ a =>
      have h1 := ih _ (by simpa [Bracket.recognizeLoop] using h)
      cases h1 with
      | @cons d _ _ w' hd hw =>
        have := Closes.prepend (.wrap a hd) hw
        simpa using this
    | close a =>
      cases s with
      | nil => simp [Bracket.recognizeLoop] at h
      | cons c s =>
        simp only [Bracket.recognizeLoop, ne_eq, ite_not, Bool.if_false_right, Bool.and_eq_true, decide_eq_true_eq] at h
        obtain ⟨rfl, h⟩ := h
        exact .cons (d := []) .nil (ih _ h)

theorem loop_dyck [DecidableEq A] {d : List (Bracket A)} (h : Dyck d) (s : List A) (w : List (Bracket A)) :
    Bracket.recognizeLoop s (d ++ w) = Bracket.recognizeLoop s w := by
  induction h generalizing s w with
  | nil => rfl
  | append _ _ ih1 ih2 => rw [List.append_assoc, ih1, ih2]
  | wrap a _ ih =>
    simp only [List.cons_append, List.append_assoc, Bracket.recognizeLoop]
    rw [ih]
    simp [Bracket.recognizeLoop]

end dyck

/-! ### forests of pairs -/

namespace Spec.Pairs
variable {T : Type _}

/-- Concatenation. -/
def append : Pairs T → Pairs T → Pairs T
  | nil, G => G
  | pair a g i r, G => pair a g i (r.append G)

theorem word_append (F G : Pairs T) : (F.append G).word = F.word ++ G.word := by
  induction F with
  | nil => rfl
  | pair a g i r _ ih => simp [append, word, ih]

theorem list_append (F G : Pairs T) (p : Option (List Nat)) : (F.append G).list p = F.list p ++ G.list p := by
  induction F generalizing p with
  | nil => rfl
  | pair a g i r _ ih => simp [append, list, ih]

end Spec.Pairs

section mdl
variable {T : Type _} [DecidableEq T]

/-- The record of a pair. -/
abbrev PairRec (T : Type _) := Option (List Nat) × List Nat × T

/-- The symbols of a group. -/
def symsL (ps : List (PairRec T)) (g : List Nat) : List T := (ps.filter fun x => x.2.1 = g).map fun x => x.2.2

/-- The address of the group that encloses. -/
def addr (φ : List Nat → List Nat) : Option (List Nat) → List Nat
  | none => []
  | some g => φ g

/-- The group of the innermost open pair. -/
def topOf (opn : List (T × List Nat)) : Option (List Nat) := opn.head?.map Prod.snd

/-- The symbol of the open pair of a group. -/
def openSym (opn : List (T × List Nat)) (g : List Nat) : Option T := (opn.find? fun x => x.2 = g).map Prod.fst

theorem symsL_append_same (ps : List (PairRec T)) (p : Option (List Nat)) (g : List Nat) (a : T) : symsL (ps ++ [(p, g, a)]) g = symsL ps g ++ [a] := by
  simp [symsL]

theorem symsL_append_other (ps : List (PairRec T)) (p : Option (List Nat)) {g g' : List Nat} (a : T) (h : g ≠ g') : symsL (ps ++ [(p, g, a)]) g' = symsL ps g' := by
  simp [symsL, h]

theorem symsL_eq_nil {ps : List (PairRec T)} {g : List Nat} (h : ∀ p a, (p, g, a) ∉ ps) : symsL ps g = [] := by
  unfold symsL
  rw [List.map_eq_nil_iff, List.filter_eq_nil_iff]
  rintro ⟨p, g', a⟩ hx
  simp only [decide_eq_true_eq]
  rintro rfl
  exact h p a hx

theorem mem_symsL {ps : List (PairRec T)} {g : List Nat} {a : T} : a ∈ symsL ps g ↔ ∃ p, (p, g, a) ∈ ps := by
  simp only [symsL, List.mem_map, List.mem_filter, decide_eq_true_eq]
  constructor
  · rintro ⟨⟨p, g', a'⟩, ⟨h1, h2⟩, h3⟩
    simp only at h2 h3
    subst h2 h3
    exact ⟨p, h1⟩
  · rintro ⟨p, h⟩
    exact ⟨(p, g, a), ⟨h, rfl⟩, rfl⟩

/-- The tree stack `t` after the pairs `ps` have been opened, of which `opn` are still open (innermost first). `φ` maps groups to nodes. -/
structure MdInv (cells : List (List T)) (pos : T → Nat → Prop) (φ : List Nat → List Nat) (t : TreeStack (MdElem T)) (opn : List (T × List Nat))
    (ps : List (PairRec T)) : Prop where
  wf : t.Wf
  pointer : (view t).pointer = addr φ (topOf opn)
  root : (view t).label [] = some .root
  node : ∀ p g a, (p, g, a) ∈ ps → ∃ c ∈ cells, (view t).label (φ g) = some (.node (openSym opn g) (c.filter (· ∉ symsL ps g))) ∧
    (∀ x ∈ symsL ps g, x ∈ c) ∧ (symsL ps g).Nodup
  dom : ∀ q, q ≠ [] → (view t).label q ≠ none → ∃ p g a, (p, g, a) ∈ ps ∧ φ g = q
  child : ∀ p g a, (p, g, a) ∈ ps → ∃ n, pos a n ∧ φ g = addr φ p ++ [n]
  inj : ∀ p g a p' g' a', (p, g, a) ∈ ps → (p', g', a') ∈ ps → φ g = φ g' → g = g'
  parents : ∀ h g a, (some h, g, a) ∈ ps → ∃ p b, (p, h, b) ∈ ps
  opens : ∀ a g opn', (a, g) :: opn' <:+ opn → (topOf opn', g, a) ∈ ps
  nodup : (opn.map Prod.snd).Nodup
  pre : ∀ x ∈ opn, φ x.2 <+: (view t).pointer

/-- The effect of opening a bracket: a new node, or a closed one that waits for the symbol. -/
structure OpenMove (a : T) (c : List T) (n : Nat) (t t' : TreeStack (MdElem T)) (S : List T) : Prop where
  wf : t'.Wf
  view : view t' = ((view t).write ((view t).child n) (.node (some a) (S.filter (· ≠ a)))).move ((view t).child n)

/-- What is needed of an instruction that opens brackets. -/
structure OpensAs (pos : T → Nat → Prop) (up : T → List T → MdInstr T) : Prop where
  sound : ∀ a c t, t.Wf → ∀ t' ∈ (up a c).apply t, ∃ n S, pos a n ∧ OpenMove a c n t t' S ∧
    (((view t).label ((view t).child n) = none ∧ S = c) ∨ ((view t).label ((view t).child n) = some (.node none S) ∧ a ∈ S))
  fresh : ∀ a c t, t.Wf → (∃ n, pos a n ∧ (view t).label ((view t).child n) = none) → ∃ n, pos a n ∧ (view t).label ((view t).child n) = none ∧
    ∃ t' ∈ (up a c).apply t, OpenMove a c n t t' c
  again : ∀ a c t n S, t.Wf → pos a n → (view t).label ((view t).child n) = some (.node none S) → a ∈ S → ∃ t' ∈ (up a c).apply t, OpenMove a c n t t' S

theorem mem_reopen {a : T} {s t' : TreeStack (MdElem T)} :
    t' ∈ MdInstr.reopen a s ↔ ∃ S, s.value = .node none S ∧ a ∈ S ∧ t' = s.set (.node (some a) (S.filter (· ≠ a))) := by
  unfold MdInstr.reopen TreeStack.currentSymbol
  constructor
  · intro h
    split at h
    · rename_i S hs
      split at h
      · rename_i ha
        exact ⟨S, hs, ha, List.mem_singleton.1 h⟩
      · simp at h
    · simp at h
  · rintro ⟨S, hs, ha, rfl⟩
    rw [hs]
    simp [ha, MdInstr.remove]

theorem pointer_value {t : TreeStack (MdElem T)} (h : t.Wf) : (view t).label (view t).pointer = some t.value := by
  have := TreeStack.view_below h []
  rw [List.append_nil] at this
  rw [this]; rfl

theorem openMove_up {a : T} {c : List T} {n : Nat} {t s : TreeStack (MdElem T)} (h : t.Wf) (hs : t.up n = .ok s) {S : List T} :
    OpenMove a c n t (s.set (.node (some a) (S.filter (· ≠ a)))) S := by
  have hws := TreeStack.wf_up h hs
  refine ⟨TreeStack.wf_set hws _, ?_⟩
  rw [TreeStack.view_set hws, TreeStack.view_up h hs]
  rfl

theorem openMove_push {a : T} {c : List T} {n : Nat} {t s : TreeStack (MdElem T)} (h : t.Wf)
    (hs : t.push n (.node (some a) (MdInstr.remove c a)) = .ok s) : OpenMove a c n t s c :=
  ⟨TreeStack.wf_push h hs, TreeStack.view_push h hs⟩

theorem up_label {n : Nat} {t s : TreeStack (MdElem T)} (h : t.Wf) (hs : t.up n = .ok s) : (view t).label ((view t).child n) = some s.value := by
  have := pointer_value (TreeStack.wf_up h hs)
  rw [TreeStack.view_up h hs] at this
  exact this

theorem up_of_label {n : Nat} {t : TreeStack (MdElem T)} (h : t.Wf) (hl : (view t).label ((view t).child n) ≠ none) : ∃ s, t.up n = .ok s := by
  rw [ne_eq, TreeStack.label_child_none h] at hl
  obtain ⟨⟨v, c⟩, hvc⟩ := Option.ne_none_iff_exists'.1 hl
  exact ⟨_, TreeStack.up_ok.2 ⟨v, c, hvc, rfl⟩⟩

/-- `Up`. -/
theorem opensAs_up : OpensAs (T := T) (fun _ _ => True) MdInstr.up := by
  have key : ∀ a c (t : TreeStack (MdElem T)), ∃ s l, t.push t.children.firstFree (.node (some a) (MdInstr.remove c a)) = .ok s ∧
      List.Forall₂ (fun n s => t.up n = .ok s) t.children.occupied l ∧ (MdInstr.up a c).apply t = s :: l.flatMap (MdInstr.reopen a) := by
    intro a c t
    obtain ⟨s, h1, h2⟩ := TreeStack.pushNext_some t (.node (some a) (MdInstr.remove c a))
    obtain ⟨l, h3, h4⟩ := TreeStack.ups_some t
    refine ⟨s, l, h2, h4, ?_⟩
    simp [MdInstr.apply, MdInstr.applyP, h1, h3]
  constructor
  · intro a c t hw t' ht'
    obtain ⟨s, l, h1, h2, h3⟩ := key a c t
    rw [h3, List.mem_cons] at ht'
    rcases ht' with rfl | ht'
    · exact ⟨_, c, trivial, openMove_push hw h1, .inl ⟨(TreeStack.label_child_none hw _).2 (Forest.slot_firstFree _), rfl⟩⟩
    · obtain ⟨x, hx, hx'⟩ := List.mem_flatMap.1 ht'
      obtain ⟨S, h5, h6, rfl⟩ := mem_reopen.1 hx'
      obtain ⟨n, hn, hup⟩ := forall₂_exists_left h2 hx
      exact ⟨n, S, trivial, openMove_up hw hup, .inr ⟨by rw [up_label hw hup, h5], h6⟩⟩
  · intro a c t hw _
    obtain ⟨s, l, h1, h2, h3⟩ := key a c t
    exact ⟨_, trivial, (TreeStack.label_child_none hw _).2 (Forest.slot_firstFree _), s, by rw [h3]; simp, openMove_push hw h1⟩
  · intro a c t n S hw _ hl ha
    obtain ⟨s, l, h1, h2, h3⟩ := key a c t
    obtain ⟨x, hx⟩ := up_of_label hw (by rw [hl]; simp : (view t).label ((view t).child n) ≠ none)
    have hn : n ∈ t.children.occupied := by
      rw [Forest.mem_occupied, ne_eq, ← TreeStack.label_child_none hw, hl]; simp
    obtain ⟨y, hy, hup⟩ := forall₂_exists_right h2 hn
    rw [hx] at hup
    cases hup
    refine ⟨_, ?_, openMove_up hw hx⟩
    rw [h3, List.mem_cons]
    refine .inr (List.mem_flatMap.2 ⟨x, hy, mem_reopen.2 ⟨S, ?_, ha, rfl⟩⟩)
    have := up_label hw hx
    rw [hl] at this
    exact (Option.some.inj this).symm

/-- `UpAt`. -/
theorem opensAs_upAt (sort : T → Nat) : OpensAs (fun a n => n = sort a) (fun a c => MdInstr.upAt (sort a) a c) := by
  have kv : ∀ a c (t : TreeStack (MdElem T)), t.Wf → (view t).label ((view t).child (sort a)) = none →
      ∃ s, t.push (sort a) (.node (some a) (MdInstr.remove c a)) = .ok s ∧ (MdInstr.upAt (sort a) a c).apply t = [s] := by
    intro a c t hw hl
    rw [TreeStack.label_child_none hw] at hl
    have := (TreeStack.push_ok (t := t) (n := sort a) (a := .node (some a) (MdInstr.remove c a))).2 ⟨hl, rfl⟩
    exact ⟨_, this, by simp [MdInstr.apply, MdInstr.applyP, this]⟩
  have ko : ∀ a c (t : TreeStack (MdElem T)), t.Wf → (view t).label ((view t).child (sort a)) ≠ none →
      ∃ s, t.up (sort a) = .ok s ∧ (MdInstr.upAt (sort a) a c).apply t = MdInstr.reopen a s := by
    intro a c t hw hl
    obtain ⟨s, hs⟩ := up_of_label hw hl
    rw [ne_eq, TreeStack.label_child_none hw] at hl
    have := (TreeStack.push_err (t := t) (n := sort a) (a := .node (some a) (MdInstr.remove c a))).2 ⟨hl, rfl⟩
    exact ⟨s, hs, by simp [MdInstr.apply, MdInstr.applyP, this, hs]⟩
  constructor
  · intro a c t hw t' ht'
    by_cases hl : (view t).label ((view t).child (sort a)) = none
    · obtain ⟨s, h1, h2⟩ := kv a c t hw hl
      rw [h2, List.mem_singleton] at ht'
      subst ht'
      exact ⟨_, c, rfl, openMove_push hw h1, .inl ⟨hl, rfl⟩⟩
    · obtain ⟨s, h1, h2⟩ := ko a c t hw hl
      rw [h2] at ht'
      obtain ⟨S, h5, h6, rfl⟩ := mem_reopen.1 ht'
      exact ⟨_, S, rfl, openMove_up hw h1, .inr ⟨by rw [up_label hw h1, h5], h6⟩⟩
  · rintro a c t hw ⟨n, rfl, hl⟩
    obtain ⟨s, h1, h2⟩ := kv a c t hw hl
    exact ⟨_, rfl, hl, s, by rw [h2]; simp, openMove_push hw h1⟩
  · rintro a c t n S hw rfl hl ha
    obtain ⟨s, h1, h2⟩ := ko a c t hw (by rw [hl]; simp)
    refine ⟨_, ?_, openMove_up hw h1⟩
    rw [h2]
    refine mem_reopen.2 ⟨S, ?_, ha, rfl⟩
    have := up_label hw h1
    rw [hl] at this
    exact (Option.some.inj this).symm

/-- `Down`. -/
theorem mem_apply_down {b : T} {t t' : TreeStack (MdElem T)} : t' ∈ (MdInstr.down b).apply t ↔
    ∃ S, t.value = .node (some b) S ∧ (t.set (.node none S)).down = .ok t' := by
  unfold MdInstr.apply MdInstr.applyP TreeStack.currentSymbol
  simp only
  constructor
  · intro h
    split at h
    · rename_i x S hv
      split at h
      · simp at h
      · rename_i hb
        simp only [ne_eq, not_not] at hb
        subst hb
        split at h
        · rename_i s hs
          simp only [Option.getD_some, List.mem_singleton] at h
          subst h
          exact ⟨S, hv, hs⟩
        · simp at h
    · simp at h
  · rintro ⟨S, hv, hd⟩
    rw [hv]
    simp [hd]


/-! ### the invariant -/

section inv
variable {cells : List (List T)} {pos : T → Nat → Prop} {φ : List Nat → List Nat} {t : TreeStack (MdElem T)} {opn : List (T × List Nat)} {ps : List (PairRec T)}

theorem MdInv.init : MdInv cells pos φ (TreeStack.new (.root : MdElem T)) [] [] where
  wf := TreeStack.wf_new _
  pointer := rfl
  root := rfl
  node := by simp
  dom := by
    intro q hq h
    exfalso
    apply h
    have : [] ≠ q := fun h => hq h.symm
    simp [view, TreeStack.new, TreeStack.toTree, TreeStack.parentsToTree, TreeStack.insertForest, GornTree.insert, GornTree.get]
    exact hq
  child := by simp
  inj := by simp
  parents := by simp
  opens := by intro a g o h; simp at h
  nodup := by simp
  pre := by simp

theorem openSym_eq_none {opn : List (T × List Nat)} {g : List Nat} (h : ∀ x ∈ opn, x.2 ≠ g) : openSym opn g = none := by
  unfold openSym
  rw [Option.map_eq_none_iff, List.find?_eq_none]
  intro x hx
  simpa using h x hx

theorem MdInv.not_open (h : MdInv cells pos φ t opn ps) {g : List Nat} {n : Nat} (hg : φ g = (view t).child n) : ∀ x ∈ opn, x.2 ≠ g := by
  rintro x hx rfl
  have := (h.pre x hx).length_le
  rw [hg] at this
  simp only [Marked.child, List.length_append, List.length_singleton] at this
  omega

theorem child_ne_nil (m : Marked (MdElem T)) (n : Nat) : m.child n ≠ [] := by simp [Marked.child]

/-- Opening a bracket. -/
theorem MdInv.open_ (h : MdInv cells pos φ t opn ps) {φ' : List Nat → List Nat} {a : T} {c S g : List _} {n : Nat} {t' : TreeStack (MdElem T)}
    (hpos : pos a n) (hm : OpenMove a c n t t' S) (hφ : ∀ p g' b, (p, g', b) ∈ ps → φ' g' = φ g') (hg : φ' g = (view t).child n)
    (hcase : ((view t).label ((view t).child n) = none ∧ S = c ∧ c ∈ cells ∧ a ∈ c ∧ ∀ p b, (p, g, b) ∉ ps) ∨
      ((view t).label ((view t).child n) = some (.node none S) ∧ a ∈ S ∧ ∃ p b, (p, g, b) ∈ ps)) :
    MdInv cells pos φ' t' ((a, g) :: opn) (ps ++ [(topOf opn, g, a)]) := by
  have hopen : ∀ x ∈ opn, φ' x.2 = φ x.2 := by
    rintro ⟨b, k⟩ hx
    obtain ⟨l1, l2, rfl⟩ := List.append_of_mem hx
    exact hφ _ _ _ (h.opens b k l2 ⟨l1, rfl⟩)
  have htop : addr φ' (topOf opn) = addr φ (topOf opn) := by
    cases opn with
    | nil => rfl
    | cons x o => exact hopen x (by simp)
  have hptr : (view t').pointer = (view t).child n := by rw [hm.view]; rfl
  have hchild : (view t).child n = addr φ' (topOf opn) ++ [n] := by rw [htop, ← h.pointer]; rfl
  have hlab : ∀ q, (view t').label q = if q = (view t).child n then some (.node (some a) (S.filter (· ≠ a))) else (view t).label q := by
    intro q; rw [hm.view]; rfl
  have hne : ∀ p g' b, (p, g', b) ∈ ps → g' ≠ g → φ' g' ≠ (view t).child n := by
    intro p g' b hmem hg' heq
    rw [hφ _ _ _ hmem] at heq
    rcases hcase with ⟨h1, _⟩ | ⟨h1, _, p2, b2, h2⟩
    · obtain ⟨c', _, h3, _⟩ := h.node _ _ _ hmem
      rw [heq, h1] at h3
      simp at h3
    · have := hφ _ _ _ h2
      exact hg' (h.inj _ _ _ _ _ _ hmem h2 (by rw [heq, ← hg, this]))
  have hnotopen : ∀ x ∈ opn, x.2 ≠ g := by
    rintro x hx rfl
    have h1 := (h.pre x hx).length_le
    rw [← hopen x hx, hg] at h1
    simp only [Marked.child, List.length_append, List.length_singleton] at h1
    omega
  have hsub : ∀ p g' b, (p, g', b) ∈ ps ++ [(topOf opn, g, a)] → (p, g', b) ∈ ps ∨ (p = topOf opn ∧ g' = g ∧ b = a) := by
    intro p g' b hmem
    simpa using hmem
  constructor
  · exact hm.wf
  · rw [hptr]; exact hg.symm
  · rw [hlab, if_neg (child_ne_nil _ _).symm]; exact h.root
  · intro p g' b hmem
    by_cases hgg : g' = g
    · subst hgg
      have ho : openSym ((a, g') :: opn) g' = some a := by simp [openSym]
      rw [ho, hg, hlab, if_pos rfl]
      rw [symsL_append_same]
      rcases hcase with ⟨_, rfl, hc, ha, hfresh⟩ | ⟨h1, ha, p2, b2, h2⟩
      · rw [symsL_eq_nil hfresh]
        refine ⟨S, hc, ?_, by simpa using ha, by simp⟩
        congr 2
        apply List.filter_congr
        simp
      · obtain ⟨c', hc', h3, h4, h5⟩ := h.node _ _ _ h2
        rw [← hφ _ _ _ h2, hg, h1, openSym_eq_none hnotopen] at h3
        simp only [Option.some.injEq, MdElem.node.injEq, true_and] at h3
        subst h3
        simp only [List.mem_filter, decide_eq_true_eq] at ha
        refine ⟨c', hc', ?_, ?_, ?_⟩
        · congr 2
          rw [List.filter_filter]
          apply List.filter_congr
          intro x _
          simp only [List.mem_append, List.mem_singleton, not_or, ne_eq, Bool.decide_and]
          by_cases hxa : x = a <;> by_cases hxs : x ∈ symsL ps g' <;> simp [hxa, hxs]
        · intro x hx
          simp only [List.mem_append, List.mem_singleton] at hx
          rcases hx with hx | rfl
          · exact h4 x hx
          · exact ha.1
        · rw [List.nodup_append]
          refine ⟨h5, by simp, ?_⟩
          rintro x hx y hy rfl
          rw [List.mem_singleton] at hy
          subst hy
          exact ha.2 hx
    · rcases hsub _ _ _ hmem with hmem | ⟨_, h2, _⟩
      · obtain ⟨c', hc', h3, h4, h5⟩ := h.node _ _ _ hmem
        have ho : openSym ((a, g) :: opn) g' = openSym opn g' := by
          unfold openSym
          rw [List.find?_cons_of_neg]
          simpa using fun h => hgg h.symm
        rw [ho, symsL_append_other _ _ _ (fun h => hgg h.symm), hlab, if_neg (hne _ _ _ hmem hgg), hφ _ _ _ hmem]
        exact ⟨c', hc', h3, h4, h5⟩
      · exact absurd h2 hgg
  · intro q hq hl
    by_cases hqc : q = (view t).child n
    · exact ⟨topOf opn, g, a, by simp, by rw [hg, hqc]⟩
    · rw [hlab, if_neg hqc] at hl
      obtain ⟨p, g', b, h1, h2⟩ := h.dom q hq hl
      exact ⟨p, g', b, by simp [h1], by rw [hφ _ _ _ h1]; exact h2⟩
  · intro p g' b hmem
    rcases hsub _ _ _ hmem with hmem | ⟨rfl, rfl, rfl⟩
    · obtain ⟨m, h1, h2⟩ := h.child _ _ _ hmem
      refine ⟨m, h1, ?_⟩
      rw [hφ _ _ _ hmem, h2]
      congr 1
      cases p with
      | none => rfl
      | some k =>
        obtain ⟨p', b', h3⟩ := h.parents _ _ _ hmem
        exact (hφ _ _ _ h3).symm
    · exact ⟨n, hpos, by rw [hg, hchild]⟩
  · intro p g1 b p' g2 b' h1 h2 heq
    by_cases hg1 : g1 = g <;> by_cases hg2 : g2 = g
    · rw [hg1, hg2]
    · rcases hsub _ _ _ h2 with h2 | ⟨_, h2, _⟩
      · rw [hg1, hg] at heq
        exact absurd heq.symm (hne _ _ _ h2 hg2)
      · exact absurd h2 hg2
    · rcases hsub _ _ _ h1 with h1 | ⟨_, h1, _⟩
      · rw [hg2, hg] at heq
        exact absurd heq (hne _ _ _ h1 hg1)
      · exact absurd h1 hg1
    · rcases hsub _ _ _ h1 with h1 | ⟨_, h1, _⟩
      · rcases hsub _ _ _ h2 with h2 | ⟨_, h2, _⟩
        · rw [hφ _ _ _ h1, hφ _ _ _ h2] at heq
          exact h.inj _ _ _ _ _ _ h1 h2 heq
        · exact absurd h2 hg2
      · exact absurd h1 hg1
  · intro k g' b hmem
    rcases hsub _ _ _ hmem with hmem | ⟨h1, rfl, rfl⟩
    · obtain ⟨p, b', h1⟩ := h.parents _ _ _ hmem
      exact ⟨p, b', by simp [h1]⟩
    · cases opn with
      | nil => simp [topOf] at h1
      | cons x o =>
        obtain ⟨b', g''⟩ := x
        simp only [topOf, List.head?_cons, Option.map_some, Option.some.injEq] at h1
        subst h1
        have := h.opens b' k o (List.suffix_refl _)
        exact ⟨_, b', List.mem_append_left _ this⟩
  · intro b k o hsuf
    rw [List.suffix_cons_iff] at hsuf
    rcases hsuf with heq | hsuf
    · simp only [List.cons.injEq, Prod.mk.injEq] at heq
      obtain ⟨⟨rfl, rfl⟩, rfl⟩ := heq
      simp
    · simp [h.opens b k o hsuf]
  · simp only [List.map_cons, List.nodup_cons]
    refine ⟨?_, h.nodup⟩
    intro hmem
    obtain ⟨x, hx, hx'⟩ := List.mem_map.1 hmem
    exact hnotopen x hx hx'
  · intro x hx
    rw [hptr]
    simp only [List.mem_cons] at hx
    rcases hx with rfl | hx
    · exact hg ▸ List.prefix_refl _
    · rw [hopen x hx]
      exact (h.pre x hx).trans (List.prefix_append _ _)

/-- Closing a bracket. -/
theorem MdInv.close {a b : T} {g : List Nat} {t' : TreeStack (MdElem T)} (h : MdInv cells pos φ t ((a, g) :: opn) ps) :
    (t' ∈ (MdInstr.down b).apply t → b = a ∧ MdInv cells pos φ t' opn ps) ∧ ∃ t'', t'' ∈ (MdInstr.down a).apply t := by
  have hmem := h.opens a g opn (List.suffix_refl _)
  obtain ⟨c, hc, h1, h2, h3⟩ := h.node _ _ _ hmem
  obtain ⟨n, hn, h4⟩ := h.child _ _ _ hmem
  have hptr : (view t).pointer = φ g := h.pointer
  have ho : openSym ((a, g) :: opn) g = some a := by simp [openSym]
  have hval : t.value = .node (some a) (c.filter (· ∉ symsL ps g)) := by
    have := pointer_value h.wf
    rw [hptr, h1, ho] at this
    exact (Option.some.inj this).symm
  have hnd := h.nodup
  simp only [List.map_cons, List.nodup_cons] at hnd
  refine ⟨fun ht => ?_, ?_⟩
  · obtain ⟨S, h5, h6⟩ := mem_apply_down.1 ht
    rw [hval] at h5
    simp only [MdElem.node.injEq, Option.some.injEq] at h5
    obtain ⟨rfl, rfl⟩ := h5
    refine ⟨rfl, ?_⟩
    have hws := TreeStack.wf_set h.wf (.node none (c.filter (· ∉ symsL ps g)))
    obtain ⟨q, m, h7, h8⟩ := TreeStack.view_down hws h6
    rw [TreeStack.view_set h.wf] at h7 h8
    have h9 : φ g = q ++ [m] := by rw [← hptr]; exact h7
    have hq : q = addr φ (topOf opn) := by
      rw [h4] at h9
      exact (List.append_inj' h9.symm rfl).1
    have hlab : ∀ x, (view t').label x = if x = φ g then some (.node none (c.filter (· ∉ symsL ps g))) else (view t).label x := by
      intro x; rw [h8, ← hptr]; rfl
    have hgne : φ g ≠ [] := by rw [h4]; simp
    constructor
    · exact TreeStack.wf_down hws h6
    · rw [h8]; exact hq
    · rw [hlab, if_neg hgne.symm]; exact h.root
    · intro p g' b' hmem'
      obtain ⟨c', hc', k1, k2, k3⟩ := h.node _ _ _ hmem'
      by_cases hgg : g' = g
      · subst hgg
        rw [hlab, if_pos rfl, openSym_eq_none]
        · exact ⟨c, hc, rfl, h2, h3⟩
        · intro x hx he
          exact hnd.1 (List.mem_map.2 ⟨x, hx, he⟩)
      · have ho : openSym ((a, g) :: opn) g' = openSym opn g' := by
          unfold openSym
          rw [List.find?_cons_of_neg]
          simpa using fun h => hgg h.symm
        rw [hlab, if_neg (fun he => hgg (h.inj _ _ _ _ _ _ hmem' hmem he)), ← ho]
        exact ⟨c', hc', k1, k2, k3⟩
    · intro x hx hl
      rw [hlab] at hl
      split at hl
      · rename_i hxg
        exact ⟨_, _, _, hmem, hxg.symm⟩
      · exact h.dom x hx hl
    · exact h.child
    · exact h.inj
    · exact h.parents
    · intro a' g' o ho
      exact h.opens a' g' o (ho.trans (List.suffix_cons _ _))
    · exact hnd.2
    · intro x hx
      have hp : (view t').pointer = q := by rw [h8]; rfl
      rw [hp]
      have h10 := h.pre x (by simp [hx])
      rw [hptr, h9] at h10
      rcases List.prefix_concat_iff.1 h10 with h11 | h11
      · exfalso
        have hx2 : x.2 ≠ g := fun he => hnd.1 (List.mem_map.2 ⟨x, hx, he⟩)
        obtain ⟨l1, l2, hl⟩ := List.append_of_mem hx
        have := h.opens x.1 x.2 l2 ⟨(a, g) :: l1, by rw [hl]; rfl⟩
        exact hx2 (h.inj _ _ _ _ _ _ this hmem (by rw [h11, h9]))
      · exact h11
  · have hpar : t.parents ≠ [] := by
      intro hp
      have : (view t).pointer = [] := by rw [TreeStack.pointer_eq, hp]; rfl
      rw [hptr, h4] at this
      simp at this
    obtain ⟨f, fs, hf⟩ := List.exists_cons_of_ne_nil hpar
    exact ⟨_, mem_apply_down.2 ⟨_, hval, TreeStack.down_ok.2 ⟨f, fs, hf, rfl⟩⟩⟩

/-- Nothing can be closed at the root. -/
theorem MdInv.close_nil {b : T} (h : MdInv cells pos φ t [] ps) : (MdInstr.down b).apply t = [] := by
  rw [List.eq_nil_iff_forall_not_mem]
  intro t' ht
  obtain ⟨S, h1, _⟩ := mem_apply_down.1 ht
  have := pointer_value h.wf
  rw [h.pointer] at this
  change (view t).label [] = _ at this
  rw [h.root, h1] at this
  simp at this

end inv


/-! ### the language of the automaton -/

theorem MdInv.addr_inj {cells : List (List T)} {pos : T → Nat → Prop} {φ : List Nat → List Nat} {t : TreeStack (MdElem T)} {opn : List (T × List Nat)}
    {ps : List (PairRec T)} (h : MdInv cells pos φ t opn ps) {p p' : Option (List Nat)} (hp : ∀ k, p = some k → ∃ q b, (q, k, b) ∈ ps)
    (hp' : ∀ k, p' = some k → ∃ q b, (q, k, b) ∈ ps) (he : addr φ p = addr φ p') : p = p' := by
  have hne : ∀ k, (∃ q b, (q, k, b) ∈ ps) → φ k ≠ [] := by
    rintro k ⟨q, b, hk⟩ h0
    obtain ⟨n, _, h1⟩ := h.child _ _ _ hk
    rw [h0] at h1
    simp at h1
  cases p with
  | none =>
    cases p' with
    | none => rfl
    | some k => exact absurd he.symm (hne k (hp' k rfl))
  | some k =>
    cases p' with
    | none => exact absurd he (hne k (hp k rfl))
    | some k' =>
      obtain ⟨q, b, h1⟩ := hp k rfl
      obtain ⟨q', b', h1'⟩ := hp' k' rfl
      rw [h.inj _ _ _ _ _ _ h1 h1' he]

theorem MdInv.parent_eq {cells : List (List T)} {pos : T → Nat → Prop} {φ : List Nat → List Nat} {t : TreeStack (MdElem T)} {opn : List (T × List Nat)}
    {ps : List (PairRec T)} (h : MdInv cells pos φ t opn ps) {p p' : Option (List Nat)} {g : List Nat} {a a' : T} (hm : (p, g, a) ∈ ps)
    (hm' : (p', g, a') ∈ ps) : p = p' := by
  obtain ⟨n, _, h1⟩ := h.child _ _ _ hm
  obtain ⟨n', _, h1'⟩ := h.child _ _ _ hm'
  rw [h1] at h1'
  refine h.addr_inj ?_ ?_ (List.append_inj' h1' rfl).1
  · rintro k rfl; exact h.parents _ _ _ hm
  · rintro k rfl; exact h.parents _ _ _ hm'

theorem MdInv.topOf_seen {cells : List (List T)} {pos : T → Nat → Prop} {φ : List Nat → List Nat} {t : TreeStack (MdElem T)} {opn : List (T × List Nat)}
    {ps : List (PairRec T)} (h : MdInv cells pos φ t opn ps) (k : List Nat) (hk : topOf opn = some k) : ∃ q b, (q, k, b) ∈ ps := by
  cases opn with
  | nil => simp [topOf] at hk
  | cons x o =>
    simp only [topOf, List.head?_cons, Option.map_some, Option.some.injEq] at hk
    subst hk
    exact ⟨_, _, h.opens x.1 x.2 o (List.suffix_refl _)⟩

/-- The last configuration is accepted. -/
theorem MdInv.accept {cells : List (List T)} {pos : T → Nat → Prop} {φ : List Nat → List Nat} {t : TreeStack (MdElem T)} {opn : List (T × List Nat)}
    {ps : List (PairRec T)} (h : MdInv cells pos φ t opn ps) (hnd : ∀ c ∈ cells, c.Nodup) :
    ((t.isAtBottom && t.all MdElem.isEmpty) = true ↔ opn = [] ∧ ∀ p g a, (p, g, a) ∈ ps → ∃ c ∈ cells, (symsL ps g).Perm c ∧
      (view t).label (φ g) = some (.node (openSym opn g) (c.filter (· ∉ symsL ps g)))) := by
  have hall : t.all MdElem.isEmpty = true ↔ ∀ q b, (view t).label ((view t).pointer ++ q) = some b → b.isEmpty = true := by
    simp only [TreeStack.view_below h.wf]
    exact TreeStack.all_nodeAt MdElem.isEmpty t.children t.value
  have hbot : t.isAtBottom = true ↔ opn = [] := by
    have : t.isAtBottom = true ↔ (view t).pointer = [] := by
      rw [TreeStack.pointer_eq, TreeStack.isAtBottom, List.isEmpty_iff]
      cases t.parents with
      | nil => simp [TreeStack.parentsToTree]
      | cons f ps => simp [TreeStack.parentsToTree]
    rw [this, h.pointer]
    constructor
    · intro he
      cases opn with
      | nil => rfl
      | cons x o =>
        exfalso
        obtain ⟨n, _, h1⟩ := h.child _ _ _ (h.opens x.1 x.2 o (List.suffix_refl _))
        change φ x.2 = [] at he
        rw [h1] at he
        simp at he
    · rintro rfl; rfl
  rw [Bool.and_eq_true, hbot, hall]
  constructor
  · rintro ⟨rfl, h2⟩
    refine ⟨rfl, fun p g a hm => ?_⟩
    obtain ⟨c, hc, h3, h4, h5⟩ := h.node _ _ _ hm
    refine ⟨c, hc, ?_, h3⟩
    have h6 := h2 (φ g) _ (by rw [h.pointer]; exact h3)
    simp only [openSym, List.find?_nil, Option.map_none, MdElem.isEmpty, List.isEmpty_iff, List.filter_eq_nil_iff, decide_eq_true_eq, not_not] at h6
    rw [List.perm_ext_iff_of_nodup h5 (hnd c hc)]
    exact fun x => ⟨h4 x, h6 x⟩
  · rintro ⟨rfl, h2⟩
    refine ⟨rfl, fun q b hq => ?_⟩
    rw [h.pointer] at hq
    change (view t).label q = some b at hq
    by_cases hq0 : q = []
    · subst hq0
      rw [h.root] at hq
      cases hq
      rfl
    · obtain ⟨p, g, a, h3, h4⟩ := h.dom q hq0 (by rw [hq]; simp)
      obtain ⟨c, hc, h5, h6⟩ := h2 _ _ _ h3
      rw [← h4, h6] at hq
      cases hq
      simp only [openSym, List.find?_nil, Option.map_none, MdElem.isEmpty, List.isEmpty_iff, List.filter_eq_nil_iff, decide_eq_true_eq, not_not]
      exact fun x hx => h5.mem_iff.2 hx

/-- A partly read word: for each open pair (innermost first) what comes before it on its level, its symbol and its group. -/
abbrev PairFrame (T : Type _) := Pairs T × T × List Nat

def zopn (fs : List (PairFrame T)) : List (T × List Nat) := fs.map Prod.snd

def zword : List (PairFrame T) → Pairs T → List (Bracket T)
  | [], cur => cur.word
  | (b, a, _) :: fs, cur => zword fs b ++ .open_ a :: cur.word

def zlist : List (PairFrame T) → Pairs T → List (PairRec T)
  | [], cur => cur.list none
  | (b, a, g) :: fs, cur => zlist fs b ++ (topOf (zopn fs), g, a) :: cur.list (some g)

theorem zword_append (fs : List (PairFrame T)) (F G : Pairs T) : zword fs (F.append G) = zword fs F ++ G.word := by
  cases fs with
  | nil => exact Pairs.word_append F G
  | cons x fs => obtain ⟨b, a, g⟩ := x; simp [zword, Pairs.word_append]

theorem zlist_append (fs : List (PairFrame T)) (F G : Pairs T) : zlist fs (F.append G) = zlist fs F ++ G.list (topOf (zopn fs)) := by
  cases fs with
  | nil => exact Pairs.list_append F G none
  | cons x fs => obtain ⟨b, a, g⟩ := x; simp [zlist, Pairs.list_append, zopn, topOf]

/-- The transitions for the given cells. -/
def cellTransitions (up : T → List T → MdInstr T) (cells : List (List T)) : List (Transition (MdInstr T) (Bracket T) Nat) :=
  cells.flatMap fun cell => cell.flatMap (Mda.symbolTransitions up cell)

theorem mem_cellTransitions {up : T → List T → MdInstr T} {cells : List (List T)} {t : Transition (MdInstr T) (Bracket T) Nat} :
    t ∈ cellTransitions up cells ↔ ∃ c ∈ cells, ∃ a ∈ c, t = ⟨[.open_ a], 0, up a c⟩ ∨ t = ⟨[.close a], 0, .down a⟩ := by
  simp [cellTransitions, Mda.symbolTransitions, List.mem_flatMap]

section language
variable {cells : List (List T)} {pos : T → Nat → Prop} {up : T → List T → MdInstr T}

theorem sound_exec (hup : OpensAs pos up) {c c' : Configuration (TreeStack (MdElem T)) (Bracket T) Nat}
    {ts : List (Transition (MdInstr T) (Bracket T) Nat)} (h : Exec MdInstr.apply c ts c') (hts : ∀ t ∈ ts, t ∈ cellTransitions up cells) (w : List (Bracket T))
    (fs : List (PairFrame T)) (cur : Pairs T) (hw : w = zword fs cur ++ c.word) (hinv : MdInv cells pos id c.storage (zopn fs) (zlist fs cur)) :
    ∃ fs' cur', w = zword fs' cur' ++ c'.word ∧ MdInv cells pos id c'.storage (zopn fs') (zlist fs' cur') := by
  induction h generalizing fs cur with
  | nil c => exact ⟨fs, cur, hw, hinv⟩
  | @cons c t c1 ts c2 hst _ ih =>
    have ht := hts t (by simp)
    obtain ⟨cell, hcell, a, ha, rfl | rfl⟩ := mem_cellTransitions.1 ht
    · obtain ⟨n, S, h1, h2, h3⟩ := hup.sound a cell _ hinv.wf _ hst.storage
      refine ih (fun t ht => hts t (by simp [ht])) ((cur, a, (view c.storage).child n) :: fs) .nil ?_ ?_
      · rw [hw, hst.word]
        simp [zword, Pairs.word]
      · refine hinv.open_ h1 h2 (fun _ _ _ _ => rfl) rfl ?_
        rcases h3 with ⟨h3, rfl⟩ | ⟨h3, h4⟩
        · refine .inl ⟨h3, rfl, hcell, ha, ?_⟩
          intro p b hm
          obtain ⟨_, _, h5, _⟩ := hinv.node _ _ _ hm
          rw [id, h3] at h5
          simp at h5
        · obtain ⟨p, g, b, h5, h6⟩ := hinv.dom _ (child_ne_nil _ n) (by rw [h3]; simp)
          exact .inr ⟨h3, h4, p, b, by rw [← h6]; exact h5⟩
    · cases fs with
      | nil =>
        have := hst.storage
        rw [hinv.close_nil] at this
        simp at this
      | cons f fs =>
        obtain ⟨b, a', g⟩ := f
        obtain ⟨rfl, h1⟩ := (hinv.close (t' := c1.storage)).1 hst.storage
        refine ih (fun t ht => hts t (by simp [ht])) fs (b.append (.pair a g cur .nil)) ?_ ?_
        · rw [hw, hst.word, zword_append]
          simp [zword, Pairs.word]
        · rw [zlist_append]
          change MdInv cells pos id c1.storage (zopn fs) _ at h1
          simpa [zlist, Pairs.list] using h1

/-- The conditions on all pairs of a word. -/
structure TotOk (cells : List (List T)) (pos : T → Nat → Prop) (tot : List (PairRec T)) : Prop where
  cell : ∀ p g a, (p, g, a) ∈ tot → ∃ c ∈ cells, (symsL tot g).Perm c
  parent : ∀ p p' g a a', (p, g, a) ∈ tot → (p', g, a') ∈ tot → p = p'
  place : ∀ p g a a' n, (p, g, a) ∈ tot → (p, g, a') ∈ tot → pos a n → pos a' n
  fresh : ∀ φ t opn ps a g, MdInv cells pos φ t opn ps → (∀ x ∈ ps, x ∈ tot) → (topOf opn, g, a) ∈ tot → (∀ p b, (p, g, b) ∉ ps) →
    ∃ n, pos a n ∧ (view t).label ((view t).child n) = none

theorem complete_exec (hup : OpensAs pos up) (hdis : ∀ c ∈ cells, ∀ c' ∈ cells, ∀ x, x ∈ c → x ∈ c' → c = c') (hnd : ∀ c ∈ cells, c.Nodup)
    {tot : List (PairRec T)} (htot : TotOk cells pos tot) (F : Pairs T) :
    ∀ (φ : List Nat → List Nat) (t : TreeStack (MdElem T)) (opn : List (T × List Nat)) (ps rest : List (PairRec T)), MdInv cells pos φ t opn ps →
      tot = ps ++ F.list (topOf opn) ++ rest → ∃ φ' t', MdInv cells pos φ' t' opn (ps ++ F.list (topOf opn)) ∧
      ∀ (w : List (Bracket T)) (u : Nat), ∃ ts u', Exec MdInstr.apply ⟨F.word ++ w, t, u⟩ ts ⟨w, t', u'⟩ ∧ ∀ x ∈ ts, x ∈ cellTransitions up cells := by
  induction F with
  | nil =>
    intro φ t opn ps rest hinv _
    refine ⟨φ, t, by simpa [Pairs.list] using hinv, fun w u => ⟨[], u, .nil _, by simp⟩⟩
  | pair a g i r ihi ihr =>
    intro φ t opn ps rest hinv htt
    have hme : (topOf opn, g, a) ∈ tot := by rw [htt]; simp [Pairs.list]
    have hsub : ∀ x ∈ ps, x ∈ tot := by intro x hx; rw [htt]; simp [hx]
    obtain ⟨c, hc, hperm⟩ := htot.cell _ _ _ hme
    have hac : a ∈ c := hperm.mem_iff.1 (mem_symsL.2 ⟨_, hme⟩)
    -- open the bracket
    have hopen : ∃ φ1 t1, MdInv cells pos φ1 t1 ((a, g) :: opn) (ps ++ [(topOf opn, g, a)]) ∧ t1 ∈ (up a c).apply t := by
      by_cases hseen : ∃ p b, (p, g, b) ∈ ps
      · obtain ⟨p, b, hpb⟩ := hseen
        have hp := htot.parent _ _ _ _ _ (hsub _ hpb) hme
        subst hp
        obtain ⟨n, hn, h1⟩ := hinv.child _ _ _ hpb
        rw [← hinv.pointer] at h1
        change φ g = (view t).child n at h1
        obtain ⟨c', hc', h2, h3, h4⟩ := hinv.node _ _ _ hpb
        rw [openSym_eq_none (hinv.not_open h1), h1] at h2
        have hcc : c' = c := hdis c' hc' c hc b (h3 b (mem_symsL.2 ⟨_, hpb⟩)) (hperm.mem_iff.1 (mem_symsL.2 ⟨_, hsub _ hpb⟩))
        subst hcc
        have hpa := htot.place _ _ _ _ n (hsub _ hpb) hme hn
        have hna : a ∉ symsL ps g := by
          have h5 := hperm.nodup_iff.2 (hnd _ hc)
          have h6 : symsL tot g = symsL ps g ++ a :: symsL (i.list (some g) ++ r.list (topOf opn) ++ rest) g := by
            rw [htt]; simp [symsL, Pairs.list]
          rw [h6, List.nodup_append] at h5
          intro ha
          exact h5.2.2 a ha a (by simp) rfl
        have haS : a ∈ c'.filter (· ∉ symsL ps g) := by simp [hac, hna]
        obtain ⟨t1, h7, h8⟩ := hup.again a c' t n _ hinv.wf hpa h2 haS
        exact ⟨φ, t1, hinv.open_ hpa h8 (fun _ _ _ _ => rfl) h1 (.inr ⟨h2, haS, _, b, hpb⟩), h7⟩
      · push Not at hseen
        obtain ⟨n, hpn, hl, t1, h7, h8⟩ := hup.fresh a c t hinv.wf (htot.fresh φ t opn ps a g hinv hsub hme hseen)
        refine ⟨fun x => if x = g then (view t).child n else φ x, t1, hinv.open_ hpn h8 ?_ (by simp) (.inl ⟨hl, rfl, hc, hac, hseen⟩), h7⟩
        intro p g' b hm
        have : g' ≠ g := by rintro rfl; exact hseen p b hm
        simp [this]
    obtain ⟨φ1, t1, hinv1, hap1⟩ := hopen
    obtain ⟨φ2, t2, hinv2, hex2⟩ := ihi φ1 t1 ((a, g) :: opn) _ (r.list (topOf opn) ++ rest) hinv1 (by rw [htt]; simp [Pairs.list, topOf])
    obtain ⟨t3, hap3⟩ := (hinv2.close (b := a) (t' := t2)).2
    have hinv3 := ((hinv2.close).1 hap3).2
    obtain ⟨φ4, t4, hinv4, hex4⟩ := ihr φ2 t3 opn _ rest hinv3 (by rw [htt]; simp [Pairs.list, topOf])
    refine ⟨φ4, t4, by simpa [Pairs.list, topOf] using hinv4, fun w u => ?_⟩
    obtain ⟨ts2, u2, he2, hm2⟩ := hex2 (.close a :: r.word ++ w) (u * 0)
    obtain ⟨ts4, u4, he4, hm4⟩ := hex4 w (u2 * 0)
    have tr : ∀ {c c' c'' : Configuration (TreeStack (MdElem T)) (Bracket T) Nat} {l l'}, Exec MdInstr.apply c l c' → Exec MdInstr.apply c' l' c'' →
        Exec MdInstr.apply c (l ++ l') c'' := by
      intro c c' c'' l l' h1 h2
      induction h1 with
      | nil => exact h2
      | cons hs _ ih => exact .cons hs (ih h2)
    refine ⟨⟨[.open_ a], 0, up a c⟩ :: (ts2 ++ ⟨[.close a], 0, .down a⟩ :: ts4), u4, ?_, ?_⟩
    · refine .cons (c' := ⟨i.word ++ (.close a :: r.word ++ w), t1, u * 0⟩) ⟨by simp [Pairs.word], hap1, rfl⟩ ?_
      refine tr he2 (.cons (c' := ⟨r.word ++ w, t3, u2 * 0⟩) ⟨by simp, hap3, rfl⟩ he4)
    · intro x hx
      simp only [List.mem_cons, List.mem_append] at hx
      rcases hx with rfl | hx | rfl | hx
      · exact mem_cellTransitions.2 ⟨c, hc, a, hac, .inl rfl⟩
      · exact hm2 x hx
      · exact mem_cellTransitions.2 ⟨c, hc, a, hac, .inr rfl⟩
      · exact hm4 x hx

/-- Without sorts there is always a free place. -/
theorem totOk_up {cells : List (List T)} {F : Pairs T} (h : F.Grouped cells) : TotOk cells (fun _ _ => True) (F.list none) where
  cell := h.cell
  parent := h.parent
  place := fun _ _ _ _ _ _ _ _ => trivial
  fresh := by
    intro φ t opn ps a g hinv _ _ _
    exact ⟨_, trivial, (TreeStack.label_child_none hinv.wf _).2 (Forest.slot_firstFree _)⟩

/-- With sorts the place is free. -/
theorem totOk_upAt {cells : List (List T)} {sort : T → Nat} {F : Pairs T} (h : F.Grouped cells) (hs : F.Sorted sort) :
    TotOk cells (fun a n => n = sort a) (F.list none) where
  cell := h.cell
  parent := h.parent
  place := by
    rintro p g a a' n hm hm' rfl
    exact (hs _ _ _ _ _ hm hm').2 rfl
  fresh := by
    intro φ t opn ps a g hinv hsub hm hfresh
    refine ⟨sort a, rfl, ?_⟩
    by_contra hl
    obtain ⟨p, g', b, h1, h2⟩ := hinv.dom _ (child_ne_nil _ _) hl
    obtain ⟨n, h3, h4⟩ := hinv.child _ _ _ h1
    rw [h2, Marked.child, hinv.pointer] at h4
    obtain ⟨h5, h6⟩ := List.append_inj' h4 rfl
    simp only [List.cons.injEq, and_true] at h6
    have hp := hinv.addr_inj hinv.topOf_seen (by rintro k rfl; exact hinv.parents _ _ _ h1) h5
    subst hp
    have hg : g = g' := (hs _ _ _ _ _ hm (hsub _ h1)).1 (by rw [h6, h3])
    subst hg
    exact hfresh _ _ h1

/-- Sound: the pairs of an accepted word. -/
theorem sound_run (hup : OpensAs pos up) (hnd : ∀ c ∈ cells, c.Nodup) {w : List (Bracket T)} {ts : List (Transition (MdInstr T) (Bracket T) Nat)}
    {c : Configuration (TreeStack (MdElem T)) (Bracket T) Nat} (h : IsRun MdInstr.apply (cellTransitions up cells) (.new .root) w ts c)
    (hword : c.word = []) (hacc : (c.storage.isAtBottom && c.storage.all MdElem.isEmpty) = true) :
    ∃ F : Pairs T, F.word = w ∧ F.Grouped cells ∧ MdInv cells pos id c.storage [] (F.list none) := by
  obtain ⟨fs, cur, h1, h2⟩ := sound_exec hup h.1 h.2 w [] .nil (by simp [zword, Pairs.word]) MdInv.init
  obtain ⟨h3, h4⟩ := (h2.accept hnd).1 hacc
  have hfs : fs = [] := List.map_eq_nil_iff.1 h3
  subst hfs
  rw [hword, List.append_nil] at h1
  refine ⟨cur, h1.symm, ⟨?_, ?_⟩, h2⟩
  · intro p g a hm
    obtain ⟨c, hc, hp, _⟩ := h4 p g a hm
    exact ⟨c, hc, hp⟩
  · intro p p' g a a' hm hm'
    exact h2.parent_eq hm hm'

/-- Complete. -/
theorem complete_run (hup : OpensAs pos up) (hdis : ∀ c ∈ cells, ∀ c' ∈ cells, ∀ x, x ∈ c → x ∈ c' → c = c') (hnd : ∀ c ∈ cells, c.Nodup)
    (F : Pairs T) (htot : TotOk cells pos (F.list none)) : ∃ ts c, IsRun MdInstr.apply (cellTransitions up cells) (.new .root) F.word ts c ∧
      c.word = [] ∧ (c.storage.isAtBottom && c.storage.all MdElem.isEmpty) = true := by
  obtain ⟨φ, t, h1, h2⟩ := complete_exec hup hdis hnd htot F id (.new .root) [] [] [] MdInv.init (by simp [topOf])
  obtain ⟨ts, u, h3, h4⟩ := h2 [] 1
  refine ⟨ts, _, ⟨by simpa using h3, h4⟩, rfl, ?_⟩
  have hl : ([] : List (PairRec T)) ++ F.list (topOf ([] : List (T × List Nat))) = F.list none := rfl
  rw [hl] at h1
  refine (h1.accept hnd).2 ⟨rfl, fun p g a hm => ?_⟩
  obtain ⟨c, hc, h5, h6, h7⟩ := h1.node _ _ _ hm
  obtain ⟨c', hc', h8⟩ := htot.cell _ _ _ hm
  have hcc : c' = c := by
    have hx : a ∈ symsL (F.list none) g := mem_symsL.2 ⟨_, hm⟩
    exact hdis c' hc' c hc a (h8.mem_iff.1 hx) (h6 a hx)
  subst hcc
  exact ⟨c', hc, h8, h5⟩

end language

end mdl

end Rustomata
