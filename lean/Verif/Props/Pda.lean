import Verif.Proofs.Pda
import Verif.Proofs.Outer
import Verif.Proofs.Terminate
import Verif.Spec.Integerise

/-!
# Properties C15–C19, C21, C23, C24, C51: integerisation, push-down automata and finite state automata
-/

set_option linter.unusedSectionVars false

namespace Rustomata.Props
open Spec

section integerise
variable {A T W : Type _} [DecidableEq A] [DecidableEq T]

private theorem later_le {i j : Integeriser A} (h : Later i j) (hi : i.Wf) : j.Wf ∧ i.Le j := by
  induction h with
  | refl => exact ⟨hi, .refl _⟩
  | step a _ ih =>
    obtain ⟨h1, h2, _⟩ := Integeriser.integerise_spec ih.1 a
    exact ⟨h1, ih.2.trans h2⟩

private theorem used_wf {i : Integeriser A} (h : Used i) : i.Wf := (later_le h Integeriser.wf_new).1

/-- **C15** A symbol and its integer determine each other, now and after all later calls. -/
theorem C15_symbol {i j : Integeriser A} (hi : Used i) (a : A) (hj : Later (i.integerise a).1 j) :
    j.findValue (i.integerise a).2 = some a ∧ j.findKey a = some (i.integerise a).2 := by
  obtain ⟨h1, h2, h3⟩ := Integeriser.integerise_spec (used_wf hi) a
  obtain ⟨h4, h5⟩ := later_le hj h1
  exact ⟨h3.mono h5, (Integeriser.findKey_some h4).2 (h3.mono h5)⟩

/-- **C15** Integers handed out earlier keep their meaning. -/
theorem C15_stable {i j : Integeriser A} (hi : Used i) (hj : Later i j) {n : Nat} {a : A} (h : i.findValue n = some a ∨ i.findKey a = some n) :
    j.findValue n = some a ∧ j.findKey a = some n := by
  obtain ⟨h4, h5⟩ := later_le hj (used_wf hi)
  have h1 : i.Rel n a := h.elim id (Integeriser.findKey_some (used_wf hi)).1
  exact ⟨h1.mono h5, (Integeriser.findKey_some h4).2 (h1.mono h5)⟩

/-- **C15** Different symbols get different integers and each integer stands for one symbol. -/
theorem C15_distinct {i : Integeriser A} (hi : Used i) {a b : A} {n m : Nat} (ha : i.findKey a = some n) (hb : i.findKey b = some m) :
    n = m ↔ a = b := by
  have h1 := (Integeriser.findKey_some (used_wf hi)).1 ha
  have h2 := (Integeriser.findKey_some (used_wf hi)).1 hb
  have := Integeriser.biUnique (used_wf hi)
  constructor
  · rintro rfl; exact this.2 h1 h2
  · rintro rfl; exact this.1 h1 h2

/-- **C15** Integerising the same symbol again gives the same integer and does not change the integeriser. -/
theorem C15_idempotent {i j : Integeriser A} (hi : Used i) (a : A) (hj : Later (i.integerise a).1 j) :
    j.integerise a = (j, (i.integerise a).2) := by
  have := (C15_symbol hi a hj).2
  unfold Integeriser.integerise at *
  rw [this]

/-- **C15** Words: translation and back is the identity. -/
theorem C15_word {i j : Integeriser A} (hi : Used i) (l : List A) (hj : Later (i.integeriseList l).1 j) :
    j.unList (i.integeriseList l).2 = some l := by
  obtain ⟨h1, h2, h3⟩ := Integeriser.integeriseList_spec (used_wf hi) l
  obtain ⟨h4, h5⟩ := later_le hj h1
  exact Integeriser.unList_iff.2 (h3.imp fun _ _ r => r.mono h5)

/-- **C15** Stacks (`util::push_down::Pushdown`): translation and back is the identity. -/
theorem C15_stack {i j : Integeriser A} (hi : Used i) (p : Pushdown A) (hj : Later (i.integerisePushdown p).1 j) :
    j.unPushdown (i.integerisePushdown p).2 = some p := by
  obtain ⟨h1, h2, h3⟩ := Integeriser.integerisePushdown_spec (used_wf hi) p
  obtain ⟨h4, h5⟩ := later_le hj h1
  exact Integeriser.unPushdown_iff.2 (h3.imp fun _ _ r => r.mono h5)

/-- **C15** Push-down stores: translation and back is the identity. -/
theorem C15_pushdown {i j : Integeriser A} (hi : Used i) (p : PushDown A) (hj : Later (PushDown.integ.integerise i p).1 j) :
    PushDown.integ.unInteg j (PushDown.integ.integerise i p).2 = some p := C15_word hi p hj

/-- **C15** Push-down instructions: translation and back is the identity. -/
theorem C15_pd_instruction {i j : Integeriser A} (hi : Used i) (x : PdInstr A) (hj : Later (PdInstr.integ.integerise i x).1 j) :
    PdInstr.integ.unInteg j (PdInstr.integ.integerise i x).2 = some x := by
  obtain ⟨h1, h2, h3⟩ := PdInstr.integLaws.integerise (used_wf hi) x
  obtain ⟨h4, h5⟩ := later_le hj h1
  exact PdInstr.integLaws.unInteg.2 (PdInstr.integLaws.mono h5 h3)

/-- **C15** Finite state instructions: translation and back is the identity. -/
theorem C15_fs_instruction {i j : Integeriser A} (hi : Used i) (x : FsInstr A) (hj : Later (FsInstr.integ.integerise i x).1 j) :
    FsInstr.integ.unInteg j (FsInstr.integ.integerise i x).2 = some x := by
  obtain ⟨h1, h2, h3⟩ := FsInstr.integLaws.integerise (used_wf hi) x
  obtain ⟨h4, h5⟩ := later_le hj h1
  exact FsInstr.integLaws.unInteg.2 (FsInstr.integLaws.mono h5 h3)

private theorem transition_roundtrip {I J : Type _} {Z : Integerisable A I J} {RI} (hZ : IntegLaws Z RI) {tI tJ : Integeriser T} {aI aJ : Integeriser A}
    (ht : Used tI) (ha : Used aI) (t : Transition I T W) (hj : Later (Transition.integerise Z tI aI t).1.1 tJ)
    (hk : Later (Transition.integerise Z tI aI t).1.2 aJ) :
    Transition.unInteg Z tJ aJ (Transition.integerise Z tI aI t).2 = some t := by
  obtain ⟨h1, h2, h3, h4, h5⟩ := Transition.integerise_spec hZ (used_wf ht) (used_wf ha) t
  exact (Transition.unInteg_iff hZ).2 (TrRel.mono hZ (later_le hj h1).2 (later_le hk h2).2 h5)

/-- **C15** Transitions of push-down automata: translation and back is the identity. -/
theorem C15_pd_transition {tI tJ : Integeriser T} {aI aJ : Integeriser A} (ht : Used tI) (ha : Used aI) (t : Transition (PdInstr A) T W)
    (hj : Later (Transition.integerise PdInstr.integ tI aI t).1.1 tJ) (hk : Later (Transition.integerise PdInstr.integ tI aI t).1.2 aJ) :
    Transition.unInteg PdInstr.integ tJ aJ (Transition.integerise PdInstr.integ tI aI t).2 = some t :=
  transition_roundtrip PdInstr.integLaws ht ha t hj hk

/-- **C15** Transitions of finite state automata: translation and back is the identity. -/
theorem C15_fs_transition {tI tJ : Integeriser T} {aI aJ : Integeriser A} (ht : Used tI) (ha : Used aI) (t : Transition (FsInstr A) T W)
    (hj : Later (Transition.integerise FsInstr.integ tI aI t).1.1 tJ) (hk : Later (Transition.integerise FsInstr.integ tI aI t).1.2 aJ) :
    Transition.unInteg FsInstr.integ tJ aJ (Transition.integerise FsInstr.integ tI aI t).2 = some t :=
  transition_roundtrip FsInstr.integLaws ht ha t hj hk

/-- **C15** Applying a push-down instruction commutes with the translation. -/
theorem C15_pd_apply {i : Integeriser A} (hi : Used i) {x : PdInstr A} {y : PdInstr Nat} (hx : PdInstr.integ.unInteg i y = some x)
    {p : PushDown A} {q : PushDown Nat} (hp : PushDown.integ.unInteg i q = some p) :
    (y.apply q).mapM (PushDown.integ.unInteg i) = some (x.apply p) := by
  rw [mapM_eq_some_iff]
  exact (PdInstr.apply_rel (Integeriser.biUnique (used_wf hi)) (PdInstr.integLaws.unInteg.1 hx) (PushDown.integLaws.unInteg.1 hp)).imp
    fun _ _ => PushDown.integLaws.unInteg.2

/-- **C15** Applying a finite state instruction commutes with the translation. -/
theorem C15_fs_apply {i : Integeriser A} (hi : Used i) {x : FsInstr A} {y : FsInstr Nat} (hx : FsInstr.integ.unInteg i y = some x)
    {p : A} {q : Nat} (hp : i.findValue q = some p) :
    (y.apply q).mapM i.findValue = some (x.apply p) := by
  rw [mapM_eq_some_iff]
  exact FsInstr.apply_rel (Integeriser.biUnique (used_wf hi)) (FsInstr.integLaws.unInteg.1 hx) hp

example : ∃ i j : Integeriser Char, Used i ∧ Later (PdInstr.integ.integerise i ⟨['b', 'c'], ['b']⟩).1 j ∧
    (PdInstr.integ.integerise i ⟨['b', 'c'], ['b']⟩).2 = ⟨[1, 2], [1]⟩ ∧ i ≠ j :=
  ⟨⟨['a', 'b']⟩, ⟨['a', 'b', 'c', 'd']⟩, .step 'b' (.step 'a' (.refl _)), .step 'd' (.refl _), by decide, by
    intro h; simp [Integeriser.mk.injEq] at h⟩

end integerise

/-! ### C21 -/

section pda
variable {A T W H : Type _} [DecidableEq A] [DecidableEq T]

/-- **C21** `Replace(cur, new)`: applicable iff `cur`, written top first, is the top of the store; the result replaces this segment by `new`
and keeps what is below. -/
theorem C21_replace (i : PdInstr A) (p : PushDown A) :
    (∀ q, q ∈ i.apply p ↔ ∃ below, p = below ++ i.current.reverse ∧ q = below ++ i.new) ∧ (i.apply p).length ≤ 1 := by
  refine ⟨fun q => PdInstr.mem_apply, ?_⟩
  unfold PdInstr.apply
  split <;> simp

/-- **C21** When it is not applicable, `replace` gives back the store unchanged. -/
theorem C21_replace_error (p q : PushDown A) (cur new : List A) (h : p.replace cur new = .error q) :
    q = p ∧ ¬ ∃ below, p = below ++ cur.reverse := by
  constructor
  · unfold PushDown.replace at h
    split at h
    · simp at h
    · simpa using h.symm
  · rintro ⟨below, hb⟩
    rw [PushDown.replace_ok.2 ⟨below, hb, rfl⟩] at h
    simp at h

example : (⟨['c', 'b'], ['x', 'y']⟩ : PdInstr Char).apply ['a', 'b', 'c'] = [['a', 'x', 'y']] ∧
    (⟨['b', 'c'], ['x', 'y']⟩ : PdInstr Char).apply ['a', 'b', 'c'] = [] := by decide

/-! ### C23 -/

private theorem total_eq [AddMonoid W] {I : Type _} [DecidableEq I] (ts : List (Transition I T W)) (k : List T × I) :
    PDA.total ts k = (weightsOf ts k.1 k.2).sum := by
  rw [PDA.total_sum]
  unfold weightsOf
  congr 1
  induction ts with
  | nil => rfl
  | cons t ts ih =>
    rw [List.filter_cons, List.filterMap_cons]
    by_cases h : t.word = k.1 ∧ t.instruction = k.2
    · have : PDA.keyOf t = k := Prod.ext h.1 h.2
      simp [h, this, ih]
    · have : ¬ PDA.keyOf t = k := by rintro rfl; exact h ⟨rfl, rfl⟩
      simp [h, this, ih]

/-- **C23** `list_transitions` of the automaton built from `ts`: each pair of word and instruction of `ts` occurs exactly once, its weight is the
sum of the weights of all its occurrences, and there is nothing else. -/
theorem C23_new [AddMonoid W] (ts : List (Transition (PdInstr A) T W)) (initial : PushDown A) (P : PDA A T W) (hP : PDA.new ts initial = some P) :
    P.initialStore = some initial ∧ ∃ L, P.listTransitions = some L ∧
      (L.map fun t => (t.word, t.instruction)).Nodup ∧
      ∀ t, t ∈ L ↔ (∃ t' ∈ ts, t'.word = t.word ∧ t'.instruction = t.instruction) ∧ t.weight = (weightsOf ts t.word t.instruction).sum := by
  obtain ⟨L, h1, h2⟩ := PDA.new_built hP
  refine ⟨PushDown.integLaws.unInteg.2 h2.init, L, h1, h2.nodup, ?_⟩
  intro t
  constructor
  · intro ht
    obtain ⟨t', h3, h4⟩ := List.mem_map.1 ((h2.mem _).1 (List.mem_map.2 ⟨t, ht, rfl⟩))
    obtain ⟨h5, h6⟩ := Prod.mk.inj h4
    exact ⟨⟨t', h3, h5, h6⟩, by rw [h2.weight t ht, total_eq]; rfl⟩
  · rintro ⟨⟨t', h3, h4, h5⟩, h6⟩
    obtain ⟨t'', h7, h8⟩ := List.mem_map.1 ((h2.mem (PDA.keyOf t)).2 (List.mem_map.2 ⟨t', h3, Prod.ext h4 h5⟩))
    have h9 := h2.weight t'' h7
    rw [h8, total_eq] at h9
    have : t'' = t := by
      obtain ⟨a, b, c⟩ := t
      obtain ⟨a', b', c'⟩ := t''
      obtain ⟨rfl, rfl⟩ := Prod.mk.inj h8
      simp only at h9 h6
      rw [h9, h6]; rfl
    exact this ▸ h7

/-- **C23** `new` panics iff some instruction has an empty `current_val`. -/
theorem C23_new_panics [Zero W] [Add W] (ts : List (Transition (PdInstr A) T W)) (initial : PushDown A) :
    PDA.new ts initial = none ↔ ∃ t ∈ ts, t.instruction.current = [] := by
  unfold PDA.new
  constructor
  · intro h
    by_contra hc
    push Not at hc
    have := PDA.foldlM_isSome ts (⟨(PushDown.integ.integerise Integeriser.new initial).1, Integeriser.new, []⟩ : PDA.BuildState A T W) hc
    obtain ⟨s, hs⟩ := Option.isSome_iff_exists.1 this
    simp [hs] at h
  · rintro ⟨t, ht, h⟩
    simp [PDA.foldlM_none ts _ ht h]

private def exTs : List (Transition (PdInstr Char) Char Nat) :=
  [⟨['a'], 1, ⟨['S'], ['S', 'A']⟩⟩, ⟨['a'], 2, ⟨['S'], ['S', 'A']⟩⟩, ⟨['b'], 1, ⟨['A'], []⟩⟩, ⟨[], 1, ⟨['S'], []⟩⟩]

example : ((PDA.new exTs ['E', 'S']).bind PDA.listTransitions) =
    some [⟨['a'], 3, ⟨['S'], ['S', 'A']⟩⟩, ⟨[], 1, ⟨['S'], []⟩⟩, ⟨['b'], 1, ⟨['A'], []⟩⟩] := by decide

/-! ### recognition with push-down automata -/

/-- **C16** Push-down automata: every returned item has read the whole word and carries an accepting run of the automaton with the listed
transitions; storage and weight are those of the run. Dropping agendas are included. -/
theorem C16_pda_sound [Mul W] [One W] [Zero W] [Add W] {ts : List (Transition (PdInstr A) T W)} {initial : PushDown A} {P : PDA A T W} (hP : PDA.new ts initial = some P)
    {G : Agenda H (Item (PushDown Nat) (PdInstr Nat) Nat W)} {content : H → Multiset (Item (PushDown Nat) (PdInstr Nat) Nat W)} (hG : G.Sound content)
    {empty : H} (hempty : content empty = 0) {w : List T} {n : Nat} {out : List (Item (PushDown A) (PdInstr A) T W)} {a : H}
    (hrun : P.recognise G empty w n = some (out, a)) :
    ∃ L, P.listTransitions = some L ∧ ∀ i ∈ out, i.conf.word = [] ∧ (PDA.device L initial).Accepting w i.run.toVec i.conf.storage i.conf.weight := by
  obtain ⟨L, h1, h2⟩ := PDA.new_built hP
  exact ⟨L, h1, fun i hi => h2.represents.sound hG hempty hrun i hi⟩

/-- **C17** Push-down automata: when recognition has ended, exactly the accepting runs have been returned, each once. -/
theorem C17_pda_exact [Mul W] [One W] [Zero W] [Add W] [DecidableEq W] {ts : List (Transition (PdInstr A) T W)} {initial : PushDown A} {P : PDA A T W}
    (hP : PDA.new ts initial = some P)
    {G : Agenda H (Item (PushDown Nat) (PdInstr Nat) Nat W)} {content : H → Multiset (Item (PushDown Nat) (PdInstr Nat) Nat W)} (hG : G.Lossless content)
    {empty : H} (hempty : content empty = 0) {w : List T} {n : Nat} {out : List (Item (PushDown A) (PdInstr A) T W)} {a : H}
    (hrun : P.recognise G empty w n = some (out, a)) (hend : G.pop a = none) :
    ∃ L, P.listTransitions = some L ∧ out.Nodup ∧
      ∀ i, i ∈ out ↔ i.conf.word = [] ∧ (PDA.device L initial).Accepting w i.run.toVec i.conf.storage i.conf.weight := by
  obtain ⟨L, h1, h2⟩ := PDA.new_built hP
  have hex := h2.represents.exact_runs h2.coherent hG hempty hrun hend
  refine ⟨L, h1, ?_, hex⟩
  rw [List.nodup_iff_count_le_one]
  intro i
  by_cases hi : i ∈ out
  · obtain ⟨h3, h4⟩ := (hex i).1 hi
    rw [h2.represents.exact_count h2.coherent hG hempty hrun hend i h3 h4]
    have c1 : (i.run.toVec.map fun t => (PDA.device L initial).transitions.count t).prod ≤ 1 := by
      have hnd : L.Nodup := List.Nodup.of_map _ h2.nodup
      generalize i.run.toVec = l
      induction l with
      | nil => simp
      | cons t l ih =>
        rw [List.map_cons, List.prod_cons]
        exact Nat.mul_le_mul (List.nodup_iff_count_le_one.1 hnd t) ih
    have c2 : ∀ (is : List (PdInstr A)) (s : PushDown A), (storages PdInstr.apply is s).length ≤ 1 := by
      intro is
      induction is with
      | nil => intro s; simp [storages]
      | cons j js ih =>
        intro s
        simp only [storages]
        have := (C21_replace j s).2
        match hj : j.apply s, this with
        | [], _ => simp
        | [x], _ => simpa using ih x
    refine Nat.mul_le_mul c1 (le_trans ?_ (c2 (i.run.toVec.map Transition.instruction) initial))
    exact @List.count_le_length (PushDown A) instBEqOfDecidableEq _ _
  · rw [List.count_eq_zero.2 hi]; exact Nat.zero_le _

/-- **C18** Push-down automata: parses come in non-increasing weight if no transition increases weights. -/
theorem C18_pda_sorted [Mul W] [One W] [Zero W] [Add W] [Preorder W] {ts : List (Transition (PdInstr A) T W)} {initial : PushDown A} {P : PDA A T W}
    (hP : PDA.new ts initial = some P) {L : List (Transition (PdInstr A) T W)} (hL : P.listTransitions = some L)
    (hw : ∀ t ∈ L, ∀ u : W, u * t.weight ≤ u)
    {G : Agenda H (Item (PushDown Nat) (PdInstr Nat) Nat W)} {content : H → Multiset (Item (PushDown Nat) (PdInstr Nat) Nat W)}
    (hG : HeapLaws G content (fun i => i.conf.weight)) {empty : H} {w : List T} {n : Nat} {out : List (Item (PushDown A) (PdInstr A) T W)} {a : H}
    (hrun : P.recognise G empty w n = some (out, a)) :
    out.Pairwise (fun i j => j.conf.weight ≤ i.conf.weight) := by
  obtain ⟨L', h1, h2⟩ := PDA.new_built hP
  obtain rfl : L' = L := by rw [hL] at h1; exact (Option.some.inj h1).symm
  exact h2.represents.sorted hG hw hrun

/-- **C18** Push-down automata: when a parse `x` is returned, every parse with a greater weight has been returned before. -/
theorem C18_pda_best_first [Mul W] [One W] [Zero W] [Add W] [Preorder W] {ts : List (Transition (PdInstr A) T W)} {initial : PushDown A} {P : PDA A T W}
    (hP : PDA.new ts initial = some P) {L : List (Transition (PdInstr A) T W)} (hL : P.listTransitions = some L)
    (hw : ∀ t ∈ L, ∀ u : W, u * t.weight ≤ u)
    {G : Agenda H (Item (PushDown Nat) (PdInstr Nat) Nat W)} {content : H → Multiset (Item (PushDown Nat) (PdInstr Nat) Nat W)}
    (hG : HeapLaws G content (fun i => i.conf.weight)) {empty : H} (hempty : content empty = 0) {w : List T} {n : Nat}
    {ys : List (Item (PushDown A) (PdInstr A) T W)} {x : Item (PushDown A) (PdInstr A) T W} {a : H}
    (hrun : P.recognise G empty w n = some (ys ++ [x], a)) (z : Item (PushDown A) (PdInstr A) T W) (hzw : z.conf.word = [])
    (hz : (PDA.device L initial).Accepting w z.run.toVec z.conf.storage z.conf.weight) (hlt : x.conf.weight < z.conf.weight) : z ∈ ys := by
  obtain ⟨L', h1, h2⟩ := PDA.new_built hP
  obtain rfl : L' = L := by rw [hL] at h1; exact (Option.some.inj h1).symm
  exact h2.represents.best_first h2.coherent hG hempty hw hrun z hzw hz hlt

/-- **C17** Recognition ends if every transition reads something. -/
theorem C17_recognise_terminates {K S I T' : Type _} [DecidableEq K] [DecidableEq T'] [Mul W] [One W] {G : Agenda H (Item S I T' W)}
    {content : H → Multiset (Item S I T' W)} (hG : G.Sound content)
    (empty : H) (M : Automaton K S I T' W) (hread : ∀ t ∈ M.transitions, t.word ≠ []) (word : Option (List T')) :
    ∃ N, ∀ n ≥ N, ∀ out a, M.recognise G empty word n = some (out, a) → G.pop a = none :=
  Automaton.recognise_terminates hG empty M hread word

/-! ### C51 -/

/-- The claim C51 for push-down automata. -/
def C51_claim : Prop :=
  ∀ (ts : List (Transition (PdInstr Char) Char Nat)) (empty initial : Char) (P : PDA Char Char Nat),
    PDA.new ts (PushDown.new empty initial) = some P → ∀ w n, P.recognise (vecAgenda _) [] w n ≠ none

/-- **C51** Recognition with a push-down automaton can panic: when the store becomes empty, the key of the configuration does not exist. -/
theorem C51_pda_no_panic_violated : ¬ C51_claim := by
  intro h
  have := h [⟨[], 1, ⟨['S', 'E'], []⟩⟩] 'E' 'S' _ rfl [] 2
  exact this (by decide)

/-- **C51** If the instructions never remove the bottom symbol, i.e. no reachable store is empty, recognition does not panic. -/
theorem C51_pda_no_panic_partial [Mul W] [One W] [Zero W] [Add W] {ts : List (Transition (PdInstr A) T W)} {initial : PushDown A} {P : PDA A T W}
    (hP : PDA.new ts initial = some P)
    (hne : ∀ L, P.listTransitions = some L → ∀ w ts' c, IsRun PdInstr.apply L initial w ts' c → c.storage ≠ [])
    {G : Agenda H (Item (PushDown Nat) (PdInstr Nat) Nat W)} {content : H → Multiset (Item (PushDown Nat) (PdInstr Nat) Nat W)} (hG : G.Sound content)
    {empty : H} (hempty : content empty = 0) (w : List T) (n : Nat) : ∃ r, P.recognise G empty w n = some r := by
  obtain ⟨L, h1, h2⟩ := PDA.new_built hP
  have R := h2.represents
  obtain ⟨out, a, h3⟩ := Automaton.recognise_no_panic hG hempty P.automaton (w.mapM P.terminalToInt) (by
    intro w0 ts' c hw hr
    obtain ⟨ts'', c', h4, h5, h6⟩ := R.isRun_outer (R.mapM_toInt.1 hw) hr
    have h7 := hne L h1 w ts'' c' h6
    have h8 : c.storage ≠ [] := by
      intro e
      have := h5.storage
      rw [e] at this
      exact h7 (List.forall₂_nil_left_iff.1 this)
    exact ⟨c.storage.getLast h8, List.getLast?_eq_some_getLast h8⟩) n
  obtain ⟨out', h4⟩ := R.recogniseOuter_no_panic hG hempty h3
  exact ⟨_, h4⟩

end pda

/-! ### finite state automata -/

section fsa
variable {Q T W H : Type _} [DecidableEq Q] [DecidableEq T]

private theorem path_exec [Mul W] [One W] {ts : List (Transition (FsInstr Q) T W)} {q r : Q} {w : List T} {u : W} (h : FsPath ts q w u r) (v : List T) :
    ∃ run, IsRun FsInstr.apply ts q (w ++ v) run ⟨v, r, u⟩ := by
  induction h generalizing v with
  | nil => exact ⟨[], .nil _, by simp⟩
  | @snoc w u t ht _ ih =>
    obtain ⟨run, h1, h2⟩ := ih (t.word ++ v)
    refine ⟨run ++ [t], ?_, ?_⟩
    · rw [List.append_assoc]
      exact Spec.Exec.snoc h1 ⟨rfl, by simp [FsInstr.apply], rfl⟩
    · intro t' ht'
      rcases List.mem_append.1 ht' with h | h
      · exact h2 t' h
      · rw [List.mem_singleton.1 h]; exact ht

private theorem exec_path [Mul W] [One W] {ts : List (Transition (FsInstr Q) T W)} {q : Q} (run : List (Transition (FsInstr Q) T W)) :
    ∀ (w : List T) (q1 : Q) (u1 : W) (w0 : List T) (c : Configuration Q T W), FsPath ts q w0 u1 q1 → Exec FsInstr.apply ⟨w, q1, u1⟩ run c →
      (∀ t ∈ run, t ∈ ts) → ∃ w1, w = w1 ++ c.word ∧ FsPath ts q (w0 ++ w1) c.weight c.storage := by
  induction run with
  | nil =>
    intro w q1 u1 w0 c hp he _
    cases he
    exact ⟨[], rfl, by simpa using hp⟩
  | cons t run ih =>
    intro w q1 u1 w0 c hp he hm
    cases he with
    | @cons _ _ c' _ _ hst he =>
      obtain ⟨cw, cs, cu⟩ := c'
      obtain ⟨h1, h2, h3⟩ := hst
      simp only [FsInstr.apply] at h1 h2 h3
      split at h2
      · rename_i hq
        rw [List.mem_singleton] at h2
        subst h2 h3 hq
        obtain ⟨w1, h4, h5⟩ := ih _ _ _ _ _ (.snoc t (hm t (by simp)) hp) he (fun t ht => hm t (by simp [ht]))
        refine ⟨t.word ++ w1, by rw [h1, h4, List.append_assoc], by rw [← List.append_assoc]; exact h5⟩
      · simp at h2

/-- **C24** A finite state automaton built from `ts` accepts exactly the words of paths from the initial to a final state; weights agree. -/
theorem C24_language [Mul W] [One W] (ts : List (Transition (FsInstr Q) T W)) (initial : Q) (finals : List Q) :
    ∃ L, (FSA.new ts initial finals).listTransitions = some L ∧ L.Perm ts ∧ (FSA.new ts initial finals).initialState = some initial ∧
      ∀ w q u, (∃ run, (FSA.device L initial finals).Accepting w run q u) ↔ q ∈ finals ∧ FsPath ts initial w u q := by
  obtain ⟨L, h1, h2, h3, _⟩ := FSA.new_represents (W := W) ts initial finals
  refine ⟨L, h1, h2, h3, ?_⟩
  intro w q u
  constructor
  · rintro ⟨run, ⟨he, hm⟩, hacc⟩
    obtain ⟨w1, h4, h5⟩ := exec_path (ts := ts) (q := initial) run _ _ _ [] _ (.nil _) he (fun t ht => (h2.mem_iff).1 (hm t ht))
    simp only [List.append_nil, List.nil_append] at h4 h5
    subst h4
    exact ⟨by simpa [FSA.device] using hacc, h5⟩
  · rintro ⟨hq, hp⟩
    obtain ⟨run, he, hm⟩ := path_exec hp []
    rw [List.append_nil] at he
    exact ⟨run, ⟨he, fun t ht => h2.mem_iff.2 (hm t ht)⟩, by simpa [FSA.device] using hq⟩

/-- **C16** Finite state automata: every returned item has read the whole word and carries an accepting run. -/
theorem C16_fsa_sound [Mul W] [One W] (ts : List (Transition (FsInstr Q) T W)) (initial : Q) (finals : List Q)
    {G : Agenda H (Item Nat (FsInstr Nat) Nat W)} {content : H → Multiset (Item Nat (FsInstr Nat) Nat W)} (hG : G.Sound content)
    {empty : H} (hempty : content empty = 0) {w : List T} {n : Nat} {out : List (Item Q (FsInstr Q) T W)} {a : H}
    (hrun : (FSA.new ts initial finals).recognise G empty w n = some (out, a)) :
    ∀ i ∈ out, i.conf.word = [] ∧ (FSA.device ts initial finals).Accepting w i.run.toVec i.conf.storage i.conf.weight := by
  obtain ⟨L, h1, h2, h3, h4⟩ := FSA.new_represents (W := W) ts initial finals
  intro i hi
  obtain ⟨h5, ⟨h6, h7⟩, h8⟩ := h4.sound hG hempty hrun i hi
  exact ⟨h5, ⟨h6, fun t ht => h2.mem_iff.1 (h7 t ht)⟩, h8⟩

/-- **C17** Finite state automata: when recognition has ended, exactly the accepting runs have been returned, as often as the run's transitions
occur in `ts`. -/
theorem C17_fsa_exact [Mul W] [One W] [DecidableEq W] (ts : List (Transition (FsInstr Q) T W)) (initial : Q) (finals : List Q)
    {G : Agenda H (Item Nat (FsInstr Nat) Nat W)} {content : H → Multiset (Item Nat (FsInstr Nat) Nat W)} (hG : G.Lossless content)
    {empty : H} (hempty : content empty = 0) {w : List T} {n : Nat} {out : List (Item Q (FsInstr Q) T W)} {a : H}
    (hrun : (FSA.new ts initial finals).recognise G empty w n = some (out, a)) (hend : G.pop a = none) (i : Item Q (FsInstr Q) T W) :
    (i ∈ out ↔ i.conf.word = [] ∧ (FSA.device ts initial finals).Accepting w i.run.toVec i.conf.storage i.conf.weight) ∧
    (i ∈ out → out.count i = (i.run.toVec.map fun t => ts.count t).prod) := by
  obtain ⟨L, h1, h2, h3, h4⟩ := FSA.new_represents (W := W) ts initial finals
  have hco := FSA.new_coherent (W := W) ts initial finals
  have key : (FSA.device L initial finals).Accepting w i.run.toVec i.conf.storage i.conf.weight ↔
      (FSA.device ts initial finals).Accepting w i.run.toVec i.conf.storage i.conf.weight := by
    constructor
    · rintro ⟨⟨h6, h7⟩, h8⟩; exact ⟨⟨h6, fun t ht => h2.mem_iff.1 (h7 t ht)⟩, h8⟩
    · rintro ⟨⟨h6, h7⟩, h8⟩; exact ⟨⟨h6, fun t ht => h2.mem_iff.2 (h7 t ht)⟩, h8⟩
  have hex := h4.exact_runs hco hG hempty hrun hend i
  refine ⟨by rw [hex, key], ?_⟩
  intro hi
  obtain ⟨h5, h6⟩ := hex.1 hi
  rw [h4.exact_count hco hG hempty hrun hend i h5 h6]
  have c1 : ∀ t, (FSA.device L initial finals).transitions.count t = ts.count t := fun t => h2.count_eq t
  simp only [c1]
  have c2 : ∀ (is : List (FsInstr Q)) (s : Q), (storages FsInstr.apply is s).length ≤ 1 := by
    intro is
    induction is with
    | nil => intro s; simp [storages]
    | cons j js ih =>
      intro s
      simp only [storages, FsInstr.apply]
      split
      · simpa using ih _
      · simp
  have c3 : i.conf.storage ∈ storages FsInstr.apply (i.run.toVec.map Transition.instruction) initial :=
    ((exec_iff_from _ _ _ _).1 h6.1.1).2.1
  have c4 : (storages FsInstr.apply (i.run.toVec.map Transition.instruction) initial).count i.conf.storage = 1 := by
    apply Nat.le_antisymm ((List.count_le_length).trans (c2 _ _))
    exact List.count_pos_iff.2 c3
  show _ * (storages FsInstr.apply (i.run.toVec.map Transition.instruction) initial).count i.conf.storage = _
  rw [c4, Nat.mul_one]

/-- **C18** Finite state automata: parses come in non-increasing weight, and better parses come first. -/
theorem C18_fsa_best_first [Mul W] [One W] [Preorder W] (ts : List (Transition (FsInstr Q) T W)) (initial : Q) (finals : List Q)
    (hw : ∀ t ∈ ts, ∀ u : W, u * t.weight ≤ u)
    {G : Agenda H (Item Nat (FsInstr Nat) Nat W)} {content : H → Multiset (Item Nat (FsInstr Nat) Nat W)}
    (hG : HeapLaws G content (fun i => i.conf.weight)) {empty : H} (hempty : content empty = 0) {w : List T} {n : Nat}
    {out : List (Item Q (FsInstr Q) T W)} {a : H} (hrun : (FSA.new ts initial finals).recognise G empty w n = some (out, a)) :
    out.Pairwise (fun i j => j.conf.weight ≤ i.conf.weight) ∧
    ∀ ys x, out = ys ++ [x] → ∀ z : Item Q (FsInstr Q) T W, z.conf.word = [] →
      (FSA.device ts initial finals).Accepting w z.run.toVec z.conf.storage z.conf.weight → x.conf.weight < z.conf.weight → z ∈ ys := by
  obtain ⟨L, h1, h2, h3, h4⟩ := FSA.new_represents (W := W) ts initial finals
  have hw' : ∀ t ∈ (FSA.device L initial finals).transitions, ∀ u : W, u * t.weight ≤ u := fun t ht => hw t (h2.mem_iff.1 ht)
  refine ⟨h4.sorted hG hw' hrun, ?_⟩
  rintro ys x rfl z hz ⟨⟨h6, h7⟩, h8⟩ hlt
  exact h4.best_first (FSA.new_coherent ts initial finals) hG hempty hw' hrun z hz ⟨⟨h6, fun t ht => h2.mem_iff.2 (h7 t ht)⟩, h8⟩ hlt

/-- **C51** Recognition with a finite state automaton never panics. -/
theorem C51_fsa_no_panic [Mul W] [One W] (ts : List (Transition (FsInstr Q) T W)) (initial : Q) (finals : List Q)
    {G : Agenda H (Item Nat (FsInstr Nat) Nat W)} {content : H → Multiset (Item Nat (FsInstr Nat) Nat W)} (hG : G.Sound content)
    {empty : H} (hempty : content empty = 0) (w : List T) (n : Nat) : ∃ r, (FSA.new ts initial finals).recognise G empty w n = some r := by
  obtain ⟨L, h1, h2, h3, h4⟩ := FSA.new_represents (W := W) ts initial finals
  obtain ⟨out, a, h5⟩ := Automaton.recognise_no_panic hG hempty (FSA.new ts initial finals).automaton
    (w.mapM (FSA.new ts initial finals).tInt.findKey) (fun _ _ c _ _ => ⟨c.storage, rfl⟩) n
  obtain ⟨out', h6⟩ := h4.recogniseOuter_no_panic hG hempty h5
  exact ⟨_, h6⟩

/-- **C24** When recognition has ended, something has been returned iff the word labels a path to a final state. -/
theorem C24_recognise [Mul W] [One W] [DecidableEq W] (ts : List (Transition (FsInstr Q) T W)) (initial : Q) (finals : List Q)
    {G : Agenda H (Item Nat (FsInstr Nat) Nat W)} {content : H → Multiset (Item Nat (FsInstr Nat) Nat W)} (hG : G.Lossless content)
    {empty : H} (hempty : content empty = 0) {w : List T} {n : Nat} {out : List (Item Q (FsInstr Q) T W)} {a : H}
    (hrun : (FSA.new ts initial finals).recognise G empty w n = some (out, a)) (hend : G.pop a = none) :
    out ≠ [] ↔ ∃ q ∈ finals, ∃ u, FsPath ts initial w u q := by
  have hex := C17_fsa_exact ts initial finals hG hempty hrun hend
  constructor
  · intro hne
    obtain ⟨i, is, rfl⟩ := List.exists_cons_of_ne_nil hne
    obtain ⟨_, ⟨h6, h7⟩, h8⟩ := (hex i).1.1 (by simp)
    obtain ⟨w1, h4, h5⟩ := exec_path (ts := ts) (q := initial) _ _ _ _ [] _ (.nil _) h6 h7
    simp only [List.append_nil, List.nil_append] at h4 h5
    subst h4
    exact ⟨i.conf.storage, by simpa [FSA.device] using h8, _, h5⟩
  · rintro ⟨q, hq, u, hp⟩ rfl
    obtain ⟨run, he, hm⟩ := path_exec hp []
    rw [List.append_nil] at he
    have hv : (Pushdown.ofSlice run).toVec = run := by
      unfold Pushdown.ofSlice; rw [Pushdown.toVec_foldl]; simp
    have := (hex ⟨⟨[], q, u⟩, Pushdown.ofSlice run⟩).1.2 ⟨rfl, by
      rw [hv]; exact ⟨⟨he, hm⟩, by simpa [FSA.device] using hq⟩⟩
    simp at this

/-- **C24** If every transition reads something, recognition ends. -/
theorem C24_terminates [Mul W] [One W] (ts : List (Transition (FsInstr Q) T W)) (initial : Q) (finals : List Q) (hread : ∀ t ∈ ts, t.word ≠ [])
    {G : Agenda H (Item Nat (FsInstr Nat) Nat W)} {content : H → Multiset (Item Nat (FsInstr Nat) Nat W)} (hG : G.Sound content)
    (empty : H) (w : List T) :
    ∃ N, ∀ n ≥ N, ∀ out a, (FSA.new ts initial finals).recognise G empty w n = some (out, a) → G.pop a = none := by
  obtain ⟨L, h1, h2, h3, h4⟩ := FSA.new_represents (W := W) ts initial finals
  obtain ⟨N, hN⟩ := Automaton.recognise_terminates hG empty (FSA.new ts initial finals).automaton (by
    intro t ht
    obtain ⟨t', ht', hr⟩ := forall₂_exists_right h4.transitions ht
    have h5 := hread t' (h2.mem_iff.1 ht')
    intro e
    have := hr.word
    rw [e] at this
    exact h5 (List.forall₂_nil_left_iff.1 this)) (w.mapM (FSA.new ts initial finals).tInt.findKey)
  refine ⟨N, fun n hn out a hr => ?_⟩
  obtain ⟨out0, h5, _⟩ := h4.recogniseOuter_some hr
  exact hN n hn out0 a h5

private def exFsa : List (Transition (FsInstr Nat) Char Nat) :=
  [⟨['a', 'b'], 1, ⟨0, 1⟩⟩, ⟨[], 1, ⟨1, 0⟩⟩, ⟨['c'], 1, ⟨1, 2⟩⟩]

example : ((FSA.new exFsa 0 [2]).recognise (dequeAgenda _) [] ['a', 'b', 'a', 'b', 'c'] 20).map
    (fun r => (r.1.map fun i => (i.conf.storage, i.run.toVec.map Transition.word), r.2.length)) =
    some ([(2, [['a', 'b'], [], ['a', 'b'], ['c']])], 0) := by decide

example : FsPath exFsa 0 ['a', 'b', 'c'] 1 2 :=
  .snoc (w := ['a', 'b']) ⟨['c'], 1, ⟨1, 2⟩⟩ (by decide) (.snoc (w := []) ⟨['a', 'b'], 1, ⟨0, 1⟩⟩ (by decide) (.nil _))

end fsa

end Rustomata.Props
