import Verif.Model.CoarseToFine
import Verif.Props.Approximation

/-!
# Property C90: recognition in several steps from coarse to fine
-/

set_option linter.unusedSectionVars false

namespace Rustomata.Props
open Spec

section level
variable {A T W H S I : Type _} [DecidableEq A] [DecidableEq T] [DecidableEq W] [DecidableEq I] [DecidableEq S] [Mul W] [One W] [Preorder W]
  [DecidableRel (α := W) (· < ·)] {Z : ApproximationStrategy S I (PushDown A) (PdInstr A)} {ap₁ : I → S → List S}
  {order : List (Pushdown (Transition I T W)) → List (Pushdown (Transition I T W))} (ho : ∀ l, (order l).Perm l)
  {G : Agenda H (Item S I T W)} {content : H → Multiset (Item S I T W)} (hG : HeapLaws G content (fun i => i.conf.weight))
  {empty : H} (hempty : content empty = 0) (L : List (Transition I T W)) (initial : S) (coarse : List (Item (PushDown A) (PdInstr A) T W)) (n : Nat)

include hG hempty in
private theorem pop_empty : G.pop empty = none := by
  cases hp : G.pop empty with
  | none => rfl
  | some x =>
    have := hG.lossless.pop_some empty x.1 x.2 hp
    rw [hempty] at this
    exact absurd this.symm (Multiset.cons_ne_zero)

include hG hempty in
/-- **C90** A level uses nothing but the first parse of the level below it, so it does not matter how many further parses the level below is asked for. -/
theorem C90_demand (m : ReverseMap I (PdInstr A) T W) :
    ctfRecognise G empty order ap₁ initial m coarse n = ctfRecognise G empty order ap₁ initial m coarse.head?.toList n := by
  unfold ctfRecognise
  rw [CtfState.take_eq _ _ _ _ _ _ _ (pop_empty hG hempty), CtfState.take_eq _ _ _ _ _ _ _ (pop_empty hG hempty)]
  cases coarse <;> rfl

include ho hG hempty in
/-- The parses of a level are no more often returned than the run's transitions occur and can be executed. -/
theorem ctf_count_le (i : Item S I T W) : (ctfRecognise G empty order ap₁ initial (approximateTransitions Z [] L).1 coarse n).count i ≤
    (i.run.toVec.map fun t => L.count t).prod * (storages ap₁ (i.run.toVec.map Transition.instruction) initial).count i.conf.storage := by
  by_cases hi : i ∈ ctfRecognise G empty order ap₁ initial (approximateTransitions Z [] L).1 coarse n
  · obtain ⟨_, h1, _⟩ := C32_items Z ap₁ ho hG hempty L initial coarse n rfl
    obtain ⟨c, hc, g1, g2, g3, g4⟩ := h1 i hi
    unfold ctfRecognise
    rw [CtfState.take_eq _ _ _ _ _ _ _ (pop_empty hG hempty)]
    obtain ⟨rest, h2, _⟩ := drain_le hG.lossless n (G.extend empty (coarse.head?.toList.flatMap (ctfFine order ap₁ initial (approximateTransitions Z [] L).1)))
    rw [hG.lossless.extend, hempty, zero_add] at h2
    have h3 := congrArg (Multiset.count i) h2
    rw [Multiset.count_add, Multiset.coe_count, Multiset.coe_count] at h3
    have hcl : coarse.head?.toList = [c] := by
      rw [Option.mem_def.1 hc]; rfl
    rw [hcl, List.flatMap_cons, List.flatMap_nil, List.append_nil, ctfFine, count_flatMap_runs, if_pos ⟨g1, g2⟩, count_unapproximateRun ho L c.run i.run g4] at h3
    rw [hcl, List.flatMap_cons, List.flatMap_nil, List.append_nil, ctfFine]
    omega
  · rw [List.count_eq_zero_of_not_mem hi]
    exact Nat.zero_le _

theorem storages_length_le (hdet : ∀ i s, (ap₁ i s).length ≤ 1) (is : List I) (s : S) : (storages ap₁ is s).length ≤ 1 := by
  induction is generalizing s with
  | nil => simp [storages]
  | cons i is ih =>
    rw [storages]
    have := hdet i s
    match h : ap₁ i s, this with
    | [], _ => simp
    | [x], _ => simpa using ih x

include ho hG hempty in
/-- **C90** If no two transitions become equal up to their weights and the instructions are partial functions, then each level returns at most one parse. -/
theorem C90_one (hnd : (L.map fun t => (t.word, Z.instruction t.instruction)).Nodup) (hdet : ∀ i s, (ap₁ i s).length ≤ 1) :
    (ctfRecognise G empty order ap₁ initial (approximateTransitions Z [] L).1 coarse n).length ≤ 1 := by
  obtain ⟨_, h1, _⟩ := C32_items Z ap₁ ho hG hempty L initial coarse n rfl
  have hinj : ∀ t ∈ L, ∀ t' ∈ L, Z.transition t = Z.transition t' → t = t' := by
    intro t ht t' ht' he
    refine List.inj_on_of_nodup_map hnd ht ht' ?_
    have h2 := congrArg Transition.word he
    have h3 := congrArg Transition.instruction he
    exact Prod.ext h2 h3
  have hLnd : L.Nodup := List.Nodup.of_map _ hnd
  have hcount : ∀ i, (ctfRecognise G empty order ap₁ initial (approximateTransitions Z [] L).1 coarse n).count i ≤ 1 := by
    intro i
    refine (ctf_count_le ho hG hempty L initial coarse n i).trans ?_
    have h2 : (i.run.toVec.map fun t => L.count t).prod ≤ 1 := by
      induction i.run.toVec with
      | nil => simp
      | cons t l ih =>
        rw [List.map_cons, List.prod_cons]
        exact Nat.mul_le_mul (List.nodup_iff_count_le_one.1 hLnd t) ih
    have h3 : (storages ap₁ (i.run.toVec.map Transition.instruction) initial).count i.conf.storage ≤ 1 :=
      List.count_le_length.trans (storages_length_le hdet _ _)
    calc _ ≤ 1 * 1 := Nat.mul_le_mul h2 h3
      _ = 1 := rfl
  have heq : ∀ i ∈ ctfRecognise G empty order ap₁ initial (approximateTransitions Z [] L).1 coarse n,
      ∀ j ∈ ctfRecognise G empty order ap₁ initial (approximateTransitions Z [] L).1 coarse n, i = j := by
    intro i hi j hj
    obtain ⟨c, hc, a1, a2, a3, a4⟩ := h1 i hi
    obtain ⟨d, hd, b1, b2, b3, b4⟩ := h1 j hj
    obtain rfl : c = d := by
      rw [Option.mem_def] at hc hd
      exact Option.some.inj (hc.symm.trans hd)
    have hruns : ∀ (l l' : List (Transition I T W)) (m : List (Transition (PdInstr A) T W)),
        List.Forall₂ (fun t1 t2 => t1 ∈ L ∧ Z.transition t1 = t2) l m → List.Forall₂ (fun t1 t2 => t1 ∈ L ∧ Z.transition t1 = t2) l' m → l = l' := by
      intro l l' m h h'
      induction h generalizing l' with
      | nil => exact (List.forall₂_nil_right_iff.1 h').symm
      | cons h0 _ ih =>
        obtain ⟨t', l'', h2, h3, rfl⟩ := List.forall₂_cons_right_iff.1 h'
        rw [ih _ h3, hinj _ h0.1 _ h2.1 (h0.2.trans h2.2.symm)]
    have hrun : i.run = j.run := Pushdown.toVec_injective (hruns _ _ _ a4 b4)
    obtain ⟨⟨wi, si, ui⟩, ri⟩ := i
    obtain ⟨⟨wj, sj, uj⟩, rj⟩ := j
    simp only at hrun a1 a2 a3 b1 b2 b3
    subst hrun
    have hs : si = sj := by
      have := storages_length_le hdet (ri.toVec.map Transition.instruction) initial
      match h : storages ap₁ (ri.toVec.map Transition.instruction) initial, this with
      | [], _ => rw [h] at a3; simp at a3
      | [x], _ =>
        rw [h] at a3 b3
        rw [List.mem_singleton.1 a3, List.mem_singleton.1 b3]
    rw [a1, a2, b1, b2, hs]
  by_contra hlen
  match h : ctfRecognise G empty order ap₁ initial (approximateTransitions Z [] L).1 coarse n, hlen with
  | [], hlen => simp at hlen
  | [x], hlen => simp at hlen
  | x :: y :: l, _ =>
    rw [h] at heq hcount
    obtain rfl := heq x (by simp) y (by simp)
    have := hcount x
    simp at this

end level

section nested
variable {A T W H H₂ : Type _} [DecidableEq A] [DecidableEq T] [DecidableEq W] [Mul W] [One W] [Preorder W]
  [DecidableRel (α := W) (· < ·)]
  {order : List (Pushdown (Transition (PdInstr A) T W)) → List (Pushdown (Transition (PdInstr A) T W))} (ho : ∀ l, (order l).Perm l)
  {G : Agenda H (Item (PushDown A) (PdInstr A) T W)} {content : H → Multiset (Item (PushDown A) (PdInstr A) T W)} (hG : HeapLaws G content (fun i => i.conf.weight))
  {empty : H} (hempty : content empty = 0)
  {G₂ : Agenda H₂ (Item (PushDown Nat) (PdInstr Nat) Nat W)} {content₂ : H₂ → Multiset (Item (PushDown Nat) (PdInstr Nat) Nat W)}
  {empty₂ : H₂} (hempty₂ : content₂ empty₂ = 0) {w : List T} {n₂ : Nat}

/-- A strategy maps push-down automata to push-down automata whose storages follow. -/
abbrev PdSimulation (Z : ApproximationStrategy (PushDown A) (PdInstr A) (PushDown A) (PdInstr A)) : Prop :=
  Simulation Z PdInstr.apply PdInstr.apply (fun p => p.length == 1) (fun p => p.length == 1)

include ho hG hempty hempty₂ in
/-- **C90** Each level below the first gives accepting runs of its automaton. -/
theorem C90_pda_sound [Zero W] [Add W] (hG₂ : G₂.Sound content₂) :
    ∀ (Zs : List (ApproximationStrategy (PushDown A) (PdInstr A) (PushDown A) (PdInstr A))), (∀ Z ∈ Zs, PdSimulation Z) →
    ∀ {P : PDA A T W} {ts : List (Transition (PdInstr A) T W)} {initial : PushDown A} {L : List (Transition (PdInstr A) T W)}, P.listTransitions = some L →
      PDA.Built P ts initial L → ∀ {out}, pdaNested G empty order G₂ empty₂ w n₂ Zs P = some out →
      ∀ i ∈ out, i.conf.word = [] ∧ (PDA.device L initial).Accepting w i.run.toVec i.conf.storage i.conf.weight
  | [], _, P, ts, initial, L, hL, hB, out, h => by
    obtain ⟨⟨out', a⟩, h1, rfl⟩ := Option.map_eq_some_iff.1 h
    exact fun i hi => hB.represents.sound hG₂ hempty₂ h1 i hi
  | Z :: Zs, hZ, P, ts, initial, L, hL, hB, out, h => by
    rw [pdaNested, hL, Option.bind_some, PDA.initialStore, PushDown.integLaws.unInteg.2 hB.init, Option.bind_some] at h
    obtain ⟨⟨P', m⟩, h1, h2⟩ := Option.bind_eq_some_iff.1 h
    obtain ⟨coarse, h3, rfl⟩ := Option.map_eq_some_iff.1 h2
    obtain ⟨L2, h4, h5, _⟩ := approximateAutomaton_built h1
    have ih := C90_pda_sound hG₂ Zs (fun Z hZ' => hZ Z (List.mem_cons_of_mem _ hZ')) h4 h5 h3
    exact (C32_step_sound (hZ Z (by simp)) ho hG hempty h1 fun c hc => (ih c hc).2).2

include ho hG hempty hempty₂ in
/-- **C90** (partial) If no two transitions become equal up to their weights by all strategies together and the coarsest automaton has at most one parse, each level
gives exactly the accepting runs of its automaton, of which there is at most one. -/
theorem C90_pda_exact_partial [AddZeroClass W] (hG₂ : G₂.Lossless content₂) (hn₂ : 2 ≤ n₂) :
    ∀ (Zs : List (ApproximationStrategy (PushDown A) (PdInstr A) (PushDown A) (PdInstr A))), (∀ Z ∈ Zs, PdSimulation Z) →
    ∀ {P : PDA A T W} {ts : List (Transition (PdInstr A) T W)} {initial : PushDown A} {L : List (Transition (PdInstr A) T W)}, P.listTransitions = some L →
      PDA.Built P ts initial L → (L.map fun t => (t.word, Zs.foldl (fun i Z => Z.instruction i) t.instruction)).Nodup →
      ∀ {Q coarsest a}, coarsestAutomaton Zs P = some Q → Q.recognise G₂ empty₂ w n₂ = some (coarsest, a) → G₂.pop a = none → coarsest.length ≤ 1 →
      ∃ out, pdaNested G empty order G₂ empty₂ w n₂ Zs P = some out ∧ out.length ≤ 1 ∧
        ∀ i, i ∈ out ↔ i.conf.word = [] ∧ (PDA.device L initial).Accepting w i.run.toVec i.conf.storage i.conf.weight
  | [], _, P, ts, initial, L, hL, hB, hnd, Q, coarsest, a, hQ, hr, he, hl => by
    obtain rfl := Option.some.inj hQ
    exact ⟨coarsest, by rw [pdaNested, hr]; rfl, hl, hB.represents.exact_runs hB.coherent hG₂ hempty₂ hr he⟩
  | Z :: Zs, hZ, P, ts, initial, L, hL, hB, hnd, Q, coarsest, a, hQ, hr, he, hl => by
    rw [coarsestAutomaton, hL, Option.bind_some, PDA.initialStore, PushDown.integLaws.unInteg.2 hB.init, Option.bind_some] at hQ
    obtain ⟨⟨P', m⟩, h1, h2⟩ := Option.bind_eq_some_iff.1 hQ
    obtain ⟨L2, h4, h5, hm⟩ := approximateAutomaton_built h1
    have e1 : (L.map fun t => (t.word, (Z :: Zs).foldl (fun i Z => Z.instruction i) t.instruction)) =
        ((L.map Z.transition).map PDA.keyOf).map fun k => (k.1, Zs.foldl (fun i Z => Z.instruction i) k.2) := by
      rw [List.map_map, List.map_map]; rfl
    have e2 : (L2.map fun t => (t.word, Zs.foldl (fun i Z => Z.instruction i) t.instruction)) =
        (L2.map PDA.keyOf).map fun k => (k.1, Zs.foldl (fun i Z => Z.instruction i) k.2) := by
      rw [List.map_map]; rfl
    rw [e1] at hnd
    have hnd1 := List.Nodup.of_map _ hnd
    have hperm : (L2.map PDA.keyOf).Perm ((L.map Z.transition).map PDA.keyOf) := (List.perm_ext_iff_of_nodup h5.nodup hnd1).2 h5.mem
    have hnd2 : (L2.map fun t => (t.word, Zs.foldl (fun i Z => Z.instruction i) t.instruction)).Nodup := by
      rw [e2]; exact (hperm.map _).nodup_iff.2 hnd
    obtain ⟨coarse, h6, h7, h8⟩ := C90_pda_exact_partial hG₂ hn₂ Zs (fun Z hZ' => hZ Z (List.mem_cons_of_mem _ hZ')) h4 h5 hnd2 h2 hr he hl
    have hnd3 : (L.map fun t => (t.word, Z.instruction t.instruction)).Nodup := by
      rw [List.map_map] at hnd1; exact hnd1
    have hone := C90_one (n := n₂) (ap₁ := PdInstr.apply) ho hG hempty L initial coarse hnd3 fun i s => (hZ Z (by simp)).det i s
    rw [← hm] at hone
    refine ⟨ctfRecognise G empty order PdInstr.apply initial m coarse n₂, ?_, hone, ?_⟩
    · rw [pdaNested, hL, Option.bind_some, PDA.initialStore, PushDown.integLaws.unInteg.2 hB.init, Option.bind_some, h1, Option.bind_some]
      simp only [h6, Option.map_some]
    · exact C32_step_exact_partial (hZ Z (by simp)) ho hG hempty hnd3 h1 h4 h8 h7 (by omega)

variable {S I H₁ : Type _} [DecidableEq I] [DecidableEq S]
  {order₁ : List (Pushdown (Transition I T W)) → List (Pushdown (Transition I T W))} (ho₁ : ∀ l, (order₁ l).Perm l)
  {G₁ : Agenda H₁ (Item S I T W)} {content₁ : H₁ → Multiset (Item S I T W)} (hG₁ : HeapLaws G₁ content₁ (fun i => i.conf.weight))
  {empty₁ : H₁} (hempty₁ : content₁ empty₁ = 0) {ap₁ : I → S → List S} {acc₁ : S → Bool} {Z : ApproximationStrategy S I (PushDown A) (PdInstr A)}
  (hsim : Simulation Z ap₁ PdInstr.apply acc₁ (fun p => p.length == 1)) {Zs : List (ApproximationStrategy (PushDown A) (PdInstr A) (PushDown A) (PdInstr A))}
  (hZs : ∀ Z ∈ Zs, PdSimulation Z) {L : List (Transition I T W)} {initial : S} {n : Nat}

include ho hG hempty hempty₂ ho₁ hG₁ hempty₁ hsim hZs in
/-- **C90** Recognition in any number of steps from coarse to fine is sound: every returned item carries an accepting run of the fine automaton on the word, and items come in
non-increasing weight. -/
theorem C90_sound [Zero W] [Add W] (hG₂ : G₂.Sound content₂) {out : List (Item S I T W)}
    (h : ctfNested G₁ empty₁ order₁ ap₁ G empty order G₂ empty₂ w n₂ n Z Zs L initial = some out) :
    out.Pairwise (fun i j => j.conf.weight ≤ i.conf.weight) ∧
    ∀ i ∈ out, i.conf.word = [] ∧ Device.Accepting ⟨ap₁, L, initial, acc₁⟩ w i.run.toVec i.conf.storage i.conf.weight := by
  obtain ⟨⟨P, m⟩, h1, h2⟩ := Option.bind_eq_some_iff.1 h
  obtain ⟨coarse, h3, rfl⟩ := Option.map_eq_some_iff.1 h2
  obtain ⟨L2, h4, h5, _⟩ := approximateAutomaton_built h1
  have ih := C90_pda_sound ho hG hempty hempty₂ hG₂ Zs hZs h4 h5 h3
  exact C32_step_sound hsim ho₁ hG₁ hempty₁ h1 fun c hc => (ih c hc).2

include ho hG hempty hempty₂ ho₁ hG₁ hempty₁ hsim hZs in
/-- **C90** (partial) If no two transitions become equal up to their weights by all strategies together and the coarsest automaton has at most one parse, recognition in any
number of steps from coarse to fine returns exactly the accepting runs of the fine automaton. -/
theorem C90_exact_partial [AddZeroClass W] (hG₂ : G₂.Lossless content₂) (hn₂ : 2 ≤ n₂)
    (hnd : (L.map fun t => (t.word, Zs.foldl (fun i Z => Z.instruction i) (Z.instruction t.instruction))).Nodup)
    {P : PDA A T W} {m : ReverseMap I (PdInstr A) T W} (hP : approximateAutomaton Z L initial = some (P, m)) {Q : PDA A T W} (hQ : coarsestAutomaton Zs P = some Q)
    {coarsest : List (Item (PushDown A) (PdInstr A) T W)} {a : H₂} (hr : Q.recognise G₂ empty₂ w n₂ = some (coarsest, a)) (he : G₂.pop a = none)
    (hone : coarsest.length ≤ 1) :
    ∃ out, ctfNested G₁ empty₁ order₁ ap₁ G empty order G₂ empty₂ w n₂ n Z Zs L initial = some out ∧
      (out.length < n → ∀ i, i ∈ out ↔ i.conf.word = [] ∧ Device.Accepting ⟨ap₁, L, initial, acc₁⟩ w i.run.toVec i.conf.storage i.conf.weight) := by
  obtain ⟨L2, h4, h5, _⟩ := approximateAutomaton_built hP
  have e1 : (L.map fun t => (t.word, Zs.foldl (fun i Z => Z.instruction i) (Z.instruction t.instruction))) =
      ((L.map Z.transition).map PDA.keyOf).map fun k => (k.1, Zs.foldl (fun i Z => Z.instruction i) k.2) := by
    rw [List.map_map, List.map_map]; rfl
  have e2 : (L2.map fun t => (t.word, Zs.foldl (fun i Z => Z.instruction i) t.instruction)) =
      (L2.map PDA.keyOf).map fun k => (k.1, Zs.foldl (fun i Z => Z.instruction i) k.2) := by
    rw [List.map_map]; rfl
  rw [e1] at hnd
  have hnd1 := List.Nodup.of_map _ hnd
  have hperm : (L2.map PDA.keyOf).Perm ((L.map Z.transition).map PDA.keyOf) := (List.perm_ext_iff_of_nodup h5.nodup hnd1).2 h5.mem
  have hnd2 : (L2.map fun t => (t.word, Zs.foldl (fun i Z => Z.instruction i) t.instruction)).Nodup := by
    rw [e2]; exact (hperm.map _).nodup_iff.2 hnd
  obtain ⟨coarse, h6, h7, h8⟩ := C90_pda_exact_partial ho hG hempty hempty₂ hG₂ hn₂ Zs hZs h4 h5 hnd2 hQ hr he hone
  refine ⟨ctfRecognise G₁ empty₁ order₁ ap₁ initial m coarse n, ?_, fun hn => ?_⟩
  · rw [ctfNested, hP, Option.bind_some]
    simp only [h6, Option.map_some]
  · exact C32_step_exact_partial hsim ho₁ hG₁ hempty₁ (by rw [List.map_map] at hnd1; exact hnd1) hP h4 h8 h7 hn

/-- The full claim **C90**: recognition in several steps from coarse to fine with relabellings finds a parse of each word in the language of the automaton. -/
def C90_claim : Prop :=
  ∀ (ts : List (Transition (PdInstr Char) Char Nat)) (initial : PushDown Char) (f : Char → Char) (fs : List (Char → Char)) (w : List Char) (n₂ n : Nat)
    (out : List (Item (PushDown Char) (PdInstr Char) Char Nat)), (PDA.device ts initial).Language w → 0 < n → 0 < n₂ →
    ctfNested (listHeap fun i => i.conf.weight) [] id PdInstr.apply (listHeap fun i => i.conf.weight) [] id (listHeap fun i => i.conf.weight) [] w n₂ n
      (relabel f) (fs.map relabel) ts initial = some out → out ≠ []

/-- **C90 is violated**: the first parse of a coarse level is the only one that is considered, and it need not be the image of a parse, although the second one is. So the word
is rejected even if the level is asked for all parses, no two transitions become equal and the automaton accepts the word. -/
theorem C90_violated : ¬ C90_claim := by
  intro h
  have hl : (PDA.device ([⟨['a'], 3, ⟨['S'], ['P']⟩⟩, ⟨['a'], 2, ⟨['S'], ['Q']⟩⟩, ⟨['b'], 1, ⟨['Q'], ['F']⟩⟩, ⟨['b'], 1, ⟨['R'], ['F']⟩⟩] :
      List (Transition (PdInstr Char) Char Nat)) ['S']).Language ['a', 'b'] :=
    ⟨[⟨['a'], 2, ⟨['S'], ['Q']⟩⟩, ⟨['b'], 1, ⟨['Q'], ['F']⟩⟩], ['F'], 2,
      ⟨(exec_iff _ _ _ _).2 ⟨by decide, (by decide : ['F'] ∈ _), rfl⟩, by decide⟩, by decide⟩
  exact h _ _ (fun c => if c = 'R' then 'P' else c) [fun c => c] _ 10 10 [] hl (by omega) (by omega) (by decide) rfl

namespace C90Example

def ts : List (Transition (TsInstr Char) Char Nat) :=
  [⟨['a'], 2, .push 0 'i' 'p'⟩, ⟨['b'], 3, .down 'p' 'i' 'j'⟩, ⟨['c'], 5, .up 0 'j' 'p' 'q'⟩, ⟨['d'], 7, .down 'q' 'j' 'k'⟩]

def fs : List (Char → Char) := [fun c => if c = 'q' then 'p' else c, fun c => if c = 'k' then 'i' else c]

/-- The hypotheses of `C90_exact_partial` hold: the transitions remain different, and the coarsest of three levels has one parse. -/
example : (ts.map fun t => (t.word, (fs.map relabel).foldl (fun i Z => Z.instruction i) (tts.instruction t.instruction))).Nodup ∧
    ((approximateAutomaton tts ts (.new 'i')).bind fun r => (coarsestAutomaton (fs.map relabel) r.1).bind fun Q =>
      (Q.recognise (listHeap fun i => i.conf.weight) [] ['a', 'b', 'c', 'd'] 5).map fun q => (q.1.length, q.2.length)) = some (1, 0) := by decide

/-- One parse is returned by three levels. -/
example : (ctfNested (listHeap fun i => i.conf.weight) [] id TsInstr.apply (listHeap fun i => i.conf.weight) [] id (listHeap fun i => i.conf.weight) [] ['a', 'b', 'c', 'd'] 5 5
      tts (fs.map relabel) ts (.new 'i')).map (fun l => l.map fun i => i.conf.weight) = some [210] := by decide

end C90Example

end nested

end Rustomata.Props
