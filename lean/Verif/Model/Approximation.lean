import Verif.Model.Tsa

/-!
# Model of approximation strategies, approximation instances and coarse-to-fine recognition

Sources: `/repo/src/approximation/{mod,relabel,tts,equivalence_classes}.rs`, `/repo/src/recognisable/coarse_to_fine.rs`.

Simplifications: `BTreeMap` is an association list (`HMap.upd`); its keys are compared with `Ord for Transition`, which looks at the weight, the word
and the instruction (transition.rs:129-143), like `=` in Lean. The iteration order of a `BinaryHeap` is a parameter `order`.
-/

namespace Rustomata

/-- `ApproximationStrategy<T, W>` (approximation/mod.rs:14-33): the two functions an implementation provides. -/
structure ApproximationStrategy (S₁ I₁ S₂ I₂ : Type _) where
  storage : S₁ → S₂
  instruction : I₁ → I₂

/-! ### relabel -/

section relabel
variable {A B : Type _}

/-- `map` (push_down_automaton/mod.rs:339-346). -/
def PushDown.map (f : A → B) (p : PushDown A) : PushDown B := List.map f p

/-- `RlbElement` (relabel.rs:35-49). -/
def relabel (f : A → B) : ApproximationStrategy (PushDown A) (PdInstr A) (PushDown B) (PdInstr B) where
  storage p := p.map f
  instruction i := ⟨i.current.map f, i.new.map f⟩

end relabel

/-! ### tts -/

section tts
variable {A : Type _}

/-- The loop of `approximate_storage` (tts.rs:39-42). It ends after as many iterations as there are parents; this bounds the recursion. -/
def ttsLoop : Nat → TreeStack A → List A → List A
  | 0, _, pd => pd
  | n + 1, t, pd =>
    match t.down with
    | .ok smaller => ttsLoop n smaller (pd ++ [smaller.currentSymbol])
    | .error _ => pd

/-- `TTSElement` (tts.rs:35-72). -/
def tts : ApproximationStrategy (TreeStack A) (TsInstr A) (PushDown A) (PdInstr A) where
  storage t := (ttsLoop t.parents.length t [t.currentSymbol]).reverse
  instruction
    | .up _ c _ w => ⟨[c], [c, w]⟩
    | .push _ c w => ⟨[c], [c, w]⟩
    | .down c o w => ⟨[c, o], [w]⟩

end tts

/-! ### equivalence relations -/

/-- `EquivalenceRelation<A, B>` (equivalence_classes.rs:35-41). -/
structure EquivalenceRelation (A B : Type _) where
  map : List (A × B)
  default : B

namespace EquivalenceRelation
variable {A B : Type _} [DecidableEq A] [DecidableEq B]

/-- `HashMap::get` (std). -/
def get (m : List (A × B)) (k : A) : Option B := (m.find? fun p => p.1 = k).map Prod.snd

/-- `HashMap::insert` (std). -/
def insert (m : List (A × B)) (k : A) (b : B) : List (A × B) := HMap.upd k b (fun _ => b) m

/-- The loop over the members of a class (equivalence_classes.rs:74-85). -/
def addMembers (name : B) : List A → List (A × B) → Except String (List (A × B))
  | [], m => .ok m
  | v :: vs, m => match get m v with
    | none => addMembers name vs (insert m v name)
    | some _ => .error "All classes of the equivalence relation must be disjoint!"

/-- The loop over the classes (equivalence_classes.rs:67-86). -/
def addClasses (default : B) : List (B × List A) → List (A × B) → Except String (List (A × B))
  | [], m => .ok m
  | (name, members) :: cs, m =>
    if name = default then .error "There can only be one default class in the equivalence relation!"
    else match addMembers name members m with
      | .ok m' => addClasses default cs m'
      | .error e => .error e

/-- `new_safe` (equivalence_classes.rs:65-92). The map of sets is a list with distinct names of lists with distinct members, in iteration order. -/
def newSafe (classes : List (B × List A)) (default : B) : Except String (EquivalenceRelation A B) :=
  match addClasses default classes [] with
  | .ok m => .ok ⟨m, default⟩
  | .error e => .error e

/-- `project` (equivalence_classes.rs:95-100). -/
def project (r : EquivalenceRelation A B) (k : A) : B := (get r.map k).getD r.default

/-- The body of the loop of `from` (equivalence_classes.rs:113-119). A class without a set is the default class. -/
def fromClassesStep (s : List (A × B) × Option B) (c : B × Option (List A)) : List (A × B) × Option B :=
  match c.2 with
  | some es => (es.foldl (fun m e => insert m e c.1) s.1, s.2)
  | none => (s.1, some c.1)

/-- `From<Vec<EquivalenceClass<A, B>>>` (equivalence_classes.rs:103-126), `none` is a panic. -/
def fromClasses (cs : List (B × Option (List A))) : Option (EquivalenceRelation A B) :=
  let r := cs.foldl fromClassesStep ([], none)
  r.2.map fun d => ⟨r.1, d⟩

/-- The body of the loop of `from_str` (equivalence_classes.rs:142-154), after the line has been parsed. -/
def fromLinesStep (s : List (B × List A) × Option B) (c : B × Option (List A)) : List (B × List A) × Option B :=
  match c.2 with
  | some es => (HMap.upd c.1 es (fun _ => es) s.1, s.2)
  | none => (s.1, some c.1)

/-- `FromStr` (equivalence_classes.rs:129-165) after the lines have been parsed; `none` is an error. -/
def fromLines (cs : List (B × Option (List A))) : Option (EquivalenceRelation A B) :=
  let r := cs.foldl fromLinesStep ([], none)
  r.2.bind fun d => (newSafe r.1 d).toOption

end EquivalenceRelation

/-! ### approximation instances -/

/-- `ApproximationInstance` (approximation/mod.rs:50-59) without the strategy. -/
abbrev ReverseMap (I₁ I₂ T W : Type _) := List (Transition I₂ T W × List (Transition I₁ T W))

section instance_
variable {S₁ I₁ S₂ I₂ T W : Type _} [DecidableEq I₂] [DecidableEq T] [DecidableEq W]

/-- `approximate_transition`, the result (approximation/mod.rs:92-96). -/
def ApproximationStrategy.transition (Z : ApproximationStrategy S₁ I₁ S₂ I₂) (t : Transition I₁ T W) : Transition I₂ T W :=
  ⟨t.word, t.weight, Z.instruction t.instruction⟩

/-- `approximate_transition` (approximation/mod.rs:88-102). -/
def approximateTransition (Z : ApproximationStrategy S₁ I₁ S₂ I₂) (m : ReverseMap I₁ I₂ T W) (t : Transition I₁ T W) :
    ReverseMap I₁ I₂ T W × Transition I₂ T W :=
  let t2 := Z.transition t
  (HMap.upd t2 [] (fun v => v ++ [t]) m, t2)

/-- The loop of `approximate_automaton` (approximation/mod.rs:39-43). -/
def approximateTransitions (Z : ApproximationStrategy S₁ I₁ S₂ I₂) : ReverseMap I₁ I₂ T W → List (Transition I₁ T W) →
    ReverseMap I₁ I₂ T W × List (Transition I₂ T W)
  | m, [] => (m, [])
  | m, t :: ts =>
    let r := approximateTransition Z m t
    let q := approximateTransitions Z r.1 ts
    (q.1, r.2 :: q.2)

/-- `approximate_automaton` (approximation/mod.rs:35-47) for an automaton with the given transitions and initial storage; both strategies have
push-down automata as targets. `none` is a panic. -/
def approximateAutomaton {A : Type _} [DecidableEq A] [Zero W] [Add W] (Z : ApproximationStrategy S₁ I₁ (PushDown A) (PdInstr A))
    (transitions : List (Transition I₁ T W)) (initial : S₁) : Option (PDA A T W × ReverseMap I₁ (PdInstr A) T W) :=
  let r := approximateTransitions Z [] transitions
  (PDA.new r.2 (Z.storage initial)).map fun P => (P, r.1)

/-- `unapproximate_transition` (approximation/mod.rs:104-112). -/
def unapproximateTransition (m : ReverseMap I₁ I₂ T W) (t2 : Transition I₂ T W) : List (Transition I₁ T W) :=
  match m.find? fun p => p.1 = t2 with
  | none => []
  | some p => p.2

/-- `unapproximate_run` (approximation/mod.rs:114-133). `order` is the iteration order of a `BinaryHeap` built from the given vector. -/
def unapproximateRun (order : List (Pushdown (Transition I₁ T W)) → List (Pushdown (Transition I₁ T W))) (m : ReverseMap I₁ I₂ T W)
    (run2 : Pushdown (Transition I₂ T W)) : List (Pushdown (Transition I₁ T W)) :=
  (run2.toVec.map (unapproximateTransition m)).foldl
    (fun h ts1 => order (h.flatMap fun run => ts1.map fun t1 => run.push t1)) (order [Pushdown.empty])

end instance_

/-! ### coarse-to-fine -/

/-- `CoarseToFineParseForest` (coarse_to_fine.rs:30-44): the parses the sublevel has not produced yet, the input buffer and the output buffer. -/
structure CtfState (H X₂ : Type _) where
  sublevel : List X₂
  inputBuffer : Option (Option X₂)
  output : H

namespace CtfState
variable {H X₁ X₂ W : Type _}

/-- The first lines of `peek_input` and `next_input` (coarse_to_fine.rs:57-59, 70-72). -/
def fill (s : CtfState H X₂) : CtfState H X₂ :=
  match s.inputBuffer with
  | none => { s with inputBuffer := some s.sublevel.head?, sublevel := s.sublevel.tail }
  | some _ => s

/-- `peek_input` (coarse_to_fine.rs:54-65). -/
def peekInput (s : CtfState H X₂) : Option X₂ × CtfState H X₂ :=
  let s := s.fill
  (s.inputBuffer.getD none, s)

/-- `next_input` (coarse_to_fine.rs:67-77): `x.take()` leaves `Some(None)`. -/
def nextInput (s : CtfState H X₂) : Option X₂ × CtfState H X₂ :=
  let s := s.fill
  (s.inputBuffer.getD none, { s with inputBuffer := some none })

/-- The condition of the loop (coarse_to_fine.rs:92-95). `||` and `&&` are lazy. -/
def continue_ [LT W] [DecidableRel (α := W) (· < ·)] (G : Agenda H X₁) (weight₁ : X₁ → W) (weight₂ : X₂ → W) (s : CtfState H X₂) :
    Bool × CtfState H X₂ :=
  match heapPeek G s.output with
  | none => (true, s)
  | some x =>
    let r := s.peekInput
    match r.1 with
    | none => (false, r.2)
    | some y => (decide (weight₁ x < weight₂ y), r.2)

/-- The loop of `next` (coarse_to_fine.rs:92-108); `fine` computes the items that are put into the output buffer for a coarse parse.
The first argument bounds the iterations, `none` if it is exceeded. -/
def loop [LT W] [DecidableRel (α := W) (· < ·)] (G : Agenda H X₁) (weight₁ : X₁ → W) (weight₂ : X₂ → W) (fine : X₂ → List X₁) :
    Nat → CtfState H X₂ → Option (Option X₁ × CtfState H X₂)
  | 0, _ => none
  | n + 1, s =>
    let c := s.continue_ G weight₁ weight₂
    if c.1 then
      let i := c.2.nextInput
      match i.1 with
      | some x2 => loop G weight₁ weight₂ fine n { i.2 with output := G.extend i.2.output (fine x2) }
      | none => some (none, i.2)
    else match G.pop c.2.output with
      | none => some (none, c.2)
      | some (x, h) => some (some x, { c.2 with output := h })

/-- `next` (coarse_to_fine.rs:91-109). Three iterations are enough, see `CtfState.loop_terminates`. -/
def next [LT W] [DecidableRel (α := W) (· < ·)] (G : Agenda H X₁) (weight₁ : X₁ → W) (weight₂ : X₂ → W) (fine : X₂ → List X₁)
    (s : CtfState H X₂) : Option X₁ × CtfState H X₂ :=
  (loop G weight₁ weight₂ fine 3 s).getD (none, s)

/-- The items returned by `n` calls of `next`, up to the first `None`. -/
def take [LT W] [DecidableRel (α := W) (· < ·)] (G : Agenda H X₁) (weight₁ : X₁ → W) (weight₂ : X₂ → W) (fine : X₂ → List X₁) :
    Nat → CtfState H X₂ → List X₁
  | 0, _ => []
  | n + 1, s =>
    match s.next G weight₁ weight₂ fine with
    | (none, _) => []
    | (some x, s') => x :: take G weight₁ weight₂ fine n s'

end CtfState

/-- The body of the loop in `next` (coarse_to_fine.rs:98-103): `check_run` on all runs of the fine automaton that `unapproximate_run` gives. -/
def ctfFine {S₁ I₁ S₂ I₂ T W : Type _} [DecidableEq I₂] [DecidableEq T] [DecidableEq W] [Mul W] [One W]
    (order : List (Pushdown (Transition I₁ T W)) → List (Pushdown (Transition I₁ T W))) (apply : I₁ → S₁ → List S₁) (initial : S₁)
    (m : ReverseMap I₁ I₂ T W) (i : Item S₂ I₂ T W) : List (Item S₁ I₁ T W) :=
  (unapproximateRun order m i.run).flatMap fun r1 => Automaton.checkRun apply initial r1

/-- `CoarseToFineRecogniser::recognise` (coarse_to_fine.rs:129-137): the first `n` items, given the coarse parses in order. -/
def ctfRecognise {S₁ I₁ S₂ I₂ T W H : Type _} [DecidableEq I₂] [DecidableEq T] [DecidableEq W] [Mul W] [One W] [LT W]
    [DecidableRel (α := W) (· < ·)] (G : Agenda H (Item S₁ I₁ T W)) (empty : H)
    (order : List (Pushdown (Transition I₁ T W)) → List (Pushdown (Transition I₁ T W))) (apply : I₁ → S₁ → List S₁) (initial : S₁)
    (m : ReverseMap I₁ I₂ T W) (coarse : List (Item S₂ I₂ T W)) (n : Nat) : List (Item S₁ I₁ T W) :=
  CtfState.take G (fun i => i.conf.weight) (fun i => i.conf.weight) (ctfFine order apply initial m) n ⟨coarse, none, empty⟩

end Rustomata
