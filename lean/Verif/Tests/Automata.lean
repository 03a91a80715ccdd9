import Verif.Tests.Text
import Verif.Model.Dyck
import Verif.Model.FromPmcfg
import Verif.Model.Approximation
import Verif.Model.Heaps

/-!
# The unit tests of storages, instructions, Dyck languages and approximations

Sources: the modules `tests` of `/repo/src/util/{partition,push_down}.rs`, `/repo/src/dyck/mod.rs`, `/repo/src/dyck/multiple/mod.rs`,
`/repo/src/automata/tree_stack_automaton/{tree_stack,tree_stack_instruction,from_pmcfg}.rs`, `/repo/src/automata/push_down_automaton/{mod,from_cfg}.rs` and
`/repo/src/approximation/{tts,relabel}.rs`.
-/

namespace Rustomata.Tests.AutomataTests

set_option synthInstance.maxSize 4096

/-- The value of a successful operation. -/
def ok {E A : Type} : Except E A → Option A
  | .ok a => some a
  | .error _ => none

/-! ### util/partition.rs -/

/-- `partition`. -/
example : (Partition.new [[1, 2, 3], [4, 5, 6]]).map Partition.collapse = some [[1, 2, 3], [4, 5, 6]] := by decide +kernel
example : Partition.new [[1, 2, 3], [3, 4, 5]] = none := by decide +kernel

/-! ### util/push_down.rs -/

/-- The push-down with 1, 2 and 3. -/
def pd : Pushdown Nat := ((Pushdown.new.push 1).push 2).push 3

/-- `test_pushdown_legal_operations_correctness`. -/
example : ((ok (((Pushdown.new.push 1).push 1).set 2)).bind fun p => (ok (p.push 3).pop).map Prod.fst) = some (Pushdown.ofSlice [1, 2]) := by decide +kernel

/-- `test_pushdown_illegal_operations_on_empty`. -/
example : (ok (Pushdown.new : Pushdown Nat).pop).isNone = true ∧ (Pushdown.new : Pushdown Nat).peek = none := by decide +kernel

/-- `test_pushdown_eq`. -/
example : pd ≠ (Pushdown.new.push 1).push 2 ∧ pd = ((Pushdown.new.push 1).push 2).push 3 := by decide +kernel

/-- `test_pushdown_push_inverse`. -/
example : (ok (Pushdown.new.push 1).pop).map Prod.fst = some Pushdown.new := by decide +kernel

/-- `test_pushdown_map_correctness` and `test_pushdown_map_inverse`. -/
example : pd.map (· * 2) = ((Pushdown.new.push 2).push 4).push 6 ∧ (pd.map (· * 2)).map (· / 2) = pd := by decide +kernel

/-- `test_pushdown_to_vec_correctness` and `test_pushdown_to_vec_inverse`. -/
example : pd.toVec = [1, 2, 3] ∧ Pushdown.ofSlice pd.toVec = pd := by decide +kernel

/-- `test_pushdown_integerise_inverse`. -/
example : (Integeriser.new.integerisePushdown pd).1.unPushdown (Integeriser.new.integerisePushdown pd).2 = some pd := by decide +kernel

/-! ### dyck/mod.rs, dyck/multiple/mod.rs -/

/-- Brackets: positive numbers open, negative numbers close. -/
def brackets (l : List Int) : List (Bracket Nat) := l.map fun i => if 0 < i then .open_ i.natAbs else .close i.natAbs

/-- `dyck`. -/
example : [[1, -1, 2, -2], [1, 2, -2, 1, -1, -1]].all (fun w => Bracket.recognize (brackets w)) = true := by decide +kernel
example : Bracket.recognize [.open_ "one", .close "one", .open_ "two", .close "two"] = true := by decide +kernel

/-- The partition of the tests. -/
def cells : Partition Nat := (Partition.new [[1, 2], [3, 4]]).getD []

/-- Whether a word is recognised: `none` if that is not decided after 200 steps. -/
def mdlAccepts (M : Automaton Unit (TreeStack (MdElem Nat)) (MdInstr Nat) (Bracket Nat) Nat) (w : List Int) : Option Bool :=
  (Mdl.recognize M (listHeap (fun i => i.conf.weight)) [] (brackets w) 200).bind fun r => if r.1 then some true else if r.2.isEmpty then some false else none

/-- `mutliple_dyck_language`. -/
example : [[1, -1, 2, -2], [1, 2, -2, 1, -1, -1, 2, -2], [1, 2, -2, -1, 2, 1, -1, -2], [1, 3, -3, -1, 2, 4, -4, -2],
      [1, -2, 2, -1], [1, 4, -4, -1, 3, 2, -2, -3]].map (mdlAccepts (Mdl.new cells)) =
    [some true, some true, some true, some true, some false, some false] := by decide +kernel

/-- `sorted_multiple_dyck_language`. -/
example : [[1, -1, 2, -2], [1, 2, -2, 1, -1, -1, 2, -2], [1, 2, -2, -1, 2, 1, -1, -2], [1, 3, -3, -1, 2, 4, -4, -2],
      [1, -2, 2, -1], [1, -1, -2, 2, 1, -1, -2, 2], [1, 4, -4, -1, 3, 2, -2, -3]].map (mdlAccepts (Mdl.sorted cells fun i => if i ∈ [1, 2] then 1 else 2)) =
    [some true, some true, some true, some true, some false, some false, some false] := by decide +kernel

/-! ### tree_stack.rs -/

/-- A step of a test on tree stacks. -/
inductive Op (A : Type)
  | push (n : Nat) (a : A)
  | up (n : Nat)
  | down

/-- One step. -/
def Op.run {A : Type} (t : TreeStack A) : Op A → Option (TreeStack A)
  | .push n a => ok (t.push n a)
  | .up n => ok (t.up n)
  | .down => ok t.down

/-- Several steps. -/
def ops {A : Type} (t : TreeStack A) (l : List (Op A)) : Option (TreeStack A) := l.foldlM Op.run t

/-- The steps of `test_tree_stack`. -/
def steps : List (Op Nat) :=
  [.push 1 1, .down, .push 2 2, .down, .up 1, .push 1 11, .down, .down, .up 2, .push 1 21, .down, .down]

/-- `test_tree_stack`: the current symbol after the steps where it is checked. -/
example : [0, 1, 2, 3, 5, 6, 10, 12].map (fun n => (ops (.new 0) (steps.take n)).map TreeStack.currentSymbol) =
    [some 0, some 1, some 0, some 2, some 1, some 11, some 21, some 0] := by decide +kernel

/-- `test_to_tree`. -/
example : (ops (.new '@') [.push 0 'a', .push 0 'b', .down, .down, .push 1 'c', .down, .push 3 'd', .push 1 'e']).map TreeStack.toTree =
    some ([([], '@'), ([0], 'a'), ([0, 0], 'b'), ([1], 'c'), ([3], 'd'), ([3, 1], 'e')], [3, 1]) := by decide +kernel

/-! ### tree_stack_instruction.rs -/

/-- The instructions of the tests. -/
def instrs : List (TsInstr Nat) := [.up 1 1 2 3, .down 1 2 3, .push 1 1 2]

/-- `test_tree_stack_instruction_map_correctness` and `…_map_inverse`. -/
example : instrs.map (TsInstr.mapO fun x => some (x * 2)) = [some (.up 1 2 4 6), some (.down 2 4 6), some (.push 1 2 4)] := by decide +kernel

/-- `test_tree_stack_instruction_apply_correctness` and `…_apply_inverse`. -/
example : (ops (.new '@') [.push 1 'a', .down]).map (fun t =>
      [decide (some ((TsInstr.up 1 '@' 'a' 'a').apply t) = (ok (t.up 1)).map ([·])),
        decide ((ok (t.up 1)).map (fun s => (TsInstr.down 'a' '@' '@').apply s) = (ok (t.up 1)).bind (fun s => (ok s.down).map ([·]))),
        decide (some ((TsInstr.push 2 '@' 'b').apply t) = (ok (t.push 2 'b')).map ([·])),
        decide ((TsInstr.up 1 'x' 'a' 'a').apply t = [] ∧ (TsInstr.down '@' 'x' 'x').apply t = [] ∧ (TsInstr.push 1 '@' 'y').apply t = []),
        decide (((TsInstr.up 1 '@' 'a' 'a').apply t).flatMap (TsInstr.down 'a' '@' '@').apply = [t])]) =
    some [true, true, true, true, true] := by decide +kernel

/-- `test_tree_stack_instruction_integerise_inverse`. -/
example : instrs.all (fun i => TsInstr.integ.unInteg (TsInstr.integ.integerise Integeriser.new i).1 (TsInstr.integ.integerise Integeriser.new i).2 = some i) = true := by
  decide +kernel

/-! ### from_pmcfg.rs -/

/-- `test_to_abstract_syntax_tree`. -/
example : toAbstractSyntaxTree [([], .initial), ([0], .position 'a' 0 0), ([0, 0], .position 'b' 0 0), ([0, 2], .position 'c' 0 0), ([2], .position 'd' 0 0)] =
    some [([], 'a'), ([0], 'b'), ([2], 'c')] := by decide +kernel

/-- `test_to_abstract_syntax_tree_empty_tree`. -/
example : toAbstractSyntaxTree ([] : GornTree (PosState Nat)) = some [] := by decide +kernel

/-- `test_to_abstract_syntax_tree_invalid_tree`: a panic. -/
example : toAbstractSyntaxTree ([([], .initial), ([0], .initial)] : GornTree (PosState Nat)) = none := by decide +kernel

/-! ### push_down_automaton/mod.rs -/

/-- `test_pushdown_instruction_map_correctness` and `…_map_inverse`, and the same for `map_mut`. -/
example : (PdInstr.mk [1, 2, 3] [1, 2, 3, 4]).map (· * 2) = ⟨[2, 4, 6], [2, 4, 6, 8]⟩ ∧ ((PdInstr.mk [1, 2, 3] [1, 2, 3, 4]).map (· * 2)).map (· / 2) = ⟨[1, 2, 3], [1, 2, 3, 4]⟩ := by
  decide +kernel

/-- `test_pushdown_instruction_apply_correctness`. -/
example : [PdInstr.mk [4, 3] [3], ⟨[4], [4, 5]⟩, ⟨[], []⟩, ⟨[5], []⟩].map (fun i => i.apply [1, 2, 3, 4]) = [[[1, 2, 3]], [[1, 2, 3, 4, 5]], [[1, 2, 3, 4]], []] := by decide +kernel

/-- `test_pushdown_instruction_inverse`. -/
example : ((PdInstr.mk [4, 3] [3]).apply [1, 2, 3, 4]).map (PdInstr.mk [3] [3, 4]).apply = [[[1, 2, 3, 4]]] := by decide +kernel

/-- `test_pushdown_instruction_integerise_inverse`. -/
example : PdInstr.integ.unInteg (PdInstr.integ.integerise Integeriser.new (PdInstr.mk [1] [1, 2])).1 (PdInstr.integ.integerise Integeriser.new (PdInstr.mk [1] [1, 2])).2 =
    some ⟨[1], [1, 2]⟩ := by decide +kernel

/-! ### push_down_automaton/from_cfg.rs -/

/-- `test_push_state_map_correctness` and `test_push_state_map_inverse`. -/
example : ([.designated, .initial, .nt 1, .t 'a'] : List (PushState Nat Char)).map (PushState.map (· * 2)) = [.designated, .initial, .nt 2, .t 'a'] := by decide +kernel

/-! ### approximation/tts.rs -/

/-- `test_approximate_storage`. -/
example : (ops (.new '@') [.push 1 '1', .down, .push 2 '2', .push 2 '3', .down, .push 7 '4']).map tts.storage = some ['@', '2', '4'] := by decide +kernel

/-- `test_approximate_instruction`. -/
example : ([.up 2 '@' '2' '3', .down '4' '2' '3', .push 2 '2' '3'] : List (TsInstr Char)).map tts.instruction = [⟨['@'], ['@', '3']⟩, ⟨['4', '2'], ['3']⟩, ⟨['2'], ['2', '3']⟩] := by
  decide +kernel

/-! ### approximation/relabel.rs -/

/-- `test_approximate_storage` and `test_approximate_instruction`. -/
example : (TextTests.relation "0 [0, 1]\n1 [2, 3]\n2 *").map (Option.map fun r =>
      ((relabel (PushState.map r.project)).storage [.initial, .nt 0, .nt 1, .t 'a', .nt 2, .nt 3, .nt 4, .designated],
        (relabel (PushState.map r.project)).instruction ⟨[.t 'a', .nt 4], [.t 'b', .nt 3]⟩)) =
    some (some ([.initial, .nt 0, .nt 0, .t 'a', .nt 1, .nt 1, .nt 2, .designated], ⟨[.t 'a', .nt 2], [.t 'b', .nt 1]⟩)) := by decide +kernel

/-! ### unique-heap/src/lib.rs (documentation) -/

/-- The heap of the example (lib.rs:15-26), with numbers for "high" (3), "medium" (2) and "low" (1). -/
def uh : UniqueHeap (List (Nat × Nat)) Nat := UniqueHeap.fromIter (listHeap Prod.fst) [] [(3, 10), (1, 1), (2, 5), (3, 12)]

example : heapPeek (listHeap Prod.fst) uh.heap = some (10, 3) ∧ (UniqueHeap.push (listHeap Prod.fst) uh 1 2).1 = false := by decide +kernel
example :
    let p := UniqueHeap.pop (listHeap Prod.fst)
    [(p uh).1, (p (p uh).2).1, (p (p (p uh).2).2).1, (p (p (p (p uh).2).2).2).1] = [some (3, 10), some (2, 5), some (1, 1), none] := by decide +kernel

end Rustomata.Tests.AutomataTests
