import Verif.Model.Pda

/-!
# Model of context-free grammars and their push-down automata

Sources: `/repo/src/grammars/cfg/mod.rs`, `/repo/src/automata/push_down_automaton/from_cfg.rs`.
-/

namespace Rustomata

/-- `LetterT` (cfg/mod.rs:9-12). -/
inductive LetterT (N T : Type _)
  | label (n : N)
  | value (t : T)
deriving DecidableEq

/-- `CFGRule` (cfg/mod.rs:45-49); the newtype `CFGComposition` is dropped. -/
structure CFGRule (N T W : Type _) where
  head : N
  composition : List (LetterT N T)
  weight : W
deriving DecidableEq

/-- `CFG` (cfg/mod.rs:72-76). -/
structure CFG (N T W : Type _) where
  initial : List N
  rules : List (CFGRule N T W)

/-- `PushState` (from_cfg.rs:15-21). -/
inductive PushState (X Y : Type _)
  | designated
  | initial
  | nt (x : X)
  | t (y : Y)
deriving DecidableEq

/-- `PushState::map` (from_cfg.rs:27-37). -/
def PushState.map {X X' Y : Type _} (f : X → X') : PushState X Y → PushState X' Y
  | designated => designated
  | initial => initial
  | nt x => nt (f x)
  | t y => t y

namespace CFG
variable {N T W : Type _} [DecidableEq N] [DecidableEq T]

/-- The symbol pushed for a letter (from_cfg.rs:77-83). -/
def pushState : LetterT N T → PushState N T
  | .value x => .t x
  | .label x => .nt x

/-- The loop over the letters of a rule (from_cfg.rs:74-85): `st.insert(0, …)`. -/
def pushString (c : List (LetterT N T)) : List (PushState N T) := c.foldl (fun st v => pushState v :: st) []

/-- Inserting the terminals of a rule into `t_buffer` (from_cfg.rs:78). -/
def bufferTerminals (buf : List T) (c : List (LetterT N T)) : List T :=
  c.foldl (fun b v => match v with
    | .value x => if x ∈ b then b else x :: b
    | .label _ => b) buf

/-- `t_buffer` after the loop (from_cfg.rs:69-95), a set. -/
def terminals (G : CFG N T W) : List T := G.rules.foldl (fun b r => bufferTerminals b r.composition) []

/-- The transition for a rule (from_cfg.rs:87-94). -/
def ruleTransition (r : CFGRule N T W) : Transition (PdInstr (PushState N T)) T W :=
  ⟨[], r.weight, ⟨[.nt r.head], pushString r.composition⟩⟩

/-- The transition that reads a terminal (from_cfg.rs:97-108). -/
def readTransition [One W] (t : T) : Transition (PdInstr (PushState N T)) T W := ⟨[t], 1, ⟨[.t t], []⟩⟩

/-- The transition for an initial nonterminal (from_cfg.rs:111-122). -/
def initialTransition [One W] (n : N) : Transition (PdInstr (PushState N T)) T W := ⟨[], 1, ⟨[.initial], [.nt n]⟩⟩

/-- The list `transitions` (from_cfg.rs:67-122). -/
def pdaTransitions [One W] (G : CFG N T W) : List (Transition (PdInstr (PushState N T)) T W) :=
  G.rules.map ruleTransition ++ G.terminals.map readTransition ++ G.initial.map initialTransition

/-- `From<CFG> for PushDownAutomaton` (from_cfg.rs:66-128), `none` is a panic. -/
def toPda [One W] [Zero W] [Add W] (G : CFG N T W) : Option (PDA (PushState N T) T W) :=
  PDA.new G.pdaTransitions (PushDown.new .designated .initial)

end CFG
end Rustomata
