import Verif.Spec.FromStr
import Verif.Spec.White
import Verif.Model.AutomatonText

/-!
# Specification for the text of automata
-/

namespace Rustomata.Spec

variable {A Q T W I : Type _}

/-- A sequence of spaces. -/
def Spaces (s : List Nat) : Prop := ∀ b ∈ s, b = 32

/-- The text of a symbol: with quotes, or without quotes if it contains neither spaces nor one of the bytes of `\`, `"`, `-`, `→`, `,`, `;`, `)`,
`]`, `%`, `#`. -/
inductive TokenText (c : Codec A) (a : A) : List Nat → Prop
  | quoted {s} : Quotable s → c.read s = some a → TokenText c a ([34] ++ s ++ [34])
  | bare {s} : s ≠ [] → (∀ b ∈ s, b ∉ [32, 92, 34, 45, 0xE2, 0x86, 0x92, 44, 59, 41, 93, 37, 35] ∧ b ≠ 9) → c.read s = some a → TokenText c a s

/-- The text of a nonempty list of symbols, separated by commas. -/
inductive ElemsText (c : Codec A) : List A → List Nat → Prop
  | one {a s w} : TokenText c a s → Spaces w → ElemsText c [a] (s ++ w)
  | cons {a s w w' l t} : TokenText c a s → Spaces w → Spaces w' → ElemsText c l t → ElemsText c (a :: l) (s ++ w ++ ([44] ++ w' ++ t))

/-- The text of a list of symbols, in brackets. -/
inductive ListText (c : Codec A) : List A → List Nat → Prop
  | nil {w} : Spaces w → ListText c [] ([91] ++ w ++ [93])
  | elems {w l t} : Spaces w → ElemsText c l t → ListText c l ([91] ++ w ++ t ++ [93])

/-- The optional weight and the optional comment at the end of a transition. -/
inductive TailText [One W] (c : Codec W) : W → List Nat → Prop
  | none : TailText c 1 []
  | comment {r} : TailText c 1 (37 :: r)
  | weight {v w s} : Spaces w → WordText s → c.read s = some v → TailText c v ([35] ++ w ++ s)
  | both {v w s w' r} : Spaces w → WordText s → c.read s = some v → Spaces w' → TailText c v ([35] ++ w ++ s ++ [32] ++ w' ++ 37 :: r)

/-- The text of a transition, for a description of the text of instructions. -/
inductive TransitionText [One W] (ct : Codec T) (cw : Codec W) (instr : I → List Nat → Prop) : Transition I T W → List Nat → Prop
  | mk {word i v w₁ l w₂ body w₃ tail} : Spaces w₁ → ListText ct word l → Spaces w₂ → instr i body → 41 ∉ body → Spaces w₃ →
      TailText cw v tail → TransitionText ct cw instr ⟨word, v, i⟩
        (ascii ['T', 'r', 'a', 'n', 's', 'i', 't', 'i', 'o', 'n'] ++ w₁ ++ l ++ w₂ ++ [40] ++ body ++ [41] ++ w₃ ++ tail)

/-- The text of an instruction of a finite state automaton: `p → q` or `p -> q`. -/
inductive FsInstrText (c : Codec Q) : FsInstr Q → List Nat → Prop
  | mk {p q sp sq a t} : c.read sp = some p → c.read sq = some q → a = ascii ['-', '>'] ∨ a = arrow → WordsText [sp, a, sq] t → FsInstrText c ⟨p, q⟩ t

/-- The text of a number that fits into 64 bits. -/
def NumberText (n : Nat) (s : List Nat) : Prop :=
  n < 2 ^ 64 ∧ ∃ ds : List Nat, ds ≠ [] ∧ (∀ d ∈ ds, d < 10) ∧ Nat.ofDigits 10 ds = n ∧ (s = ds.reverse.map (48 + ·) ∨ s = 43 :: ds.reverse.map (48 + ·))

/-- The text of an instruction of a tree stack automaton. -/
inductive TsInstrText (c : Codec A) : TsInstr A → List Nat → Prop
  | up {n x y z sn sx sy sz t} : NumberText n sn → c.read sx = some x → c.read sy = some y → c.read sz = some z →
      WordsText [ascii ['U', 'p'], sn, sx, sy, sz] t → TsInstrText c (.up n x y z) t
  | push {n x z sn sx sz t} : NumberText n sn → c.read sx = some x → c.read sz = some z →
      WordsText [ascii ['P', 'u', 's', 'h'], sn, sx, sz] t → TsInstrText c (.push n x z) t
  | down {x y z sx sy sz t} : c.read sx = some x → c.read sy = some y → c.read sz = some z →
      WordsText [ascii ['D', 'o', 'w', 'n'], sx, sy, sz] t → TsInstrText c (.down x y z) t

/-- What a line of an automaton file says. -/
inductive Decl (Q R : Type _)
  | initial (q : Q)
  | final (qs : List Q)
  | transition (t : R)
  | nothing
deriving DecidableEq

/-- The lines of a file with an automaton; final states can be declared if `fin` holds. -/
inductive LineText {R : Type _} (fin : Prop) (c : Codec Q) (trans : R → List Nat → Prop) : Decl Q R → List Nat → Prop
  | initial {u w q s r} : Whites u → Spaces w → TokenText c q s → (r = [] ∨ (∃ r', r = 32 :: r') ∨ ∃ r', r = 37 :: r') →
      LineText fin c trans (.initial q) (u ++ ascii ['i', 'n', 'i', 't', 'i', 'a', 'l', ':'] ++ w ++ s ++ r)
  | final {u w qs s r} : fin → Whites u → Spaces w → ListText c qs s →
      LineText fin c trans (.final qs) (u ++ ascii ['f', 'i', 'n', 'a', 'l', ':'] ++ w ++ s ++ r)
  | transition {u t s v} : Whites u → trans t s → (∀ c, White c → ¬ c <:+ s) → Whites v → LineText fin c trans (.transition t) (u ++ s ++ v)
  | comment {u r} : Whites u → LineText fin c trans .nothing (u ++ 37 :: r)
  | empty : LineText fin c trans .nothing []

/-- A file: lines that are ended by `\n` or `\r\n`; the last line need not be ended. -/
inductive AutFile {D : Type _} (line : D → List Nat → Prop) : List D → List Nat → Prop
  | nil : AutFile line [] []
  | last {d l} : line d l → 10 ∉ l → l ≠ [] → AutFile line [d] l
  | cons {d l e ds s} : line d l → 10 ∉ l → l.getLast? ≠ some 13 → e = [10] ∨ e = [13, 10] → AutFile line ds s → AutFile line (d :: ds) (l ++ e ++ s)

variable {R : Type _}

/-- The last declared initial state. -/
def Decl.lastInitial : List (Decl Q R) → Option Q
  | [] => none
  | .initial q :: ds => some ((lastInitial ds).getD q)
  | _ :: ds => lastInitial ds

/-- The final states of the last declaration. -/
def Decl.lastFinals : List (Decl Q R) → Option (List Q)
  | [] => none
  | .final q :: ds => some ((lastFinals ds).getD q)
  | _ :: ds => lastFinals ds

/-- The transitions, in the order of the lines. -/
def Decl.transitions : List (Decl Q R) → List R
  | [] => []
  | .transition t :: ds => t :: transitions ds
  | _ :: ds => transitions ds

end Rustomata.Spec
