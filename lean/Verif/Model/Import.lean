import Verif.Model.FromStr
import Verif.Model.Map

/-!
# Import of grammars

Sources: `/repo/src/grammars/lcfrs/from_discodop.rs`, `/repo/src/grammars/lcfrs/from_rparse.rs`. The parsers work on `&str`; strings are
lists of characters, given by their code points. Panics are `none`, or `PResult.panic` in parsers. In `Option (Option _)`, `some none` is
an `Err`.
-/

namespace Rustomata
open Nom

/-- `char::is_whitespace`: the characters with the Unicode property `White_Space`. -/
def isWhitespace (c : Nat) : Bool :=
  (9 ≤ c && c ≤ 13) || c = 32 || c = 0x85 || c = 0xA0 || c = 0x1680 || (0x2000 ≤ c && c ≤ 0x200A) || c = 0x2028 || c = 0x2029 || c = 0x202F ||
    c = 0x205F || c = 0x3000

/-- `is_token` (from_discodop.rs:28-30, from_rparse.rs:16-18). -/
def isToken (c : Nat) : Bool := !isWhitespace c

/-- `is_binary_digit` (from_discodop.rs:31-33). -/
def isBinaryDigit (c : Nat) : Bool := c = 48 || c = 49

/-- `nom::space`. -/
def space : Parser Nat (List Nat) := many1Of isSpace

/-- `2u64.pow(i)`, which overflows for `i` from 64 on. -/
def pow64 (i : Nat) : Option Nat := if i < 64 then some (2 ^ i) else none

/-- The value of the character at position `i` (from_discodop.rs:39-43). -/
def binaryValue (i c : Nat) : Option (Option Nat) :=
  if c = 48 then some (some 0) else if c = 49 then (pow64 i).map some else some none

/-- The fold of `from_binary` from position `i` on (from_discodop.rs:36-47). -/
def fromBinaryGo : Nat → Option Nat → List Nat → Option (Option Nat)
  | _, os, [] => some os
  | i, os, c :: cs => match binaryValue i c with
    | none => none
    | some ov => fromBinaryGo (i + 1) (os.bind fun s => ov.map fun v => v + s) cs

/-- `from_binary` (from_discodop.rs:36-47). -/
def fromBinary (s : List Nat) : Option (Option Nat) := fromBinaryGo 0 (some 0) s

/-- `DiscoYield` (from_discodop.rs:15): the length (`u8`) and the bit mask (`u64`) of each component. -/
abbrev DiscoYield := List (Nat × Nat)

/-- `map_opt!`, `map_res!` with a function that may panic. -/
def mapResPanic {A B : Type _} (p : Parser Nat A) (f : A → Option (Option B)) : Parser Nat B := chain p fun a i => match f a with
  | some (some b) => .done i b
  | some none => .error
  | none => .panic

/-- `parse_yield` (from_discodop.rs:61-72). `bs.len() as u8` drops the higher bits of the length. -/
def parseYield : Parser Nat DiscoYield :=
  sepList1 (tag [44]) (mapResPanic (Nom.takeWhile isBinaryDigit) fun bs => match fromBinary bs with
    | none => none
    | some none => some none
    | some (some payload) => some (some (bs.length % 256, payload)))

section
variable {N T W : Type _} (cn : Codec N) (ct : Codec T) (cw : Codec W)

/-- `parse_pseudocount` (from_discodop.rs:77-94). -/
def parsePseudocount [Div W] : Parser Nat W :=
  mapRes (chain digit fun num => chain (opt (complete (thn (tag [47]) digit))) fun denom => ret (num, denom)) fun (num, denom) => match denom with
    | some d => match cw.read num, cw.read d with
      | some n, some d => some (n / d)
      | _, _ => none
    | none => cw.read num

/-- `DiscoLexer` (from_discodop.rs:18-19). -/
abbrev DiscoLexer (N T W : Type _) := List (T × N × W)

/-- The line of a word in `parse_discodop_lexer` (from_discodop.rs:113-119). -/
def parseLexerLine [Div W] : Parser Nat (List Nat × List (List Nat × W)) :=
  chain (terminated (Nom.takeWhile isToken) space) fun word =>
    chain (sepList1 space (chain (terminated (Nom.takeWhile isToken) space) fun pos => chain (parsePseudocount cw) fun w => ret (pos, w))) fun pws => ret (word, pws)

/-- The closure of `parse_discodop_lexer` (from_discodop.rs:121-131). -/
def lexerEntries (v : List (List Nat × List (List Nat × W))) : Option (DiscoLexer N T W) :=
  (v.flatMap fun x => x.2.map fun y => (x.1, y.1, y.2)).mapM fun x => match ct.read x.1, cn.read x.2.1 with
    | some w, some p => some (w, p, x.2.2)
    | _, _ => none

/-- `parse_discodop_lexer` (from_discodop.rs:103-133). -/
def parseDiscodopLexer [Div W] : Parser Nat (DiscoLexer N T W) := mapRes (sepList (tag [10]) (parseLexerLine cw)) (lexerEntries cn ct)

/-- `DiscoDeriv` (from_discodop.rs:10-14). -/
inductive DiscoDeriv (N : Type _)
  | chain (lhs rhs : N)
  | binary (lhs rhs1 rhs2 : N)
deriving DecidableEq

/-- `get_lhs` (from_discodop.rs:50-55). -/
def DiscoDeriv.lhs : DiscoDeriv N → N
  | .chain lhs _ => lhs
  | .binary lhs _ _ => lhs

/-- `DiscoConstituents` (from_discodop.rs:16-17). -/
abbrev DiscoConstituents (N W : Type _) := List (DiscoDeriv N × DiscoYield × W)

/-- The end of the closure in `parse_discodop_constituents` (from_discodop.rs:172-174). -/
def discoRule [Div W] (deriv : DiscoDeriv N) (y w : List Nat) : Option (Option (DiscoDeriv N × DiscoYield × W)) :=
  match (parseYield y).toResult with
  | none => none
  | some none => some none
  | some (some ys) => match (parsePseudocount cw w).toResult with
    | none => none
    | some none => some none
    | some (some weight) => some (some (deriv, ys, weight))

/-- The closure in `parse_discodop_constituents` (from_discodop.rs:162-175). -/
def discoLine [Div W] (x : List Nat × List Nat × List Nat × List Nat × Option (List Nat)) : Option (Option (DiscoDeriv N × DiscoYield × W)) :=
  let (sLhs, sRhs, sRhsOrY, sYOrW, sOw) := x
  match cn.read sLhs with
  | none => some none
  | some lhs => match cn.read sRhs with
    | none => some none
    | some rhs => match sOw with
      | some sWeight => match cn.read sRhsOrY with
        | none => some none
        | some rhs2 => discoRule cw (.binary lhs rhs rhs2) sYOrW sWeight
      | none => discoRule cw (.chain lhs rhs) sRhsOrY sYOrW

/-- `preceded!(space, take_while1!(is_token))` (from_discodop.rs:158-159). -/
def nextToken : Parser Nat (List Nat) := thn space (takeWhile1 isToken)

/-- One element of the list in `parse_discodop_constituents` (from_discodop.rs:154-176). -/
def parseConstituent [Div W] : Parser Nat (DiscoDeriv N × DiscoYield × W) :=
  mapResPanic (chain (takeWhile1 isToken) fun lhs => chain nextToken fun rhs => chain nextToken fun rhsOrY => chain nextToken fun yOrW =>
    chain (opt (complete nextToken)) fun ow => ret (lhs, rhs, rhsOrY, yOrW, ow)) (discoLine cn cw)

/-- `parse_discodop_constituents` (from_discodop.rs:149-180). -/
def parseDiscodopConstituents [Div W] : Parser Nat (DiscoConstituents N W) := sepList (tag [10]) (parseConstituent cn cw)

/-- `DiscoDopGrammar` (from_discodop.rs:21-25). -/
structure DiscoDopGrammar (N T W : Type _) where
  constituents : DiscoConstituents N W
  lexer : Option (DiscoLexer N T W)

/-- `FromStr` for `DiscoDopGrammar` (from_discodop.rs:318-330). -/
def DiscoDopGrammar.fromStr [Div W] (s : List Nat) : Option (Option (DiscoDopGrammar N Unit W)) :=
  match (parseDiscodopConstituents cn cw s).toResult with
  | none => none
  | some none => some none
  | some (some c) => some (some ⟨c, none⟩)

/-- `FromStr` for `DiscoLexer` (from_discodop.rs:332-345). -/
def DiscoLexer.fromStr [Div W] (s : List Nat) : Option (Option (DiscoLexer N T W)) := (parseDiscodopLexer cn ct cw s).toResult

/-- `with_lexer` (from_discodop.rs:310-315). -/
def DiscoDopGrammar.withLexer (g : DiscoDopGrammar N Unit W) (l : DiscoLexer N T W) : DiscoDopGrammar N T W := ⟨g.constituents, some l⟩

variable [DecidableEq N]

/-- One iteration of the loop in `with_default_lexer` (from_discodop.rs:279-295). -/
def onlyOnRhsStep (m : AMap N Bool) : DiscoDeriv N → AMap N Bool
  | .chain lhs rhs =>
    let m := m.set lhs false
    if (m.get rhs).isSome then m else m.set rhs true
  | .binary lhs rhs1 rhs2 =>
    let m := m.set lhs false
    let m := if (m.get rhs1).isSome then m else m.set rhs1 true
    if (m.get rhs2).isSome then m else m.set rhs2 true

/-- `with_default_lexer` (from_discodop.rs:269-308). The order of the iteration over the hash map is that of the association list. -/
def DiscoDopGrammar.withDefaultLexer [One W] (g : DiscoDopGrammar N Unit W) : DiscoDopGrammar N N W :=
  ⟨g.constituents, some (((g.constituents.foldl (fun m x => onlyOnRhsStep m x.1) []).filter (·.2)).map fun x => (x.1, x.1, 1))⟩

/-- One iteration of the loop over the left-hand sides (from_discodop.rs:208-215). -/
def addCount [Add W] (m : AMap N W) (x : N × W) : AMap N W :=
  match m.get x.1 with
  | some w => m.set x.1 (w + x.2)
  | none => m.set x.1 x.2

/-- `normalization_denominators` (from_discodop.rs:194-216). -/
def denominators [Add W] (g : DiscoDopGrammar N T W) : AMap N W :=
  (g.constituents.map (fun x => (x.1.lhs, x.2.2)) ++ (g.lexer.toList.flatten.map fun x => (x.2.1, x.2.2))).foldl addCount []

/-- The loop over the positions of a component (from_discodop.rs:227-235); the counters are `sind1` and `sind2`. -/
def discoComponent (c : Nat) : List Nat → Nat → Nat → Option (List (VarT T) × Nat × Nat)
  | [], s1, s2 => some ([], s1, s2)
  | i :: is, s1, s2 => match pow64 i with
    | none => none
    | some p =>
      if p &&& c = 0 then (discoComponent c is (s1 + 1) s2).map fun r => (.var 0 s1 :: r.1, r.2)
      else (discoComponent c is s1 (s2 + 1)).map fun r => (.var 1 s2 :: r.1, r.2)

/-- The loop over the components (from_discodop.rs:225-237). -/
def discoComposition : DiscoYield → Nat → Nat → Option (Composition T)
  | [], _, _ => some []
  | (clen, c) :: ys, s1, s2 => match discoComponent c (List.range clen) s1 s2 with
    | none => none
    | some (comp, s1, s2) => (discoComposition ys s1 s2).map (comp :: ·)

/-- One iteration of the loop over the constituents (from_discodop.rs:218-258). -/
def discoConstituent [Div W] (denoms : AMap N W) (x : DiscoDeriv N × DiscoYield × W) : Option (PMCFGRule N T W) :=
  match denoms.get x.1.lhs with
  | none => none
  | some d => match discoComposition x.2.1 0 0 with
    | none => none
    | some composition => some (match x.1 with
      | .chain lhs rhs => ⟨lhs, [rhs], composition, x.2.2 / d⟩
      | .binary lhs rhs1 rhs2 => ⟨lhs, [rhs1, rhs2], composition, x.2.2 / d⟩)

/-- One iteration of the loop over the lexicon (from_discodop.rs:260-268). -/
def discoLexical [Div W] (denoms : AMap N W) (x : T × N × W) : Option (PMCFGRule N T W) :=
  (denoms.get x.2.1).map fun d => ⟨x.2.1, [], [[.t x.1]], x.2.2 / d⟩

/-- `From<DiscoDopGrammar> for Lcfrs` (from_discodop.rs:182-275). -/
def Lcfrs.fromDiscodop [Div W] [Add W] (g : DiscoDopGrammar N T W) : Option (Lcfrs N T W) :=
  match g.constituents.mapM (discoConstituent (denominators g)) with
  | none => none
  | some rs => match g.lexer.toList.flatten.mapM (discoLexical (denominators g)) with
    | none => none
    | some ls => match cn.read (ascii ['R', 'O', 'O', 'T']) with
      | none => none
      | some init => some ⟨rs ++ ls, init⟩

/-! ### rparse -/

omit [DecidableEq N]

/-- `Rhs` (from_rparse.rs:6-10). -/
inductive RparseRhs (N : Type _)
  | binary (a b : N)
  | chain (a : N)
deriving DecidableEq

/-- `RparseClauses` (from_rparse.rs:11-14). -/
abbrev RparseClauses (N W : Type _) := List (W × N × RparseRhs N × List (List Bool))

/-- `alt!(tag!("true") | tag!("false"))` with the map to `bool` (from_rparse.rs:29-32). -/
def parseBool : Parser Nat Bool :=
  alt (pmap (tag (ascii ['t', 'r', 'u', 'e'])) fun _ => true) (pmap (tag (ascii ['f', 'a', 'l', 's', 'e'])) fun _ => false)

/-- `parse_rparse_yield` (from_rparse.rs:20-40). -/
def parseRparseYield : Parser Nat (List (List Bool)) :=
  delimited (tag (ascii ['[', '[']))
    (sepList (tag (ascii [',', ' '])) (delimited (tag (ascii ['['])) (sepList (tag (ascii [',', ' '])) parseBool) (tag (ascii [']']))))
    (tag (ascii [']', ']']))

/-- One element of the list in `parse_rparse_clauses` (from_rparse.rs:53-73). -/
def parseRparseClause : Parser Nat (W × N × RparseRhs N × List (List Bool)) :=
  thn (terminated digit space) <| chain (takeWhile1 fun c => isToken c && c != 58) fun weight => thn (tag (ascii [':'])) <|
    chain (takeWhile1 isToken) fun lhs => thn (delimited space (tag (ascii ['-', '-', '>'])) space) <| chain (takeWhile1 isToken) fun rhs1 =>
      thn space <| chain (opt (delimited (pnot (tag (ascii ['[', '[', '[']))) (takeWhile1 isToken) space)) fun oRhs2 =>
        chain (complete parseRparseYield) fun y =>
          chain (unwrapRes (cw.read weight)) fun w => chain (unwrapRes (cn.read lhs)) fun l => match oRhs2 with
            | some rhs2 => chain (unwrapRes (cn.read rhs1)) fun a => chain (unwrapRes (cn.read rhs2)) fun b => ret (w, l, .binary a b, y)
            | none => chain (unwrapRes (cn.read rhs1)) fun a => ret (w, l, .chain a, y)

/-- `parse_rparse_clauses` (from_rparse.rs:42-77). -/
def parseRparseClauses : Parser Nat (RparseClauses N W) := sepList1 (tag [10]) (parseRparseClause cn cw)

/-- `FromStr` for `RparseClauses` (from_rparse.rs:79-94). -/
def RparseClauses.fromStr (s : List Nat) : Option (Option (RparseClauses N W)) := (parseRparseClauses cn cw s).toResult

/-- The loop over a component (from_rparse.rs:115-123); the counters are `ind1` and `ind2`. -/
def rparseComponent : List Bool → Nat → Nat → List (VarT T) × Nat × Nat
  | [], i1, i2 => ([], i1, i2)
  | true :: bs, i1, i2 => let r := rparseComponent bs i1 (i2 + 1); (.var 1 i2 :: r.1, r.2)
  | false :: bs, i1, i2 => let r := rparseComponent bs (i1 + 1) i2; (.var 0 i1 :: r.1, r.2)

/-- The loop over the components (from_rparse.rs:110-125). -/
def rparseComposition : List (List Bool) → Nat → Nat → Composition T
  | [], _, _ => []
  | bs :: y, i1, i2 => let r := rparseComponent bs i1 i2; r.1 :: rparseComposition y r.2.1 r.2.2

/-- `Into<Lcfrs> for RparseClauses` (from_rparse.rs:96-140). -/
def Lcfrs.fromRparse (c : RparseClauses N W) : Option (Lcfrs N Unit W) :=
  (cn.read (ascii ['V', 'R', 'O', 'O', 'T', '1'])).map fun init =>
    ⟨c.map fun x => ⟨x.2.1, (match x.2.2.1 with | .chain a => [a] | .binary a b => [a, b]), rparseComposition x.2.2.2 0 0, x.1⟩, init⟩

end

end Rustomata
