import Verif.Model.Nom
import Verif.Model.Pmcfg
import Mathlib.Data.Nat.Digits.Defs

/-!
# Printing and parsing of rules and grammars

Sources: `/repo/src/util/parsing.rs`, `/repo/src/grammars/cfg/from_str.rs`, `/repo/src/grammars/pmcfg/from_str.rs`,
`/repo/src/grammars/lcfrs/from_str.rs`, and the implementations of `Display` in `/repo/src/grammars/cfg/mod.rs:94-130`,
`/repo/src/grammars/pmcfg/mod.rs:214-296` and `/repo/src/grammars/lcfrs/mod.rs:70-82`.

Strings are lists of bytes (natural numbers), as the parsers work on `&[u8]`. The implementations of `Display` and `FromStr` for the
types of symbols and weights are parameters (`Codec`).
-/

namespace Rustomata
open Nom

/-- The bytes of an ASCII string. -/
def ascii (l : List Char) : List Nat := l.map Char.toNat

/-- The bytes of `→`. -/
def arrow : List Nat := [0xE2, 0x86, 0x92]

/-- `Display` and `FromStr` of a type: the text of a value, and the value of a text (`from_utf8` followed by `str::parse`; `none` is
an error of either of them). -/
structure Codec (A : Type _) where
  text : A → List Nat
  read : List Nat → Option A

/-- `nom::is_space`. -/
def isSpace (b : Nat) : Bool := b = 32 || b = 9

/-- `escaped!(is_not!("\"\\"), '\\', one_of!("\\\""))` (util/parsing.rs:21): bytes other than `"` and `\`, and pairs of `\` and one of
these. nom reads as many bytes of the first kind as possible in each iteration of its loop, here they are read one by one. -/
def escaped : List Nat → PResult Nat (List Nat)
  | [] => .done [] []
  | b :: i =>
    if b = 34 then .done (b :: i) []
    else if b = 92 then match i with
      | [] => .error
      | c :: i' => if c = 92 ∨ c = 34 then (escaped i').map fun s => b :: c :: s else .error
    else (escaped i).map (b :: ·)

/-- The bytes of `" \\\"-→,;)]%#"` (util/parsing.rs:23). -/
def tokenStop : List Nat := [32, 92, 34, 45, 0xE2, 0x86, 0x92, 44, 59, 41, 93, 37, 35]

/-- `parse_token` (util/parsing.rs:10-33). -/
def parseToken {A : Type _} (c : Codec A) : Parser Nat A :=
  mapRes (alt (delimited (tag [34]) escaped (tag [34])) (isNot tokenStop)) c.read

/-- `parse_vec` (util/parsing.rs:37-62). -/
def parseVec {A : Type _} (inner : Parser Nat A) (opening closing separator : List Nat) : Parser Nat (List A) :=
  thn (tag opening) <| thn (takeWhile isSpace) <|
    chain (many0 (thn (opt (tag separator)) <| thn (takeWhile isSpace) <| chain inner fun a => thn (takeWhile isSpace) (ret a))) fun result =>
      thn (tag closing) (ret result)

/-- `parse_initial` (util/parsing.rs:65-78). -/
def parseInitial {A : Type _} (c : Codec A) : Parser Nat A :=
  thn (tag (ascii ['i', 'n', 'i', 't', 'i', 'a', 'l', ':'])) <| thn (takeWhile isSpace) <|
    chain (parseToken c) fun a => thn (takeWhile fun _ => true) (ret a)

/-- `parse_finals` (util/parsing.rs:81-93). -/
def parseFinals {A : Type _} (c : Codec A) : Parser Nat (List A) :=
  thn (tag (ascii ['f', 'i', 'n', 'a', 'l', ':'])) <| thn (takeWhile isSpace) <| parseVec (parseToken c) [91] [93] [44]

/-- `parse_initials` (util/parsing.rs:96-108). -/
def parseInitials {A : Type _} (c : Codec A) : Parser Nat (List A) :=
  thn (tag (ascii ['i', 'n', 'i', 't', 'i', 'a', 'l', ':'])) <| thn (takeWhile isSpace) <| parseVec (parseToken c) [91] [93] [44]

/-- `parse_comment` (util/parsing.rs:111-113). -/
def parseComment : Parser Nat Unit := thn (tag [37]) <| thn (takeWhile fun _ => true) (ret ())

/-- `alt!(tag!("→") | tag!("->") | tag!("=>"))` (cfg/from_str.rs:59, pmcfg/from_str.rs:67). -/
def parseArrow : Parser Nat Unit := alt (tag arrow) (alt (tag (ascii ['-', '>'])) (tag (ascii ['=', '>'])))

section
variable {N T W : Type _} (cn : Codec N) (ct : Codec T) (cw : Codec W)

/-! ### Context-free grammars -/

/-- `parse_letter_t` (cfg/from_str.rs:83-108). -/
def parseLetterT : Parser Nat (LetterT N T) :=
  alt (thn (tag (ascii ['N', 't'])) <| thn (takeWhile isSpace) <| chain (parseToken cn) fun a => ret (.label a))
    (thn (tag (ascii ['T'])) <| thn (takeWhile isSpace) <| chain (parseToken ct) fun a => ret (.value a))

/-- The optional weight of a rule (cfg/from_str.rs:63-70). -/
def parseCfgWeight : Parser Nat (Option W) :=
  opt (complete (thn (tag [35]) <| thn (takeWhile isSpace) <| chain (isNot [32]) fun s => exprRes (cw.read s)))

/-- `parse_cfg_rule` (cfg/from_str.rs:46-81). -/
def parseCfgRule [One W] : Parser Nat (CFGRule N T W) :=
  chain (parseToken cn) fun head =>
    thn (takeWhile isSpace) <| thn parseArrow <| thn (takeWhile isSpace) <|
    chain (parseVec (parseLetterT cn ct) [91] [93] [44]) fun composition =>
    thn (takeWhile isSpace) <| chain (parseCfgWeight cw) fun weight =>
    thn (takeWhile isSpace) <| thn (alt eof (thn (tag [37]) (pmap (takeWhile fun _ => true) fun _ => ()))) <|
    ret ⟨head, composition, weight.getD 1⟩

/-- `CFGRule::from_str` (cfg/from_str.rs:38-43): `none` is a panic, `some none` an error. -/
def CFGRule.fromStr [One W] (s : List Nat) : Option (Option (CFGRule N T W)) := (parseCfgRule cn ct cw s).toResult

/-! ### Parallel multiple context-free grammars -/

/-- The value of a sequence of decimal digits. -/
def digitsValue (s : List Nat) : Nat := s.foldl (fun n d => 10 * n + (d - 48)) 0

/-- `str::parse::<usize>` on a sequence of digits: an error if the number does not fit into 64 bits. -/
def parseUsize (s : List Nat) : Option Nat := if digitsValue s < 2 ^ 64 then some (digitsValue s) else none

/-- `nom::digit`. -/
def digit : Parser Nat (List Nat) := many1Of fun b => 48 ≤ b && b ≤ 57

/-- `parse_var_t` (pmcfg/from_str.rs:94-119). -/
def parseVarT : Parser Nat (VarT T) :=
  alt (thn (tag (ascii ['V', 'a', 'r'])) <| thn (takeWhile isSpace) <| chain digit fun i => thn (takeWhile isSpace) <| chain digit fun j =>
      chain (unwrapRes (parseUsize i)) fun i => chain (unwrapRes (parseUsize j)) fun j => ret (.var i j))
    (thn (tag (ascii ['T'])) <| thn (takeWhile isSpace) <| chain (parseToken ct) fun a => ret (.t a))

/-- `parse_projection` (pmcfg/from_str.rs:121-127). -/
def parseProjection : Parser Nat (List (VarT T)) := parseVec (parseVarT ct) [91] [93] [44]

/-- `parse_composition` (pmcfg/from_str.rs:129-135). -/
def parseComposition : Parser Nat (Composition T) := parseVec (parseProjection ct) [91] [93] [44]

/-- `parse_successors` (pmcfg/from_str.rs:46-52). -/
def parseSuccessors : Parser Nat (List N) := parseVec (parseToken cn) [40] [41] [44]

/-- `map_res!(is_not!(" "), from_utf8)` followed by `weight_s.parse().unwrap()` (pmcfg/from_str.rs:77-78). As the parsed text is a part
of a string that begins after `#` or a space and ends before a space or at the end, `from_utf8` does not fail. -/
def parsePmcfgWeight : Parser Nat (Option W) :=
  opt (complete (thn (tag [35]) <| thn (takeWhile isSpace) <| chain (isNot [32]) fun s => unwrapRes (cw.read s)))

/-- `parse_pmcfg_rule` (pmcfg/from_str.rs:54-92). -/
def parsePmcfgRule [One W] : Parser Nat (PMCFGRule N T W) :=
  chain (parseToken cn) fun head =>
    thn (takeWhile isSpace) <| thn parseArrow <| thn (takeWhile isSpace) <|
    chain (parseComposition ct) fun composition =>
    thn (takeWhile isSpace) <| chain (parseSuccessors cn) fun tail =>
    thn (takeWhile isSpace) <| chain (parsePmcfgWeight cw) fun weight =>
    thn (takeWhile isSpace) <| thn (many0 (tag [37])) <| thn (takeWhile fun _ => true) <|
    ret ⟨head, tail, composition, weight.getD 1⟩

/-- `PMCFGRule::from_str` (pmcfg/from_str.rs:38-43): `none` is a panic, `some none` an error. -/
def PMCFGRule.fromStr [One W] (s : List Nat) : Option (Option (PMCFGRule N T W)) := (parsePmcfgRule cn ct cw s).toResult

/-! ### Whole grammars -/

/-- `str::lines`: the parts between the bytes `\n`; an empty part after the last `\n` is no line, and a `\r` at the end of a line that is
ended by `\n` is dropped. -/
def linesGo : List Nat → List Nat → List (List Nat)
  | cur, [] => if cur = [] then [] else [cur]
  | cur, b :: s => if b = 10 then (if cur.getLast? = some 13 then cur.dropLast else cur) :: linesGo [] s else linesGo (cur ++ [b]) s

/-- `str::lines`. -/
def lines (s : List Nat) : List (List Nat) := linesGo [] s

/-- The bytes of the characters for which `char::is_whitespace` holds. -/
def whiteChars : List (List Nat) :=
  [[0x09], [0x0A], [0x0B], [0x0C], [0x0D], [0x20], [0xC2, 0x85], [0xC2, 0xA0], [0xE1, 0x9A, 0x80],
    [0xE2, 0x80, 0x80], [0xE2, 0x80, 0x81], [0xE2, 0x80, 0x82], [0xE2, 0x80, 0x83], [0xE2, 0x80, 0x84], [0xE2, 0x80, 0x85],
    [0xE2, 0x80, 0x86], [0xE2, 0x80, 0x87], [0xE2, 0x80, 0x88], [0xE2, 0x80, 0x89], [0xE2, 0x80, 0x8A],
    [0xE2, 0x80, 0xA8], [0xE2, 0x80, 0xA9], [0xE2, 0x80, 0xAF], [0xE2, 0x81, 0x9F], [0xE3, 0x80, 0x80]]

/-- The number of bytes of the character of `ws` at the beginning of a text, or 0. -/
def whiteLen (ws : List (List Nat)) (s : List Nat) : Nat := match ws.find? (·.isPrefixOf s) with
  | some c => c.length
  | none => 0

/-- Removes the characters of `ws` from the beginning of a text; the number counts the bytes that still belong to the last of them. -/
def trimGo (ws : List (List Nat)) : Nat → List Nat → List Nat
  | _, [] => []
  | k + 1, _ :: s => trimGo ws k s
  | 0, b :: s => match whiteLen ws (b :: s) with
    | 0 => b :: s
    | k + 1 => trimGo ws k s

/-- `str::trim_start`. -/
def trimStart (s : List Nat) : List Nat := trimGo whiteChars 0 s

/-- `str::trim`; the characters at the end are removed from the reversed text. -/
def trim (s : List Nat) : List Nat := (trimGo (whiteChars.map List.reverse) 0 (trimStart s).reverse).reverse

/-- The loop of `initial_rule_grammar_from_str` (util/parsing.rs:131-145). -/
def grammarLoop {R : Type _} (rule : List Nat → Option (Option R)) :
    List (List Nat) → List N → List R → Option (Option (List N × List R))
  | [], initial, rules => some (some (initial, rules))
  | l :: ls, initial, rules =>
    if ascii ['i', 'n', 'i', 't', 'i', 'a', 'l', ':'] <+: trimStart l then match (parseInitials cn l).toResult with
      | some (some result) => grammarLoop rule ls (initial ++ result) rules
      | some none => some none
      | none => none
    else if l ≠ [] ∧ ¬ [37] <+: trimStart l then match rule (trim l) with
      | some (some r) => grammarLoop rule ls initial (rules ++ [r])
      | some none => some none
      | none => none
    else grammarLoop rule ls initial rules

/-- `initial_rule_grammar_from_str` (util/parsing.rs:120-148): `none` is a panic, `some none` an error. -/
def grammarFromStr {R : Type _} (rule : List Nat → Option (Option R)) (s : List Nat) : Option (Option (List N × List R)) :=
  grammarLoop cn rule (lines s) [] []

/-- `CFG::from_str` (cfg/from_str.rs:20-24). -/
def CFG.fromStr [One W] (s : List Nat) : Option (Option (CFG N T W)) :=
  (grammarFromStr cn (CFGRule.fromStr cn ct cw) s).map (Option.map fun (initial, rules) => ⟨initial, rules⟩)

/-- `PMCFG::from_str` (pmcfg/from_str.rs:20-24). -/
def PMCFG.fromStr [One W] (s : List Nat) : Option (Option (PMCFG N T W)) :=
  (grammarFromStr cn (PMCFGRule.fromStr cn ct cw) s).map (Option.map fun (initial, rules) => ⟨initial, rules⟩)

/-- `Lcfrs::from_str` (lcfrs/from_str.rs:19-29): an error unless there is exactly one initial nonterminal. -/
def Lcfrs.fromStr [One W] (s : List Nat) : Option (Option (Lcfrs N T W)) :=
  (grammarFromStr cn (PMCFGRule.fromStr cn ct cw) s).map fun r => r.bind fun (initial, rules) => match initial with
    | [init] => some ⟨rules, init⟩
    | _ => none

/-! ### `Display` -/

/-- The loops that print the elements of a list with `, ` between them (pmcfg/mod.rs:222-235, 258-263, 282-287, cfg/mod.rs:101-106). -/
def commaSep {A : Type _} (f : A → List Nat) : List A → List Nat
  | [] => []
  | [a] => f a
  | a :: b :: l => f a ++ ascii [',', ' '] ++ commaSep f (b :: l)

/-- `"\"{}\""`. -/
def quoted {A : Type _} (c : Codec A) (a : A) : List Nat := [34] ++ c.text a ++ [34]

/-- `LetterT::fmt` (cfg/mod.rs:113-120). -/
def LetterT.text : LetterT N T → List Nat
  | .value x => ascii ['T', ' '] ++ quoted ct x
  | .label x => ascii ['N', 't', ' '] ++ quoted cn x

/-- `CFGRule::fmt` with `CFGComposition::fmt` (cfg/mod.rs:94-111, 122-130). -/
def CFGRule.text (r : CFGRule N T W) : List Nat :=
  quoted cn r.head ++ [32] ++ arrow ++ [32] ++ ([91] ++ commaSep (LetterT.text cn ct) r.composition ++ [93]) ++
    ascii [' ', ' ', '#', ' '] ++ cw.text r.weight

/-- `usize::fmt`: the decimal digits. -/
def natText (n : Nat) : List Nat := if n = 0 then [48] else (Nat.digits 10 n).reverse.map (48 + ·)

/-- `VarT::fmt` (pmcfg/mod.rs:242-249). -/
def VarT.text : VarT T → List Nat
  | .var i j => ascii ['V', 'a', 'r', ' '] ++ natText i ++ [32] ++ natText j
  | .t x => ascii ['T', ' '] ++ quoted ct x

/-- `Composition::fmt` (pmcfg/mod.rs:214-240). -/
def Composition.text (c : Composition T) : List Nat :=
  [91] ++ commaSep (fun proj => [91] ++ commaSep (VarT.text ct) proj ++ [93]) c ++ [93]

/-- `PMCFGRule::fmt` (pmcfg/mod.rs:251-273). -/
def PMCFGRule.text (r : PMCFGRule N T W) : List Nat :=
  quoted cn r.head ++ [32] ++ arrow ++ [32] ++ Composition.text ct r.composition ++ [32] ++
    ([40] ++ commaSep (quoted cn) r.tail ++ [41]) ++ ascii [' ', ' ', '#', ' '] ++ cw.text r.weight

/-- `PMCFG::fmt` (pmcfg/mod.rs:275-296). -/
def PMCFG.text (g : PMCFG N T W) : List Nat :=
  ascii ['i', 'n', 'i', 't', 'i', 'a', 'l', ':', ' ', '['] ++ commaSep (quoted cn) g.initial ++ ascii [']', '\n', '\n'] ++
    g.rules.flatMap fun r => PMCFGRule.text cn ct cw r ++ ascii ['\n']

/-- `Lcfrs::fmt` (lcfrs/mod.rs:70-82): the initial nonterminal is printed without quotes. -/
def Lcfrs.text (g : Lcfrs N T W) : List Nat :=
  ascii ['i', 'n', 'i', 't', 'i', 'a', 'l', ':', ' ', '['] ++ cn.text g.init ++ ascii [']', '\n', '\n'] ++
    g.rules.flatMap fun r => PMCFGRule.text cn ct cw r ++ ascii ['\n']

end

end Rustomata
