import Mathlib.Data.List.Basic

/-!
# The parser combinators of nom 3

The parsers of the repository are written with the macros of the crate `nom` (Cargo.toml:24, version `^3.2`), whose source is
not part of the repository. This file gives the meaning of the macros that are used, as documented for nom 3. A parser maps the
remaining input to a result (`IResult`); a fourth result `panic` stands for a panic in the code that is called by the parser.
The positions and kinds of errors and the number of missing bytes are dropped.
-/

namespace Rustomata.Nom

/-- `IResult`, with an additional result for panics. -/
inductive PResult (C A : Type _)
  | done (rest : List C) (a : A)
  | error
  | incomplete
  | panic
deriving DecidableEq

/-- `IResult::map`. -/
def PResult.map {C A B : Type _} (f : A → B) : PResult C A → PResult C B
  | .done r a => .done r (f a)
  | .error => .error
  | .incomplete => .incomplete
  | .panic => .panic

/-- A parser on inputs of type `&[C]` (or `&str` for `C = Char`). -/
abbrev Parser (C A : Type _) := List C → PResult C A

variable {C A B : Type _}

/-- `p >> f` in `do_parse!`, also `tuple!`. -/
def chain (p : Parser C A) (f : A → Parser C B) : Parser C B := fun i => match p i with
  | .done r a => f a r
  | .error => .error
  | .incomplete => .incomplete
  | .panic => .panic

/-- The last expression of `do_parse!`. -/
def ret (a : A) : Parser C A := fun i => .done i a

/-- `p >> q` in `do_parse!` (the result of `p` is not used), also `preceded!`. -/
def thn (p : Parser C A) (q : Parser C B) : Parser C B := chain p fun _ => q

/-- `terminated!`. -/
def terminated (p : Parser C A) (q : Parser C B) : Parser C A := chain p fun a => chain q fun _ => ret a

/-- `delimited!`. -/
def delimited {D : Type _} (p : Parser C A) (q : Parser C B) (r : Parser C D) : Parser C B := thn p (terminated q r)

/-- `map!`. -/
def pmap (p : Parser C A) (f : A → B) : Parser C B := chain p fun a => ret (f a)

/-- `map_opt!`, `map_res!`: an error if the function does not return a value. -/
def mapRes (p : Parser C A) (f : A → Option B) : Parser C B := chain p fun a i => match f a with
  | some b => .done i b
  | none => .error

/-- `expr_res!`. -/
def exprRes (b : Option B) : Parser C B := fun i => match b with
  | some b => .done i b
  | none => .error

/-- `.unwrap()` in a parser. -/
def unwrapRes (b : Option B) : Parser C B := fun i => match b with
  | some b => .done i b
  | none => .panic

/-- `tag!`: incomplete if the input is a proper prefix of the tag. -/
def tag [DecidableEq C] (t : List C) : Parser C Unit := fun i =>
  if t <+: i then .done (i.drop t.length) ()
  else if i <+: t then .incomplete
  else .error

/-- `take_while!`: never incomplete. -/
def takeWhile (p : C → Bool) : Parser C (List C) := fun i => .done (i.dropWhile p) (i.takeWhile p)

/-- `take_while1!`. -/
def takeWhile1 (p : C → Bool) : Parser C (List C) := fun i => match i with
  | [] => .incomplete
  | c :: _ => if p c then .done (i.dropWhile p) (i.takeWhile p) else .error

/-- `is_not!`. -/
def isNot [DecidableEq C] (arr : List C) : Parser C (List C) := fun i => match i with
  | [] => .done [] []
  | c :: _ => if c ∈ arr then .error else .done (i.dropWhile (· ∉ arr)) (i.takeWhile (· ∉ arr))

/-- `alt!` with two alternatives: the second one is only tried after an error. -/
def alt (p q : Parser C A) : Parser C A := fun i => match p i with
  | .error => q i
  | r => r

/-- `opt!`. -/
def opt (p : Parser C A) : Parser C (Option A) := fun i => match p i with
  | .done r a => .done r (some a)
  | .error => .done i none
  | .incomplete => .incomplete
  | .panic => .panic

/-- `complete!`. -/
def complete (p : Parser C A) : Parser C A := fun i => match p i with
  | .incomplete => .error
  | r => r

/-- `not!`: succeeds if the parser returns an error or needs more input. -/
def pnot (p : Parser C A) : Parser C Unit := fun i => match p i with
  | .done _ _ => .error
  | .error => .done i ()
  | .incomplete => .done i ()
  | .panic => .panic

/-- `eof!`. -/
def eof : Parser C Unit := fun i => if i = [] then .done [] () else .error

/-- The functions `digit` and `space` of nom: a nonempty sequence, incomplete on the empty input. -/
def many1Of (p : C → Bool) : Parser C (List C) := takeWhile1 p

/-- The loop of `many0!`. The first argument bounds the number of iterations; each iteration consumes input. -/
def many0Go [DecidableEq C] (p : Parser C A) : Nat → List C → List A → PResult C (List A)
  | 0, i, acc => .done i acc
  | n + 1, i, acc =>
    if i = [] then .done i acc
    else match p i with
      | .error => .done i acc
      | .incomplete => .incomplete
      | .panic => .panic
      | .done r a => if r = i then .error else many0Go p n r (acc ++ [a])

/-- `many0!`: ends at the end of the input or at the first error of the inner parser. -/
def many0 [DecidableEq C] (p : Parser C A) : Parser C (List A) := fun i => many0Go p (i.length + 1) i []

/-- The loop of `separated_list!` and `separated_nonempty_list!` after the first element. The first argument bounds the number of
iterations; each iteration consumes input. -/
def sepGo (sep : Parser C B) (p : Parser C A) : Nat → List C → List A → PResult C (List A)
  | 0, i, acc => .done i acc
  | n + 1, i, acc => match sep i with
    | .error => .done i acc
    | .incomplete => .incomplete
    | .panic => .panic
    | .done i₂ _ =>
      if i₂.length = i.length then .done i acc
      else match p i₂ with
        | .error => .done i acc
        | .incomplete => .incomplete
        | .panic => .panic
        | .done r a => if r.length = i₂.length then .done i acc else sepGo sep p n r (acc ++ [a])

/-- `separated_list_complete!`. -/
def sepList (sep : Parser C B) (p : Parser C A) : Parser C (List A) := fun i => match complete p i with
  | .error => .done i []
  | .incomplete => .incomplete
  | .panic => .panic
  | .done r a => if r.length = i.length then .error else sepGo (complete sep) (complete p) (i.length + 1) r [a]

/-- `separated_nonempty_list_complete!`. -/
def sepList1 (sep : Parser C B) (p : Parser C A) : Parser C (List A) := fun i => match complete p i with
  | .error => .error
  | .incomplete => .incomplete
  | .panic => .panic
  | .done r a => if r.length = i.length then .error else sepGo (complete sep) (complete p) (i.length + 1) r [a]

/-- `IResult::to_result` and the `match` on `IResult::Done(_, result)`: the remaining input is dropped; `some none` is an `Err`,
`none` a panic. -/
def PResult.toResult : PResult C A → Option (Option A)
  | .done _ a => some (some a)
  | .error => some none
  | .incomplete => some none
  | .panic => none

end Rustomata.Nom
