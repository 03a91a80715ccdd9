/-!
# White space

Texts are lists of bytes.
-/

namespace Rustomata.Spec

/-- Unicode characters with the property `White_Space`. -/
def whiteSpace : List Nat := [0x9, 0xA, 0xB, 0xC, 0xD, 0x20, 0x85, 0xA0, 0x1680, 0x2000, 0x2001, 0x2002, 0x2003, 0x2004, 0x2005, 0x2006, 0x2007, 0x2008,
  0x2009, 0x200A, 0x2028, 0x2029, 0x202F, 0x205F, 0x3000]

/-- The encoding of a character below U+10000 in UTF-8. -/
def utf8 (x : Nat) : List Nat :=
  if x < 0x80 then [x]
  else if x < 0x800 then [0xC0 + x / 64, 0x80 + x % 64]
  else [0xE0 + x / 4096, 0x80 + x / 64 % 64, 0x80 + x % 64]

/-- The bytes of a white space character. -/
def White (c : List Nat) : Prop := ∃ x ∈ whiteSpace, c = utf8 x

/-- A sequence of white space characters. -/
def Whites (s : List Nat) : Prop := ∃ cs : List (List Nat), (∀ c ∈ cs, White c) ∧ s = cs.flatten

/-- A nonempty text without white space characters. -/
def WordText (s : List Nat) : Prop := s ≠ [] ∧ ∀ c, White c → ¬ c <:+: s

/-- `s` is `l` without the white space at the beginning. -/
def TrimsStart (l s : List Nat) : Prop := ∃ u, l = u ++ s ∧ Whites u ∧ ∀ c, White c → ¬ c <+: s

/-- `s` is `l` without the white space at the beginning and at the end. -/
def Trims (l s : List Nat) : Prop :=
  ∃ u v, l = u ++ s ++ v ∧ Whites u ∧ Whites v ∧ (∀ c, White c → ¬ c <+: s) ∧ ∀ c, White c → ¬ c <:+ s

/-- The parts of a text that are separated by white space. -/
inductive WordsText : List (List Nat) → List Nat → Prop
  | nil {w} : Whites w → WordsText [] w
  | last {w s} : Whites w → WordText s → WordsText [s] (w ++ s)
  | cons {w s c l t} : Whites w → WordText s → White c → WordsText l t → WordsText (s :: l) (w ++ s ++ c ++ t)

end Rustomata.Spec
