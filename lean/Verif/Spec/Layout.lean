import Verif.Spec.Script
/-
The layout of a query: how its lines are set.
-/
namespace Noodle.Spec
set_option autoImplicit false

/-- The same lines, except for the number of blanks at the beginning of each. -/
inductive Aligned : List (List Char) → List (List Char) → Prop
  | nil : Aligned [] []
  | cons {n m : Nat} {line : List Char} {ls ms : List (List Char)} : Aligned ls ms →
      Aligned ((List.replicate n ' ' ++ line) :: ls) ((List.replicate m ' ' ++ line) :: ms)

/-- Two texts of queries that differ only in their layout: the lines of the one, separated by newlines or semicolons, are
those of the other, except for blanks at the beginning of lines. -/
def SameLayout (s t : List Char) : Prop := ∃ ls ms, Lines s ls ∧ Lines t ms ∧ Aligned ls ms

/-! ### The examples of the page, as documented lines -/

/-- A part of a row: a term, its suffix, and the number of blanks after it. -/
abbrev Piece := Term × Suffix × Nat

/-- Letters. -/
def spelled (s : String) : List Piece := s.toList.map fun c => (.chr c, .none, 0)

/-- A row of parts. -/
def rowOf (p : Piece) : List Piece → Row
  | [] => .last p.1 p.2.1 p.2.2
  | q :: ps => .cons p.1 p.2.1 p.2.2 (rowOf q ps)

/-- A line with one row, that begins with a letter or not. -/
def rowLine (p : Piece) (ps : List Piece) (fs : List (Flag × Nat) := []) : Line := .expr 0 (.one (rowOf p ps)) fs

/-- A vowel, and a letter that is not a vowel. -/
def vowels (neg : Bool) : Piece := (.cls neg [.one 'a', .one 'e', .one 'i', .one 'o', .one 'u'], .none, 0)

/-- What the examples of the page are. -/
def exampleLines : List (String × List Line) :=
  let dot : Piece := (.dot, .none, 0)
  [("helloworld", [rowLine (.chr 'h', .none, 0) (spelled "elloworld")]),
   ("h.... _ w....; <hello+>; <world+5>; [hale]+<owl>.*",
     [rowLine (.chr 'h', .none, 0) ([dot, dot, dot, (.dot, .none, 1), (.chr '_', .none, 1), (.chr 'w', .none, 0), dot, dot, dot, dot]),
      rowLine (.bank .super "hello".toList, .none, 0) [],
      rowLine (.bank (.transAdd 5) "world".toList, .none, 0) [],
      rowLine (.cls false [.one 'h', .one 'a', .one 'l', .one 'e'], .plus, 0)
        [(.bank .standard "owl".toList, .none, 0), (.dot, .star, 0)]]),
   ("<smiles>", [rowLine (.bank .standard "smiles".toList, .none, 0) []]),
   ("<smiles>; .*ss.*", [rowLine (.bank .standard "smiles".toList, .none, 0) [],
      rowLine (.dot, .star, 0) (spelled "ss" ++ [(.dot, .star, 0)])]),
   ("ahumongoussentencewithmultiplewords", [rowLine (.chr 'a', .none, 0) (spelled "humongoussentencewithmultiplewords")]),
   ("ahumongoussentincewithmultiplewords !' !1",
     [rowLine (.chr 'a', .none, 0) (spelled "humongoussentincewithmultipleword" ++ [(.chr 's', .none, 1)])
       [(.punctuation, 1), (.fuzz 1, 0)]]),
   ("3 3 8 7; (LOOHNEWHOOPCRLOVAIDYTILEAUQWOSLLPEASSOEHNCS:-) !'",
     [rowLine (.num 3, .none, 1) [(.num 3, .none, 1), (.num 8, .none, 1), (.num 7, .none, 0)],
      rowLine (.part .subset (rowOf (.chr 'L', .none, 0) (spelled "OOHNEWHOOPCRLOVAIDYTILEAUQWOSLLPEASSOEHNCS")), .none, 1) []
        [(.punctuation, 0)]]),
   ("hen !1; hay !1", [rowLine (.chr 'h', .none, 0) (spelled "e" ++ [(.chr 'n', .none, 1)]) [(.fuzz 1, 0)],
      rowLine (.chr 'h', .none, 0) (spelled "a" ++ [(.chr 'y', .none, 1)]) [(.fuzz 1, 0)]]),
   ("breadfast !2", [rowLine (.chr 'b', .none, 0) (spelled "readfas" ++ [(.chr 't', .none, 1)]) [(.fuzz 2, 0)]]),
   (".{8}pi.{6} !_", [rowLine (.dot, .exact 8, 0) (spelled "pi" ++ [(.dot, .exact 6, 1)]) [(.boundaries, 0)]]),
   (".*cat.*; (string:+); 10", [rowLine (.dot, .star, 0) (spelled "cat" ++ [(.dot, .star, 0)]),
      rowLine (.part .superset (rowOf (.chr 's', .none, 0) (spelled "tring")), .none, 0) [],
      rowLine (.num 10, .none, 0) []]),
   ("(hello world:^)",
     [rowLine (.part .substring (rowOf (.chr 'h', .none, 0) (spelled "ell" ++ [(.chr 'o', .none, 1)] ++ spelled "world")), .none, 0) []]),
   ("V=[aeiou]; C=[^aeiou]; CVCCVV", [.define 0 "V".toList 0 "[aeiou]".toList 0, .define 0 "C".toList 0 "[^aeiou]".toList 0,
      rowLine (vowels true) [vowels false, vowels true, vowels true, vowels false, vowels false]])]

end Noodle.Spec
