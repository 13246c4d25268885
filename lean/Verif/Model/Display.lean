import Verif.Model.Parse
/-
Model of how expressions are printed: words.rs:59-64, 127-151 and parser.rs:87-102, 390-472.
-/
namespace Noodle
set_option autoImplicit false

/-- `{}` of a `usize`. -/
def showNat (n : Nat) : List Char := (toString n).toList

/-- words.rs:59-64 `impl Debug for Char`. -/
def Ch.show (x : Ch) : List Char := [x.toChar]

/-- `u32::count_ones`. -/
def CharSet.countOnes (s : CharSet) : Nat := ((List.range 32).filter fun i => s.getLsbD i).length

/-- words.rs:127-151 `impl Debug for CharBitset`. The loop `for i in 0..=27` is over the 28 symbols. -/
def CharSet.show (s : CharSet) : List Char :=
  if s = CharSet.letters then ['.']
  else if s = CharSet.all then ['[', 'a', '-', 'z', '_', '\'', ']']
  else if s.countOnes = 0 then ['0']
  else
    (if 1 < s.countOnes then ['['] else []) ++
    (List.finRange 28).flatMap (fun i => if CharSet.ofCh i &&& s != 0#32 then Ch.show i else []) ++
    (if 1 < s.countOnes then [']'] else [])

/-- parser.rs:422-456: what is printed after the term of a repetition; the arms in order. -/
def showBounds : Nat → Option Nat → List Char
  | 0, none => ['*']
  | 0, some 1 => ['?']
  | 1, none => ['+']
  | 0, some max => ['{', ','] ++ showNat max ++ ['}']
  | min, none => ['{'] ++ showNat min ++ [',', '}']
  | min, some max =>
    if min = max then ['{'] ++ showNat min ++ ['}']
    else ['{'] ++ showNat min ++ [','] ++ showNat max ++ ['}']

/-- parser.rs:460-466: the kind of an anagram block. -/
def showKind : AnagramKind → List Char
  | .standard => []
  | .super => ['+']
  | .sub => ['-']
  | .transAdd n => ['+'] ++ showNat n
  | .transDelete n => ['-'] ++ showNat n

mutual
/-- parser.rs:390-472 `impl Display for Ast`. -/
def Ast.show : Ast → List Char
  | .cls c => if c = CharSet.letters then ['.'] else c.show
  | .alts l => match l with
    | [] => []
    | a :: l => ['('] ++ a.show ++ showBars l ++ [')']
  | .seq l => (if 1 < l.length then ['('] else []) ++ showList l ++ (if 1 < l.length then [')'] else [])
  | .substr l => (if 1 < l.length then ['('] else []) ++ showList l ++ (if 1 < l.length then [':', '^', ')'] else [])
  | .rep t lo hi => t.show ++ showBounds lo hi
  | .anagram kind bank => ['<'] ++ bank.flatMap Ch.show ++ showKind kind ++ ['>']
/-- parser.rs:408, 417: `nodes.iter().try_for_each(..)` -/
def showList : List Ast → List Char
  | [] => []
  | a :: l => a.show ++ showList l
/-- parser.rs:398-400: the other alternatives, each after a bar. -/
def showBars : List Ast → List Char
  | [] => []
  | a :: l => ['|'] ++ a.show ++ showBars l
end

/-- parser.rs:87-102 `impl Display for ExpressionAst`. -/
def ExprAst.show (e : ExprAst) : List Char :=
  e.root.show ++
  (if e.options.explicitWB = some true then [' ', '!', '_'] else []) ++
  (if e.options.explicitPunct = some true then [' ', '!', '\''] else []) ++
  (match e.options.fuzz with
    | some n => [' ', '!'] ++ showNat n
    | none => [])

end Noodle
