import Verif.Spec.Surface
/-
Which syntax trees can be printed and read back.
-/
namespace Noodle.Spec
set_option autoImplicit false

/-- Printed without a suffix such as `*` at the end. A group of one term is printed as that term. -/
def bare : Ast → Bool
  | .rep _ _ _ => false
  | .seq [a] => bare a
  | _ => true

def bankFits (len : Nat) : AnagramKind → Bool
  | .transAdd n => decide (n < 2 ^ 64)
  | .transDelete n => decide (n < 2 ^ 64) && decide (n ≤ len)
  | _ => true

mutual
/-- Classes are not empty; there are two alternatives or more; groups are not empty; `(…:^)` has two terms or more,
none of which is (a group of) one repetition; what is repeated is not itself (a group of) one repetition; banks are not
empty and consist of letters; numbers fit in 64 bits. -/
def printable : Ast → Bool
  | .cls c => decide (0 < c.toNat) && decide (c.toNat < 2 ^ 28)
  | .alts l => decide (2 ≤ l.length) && printables l
  | .seq l => decide (1 ≤ l.length) && printables l
  | .substr l => decide (2 ≤ l.length) && printables l && l.all bare
  | .rep t lo hi => printable t && bare t && decide (lo < 2 ^ 64) && hi.all (fun m => decide (m < 2 ^ 64))
  | .anagram kind bank => bankFits bank.length kind && !bank.isEmpty && bank.all (fun x => decide (x.val < 26))
def printables : List Ast → Bool
  | [] => true
  | a :: l => printable a && printables l
end

end Noodle.Spec
