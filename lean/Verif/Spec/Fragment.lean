import Verif.Model.Ast
/-
The expressions for which the compiler is proved correct.
-/
namespace Noodle.Spec
set_option autoImplicit false

/-- A class that matches something. -/
def isClass : Ast → Bool
  | .cls c => c != CharSet.empty
  | _ => false

/-- A class, even one that matches nothing. -/
def anyClass : Ast → Bool
  | .cls _ => true
  | _ => false

mutual
/-- The number of states built for an expression. -/
def states : Ast → Nat
  | .cls _ => 1
  | .alts l => 1 + statesAll l
  | .seq l => statesAll l
  | .substr l => 1 + statesAll l
  | .rep t lo hi =>
    if lo = 0 ∧ hi = some 0 then 0
    else if lo = 1 ∧ hi = some 1 then states t
    else 2 + Nat.max 1 (Nat.max lo (hi.getD lo)) * states t
  | .anagram _ _ => 0
def statesAll : List Ast → Nat
  | [] => 0
  | a :: l => states a + statesAll l
end

mutual
/-- Nothing in it is optional or repeated: classes, their sequences, and choices between such terms. -/
def rigid : Ast → Bool
  | .cls _ => true
  | .alts l => decide (2 ≤ l.length) && rigidAll l
  | .seq l => rigidAll l
  | .substr _ => false
  | .rep t lo hi => decide (lo = 1) && decide (hi = some 1) && rigid t
  | .anagram _ _ => false
def rigidAll : List Ast → Bool
  | [] => true
  | a :: l => rigid a && rigidAll l
end

mutual
/-- Has the empty word. -/
def nullable : Ast → Bool
  | .cls _ => false
  | .alts l => nullAny l
  | .seq l => nullAll l
  | .substr _ => true
  | .rep t lo _ => decide (lo = 0) || nullable t
  | .anagram _ _ => false
def nullAny : List Ast → Bool
  | [] => false
  | a :: l => nullable a || nullAny l
def nullAll : List Ast → Bool
  | [] => true
  | a :: l => nullable a && nullAll l
end

mutual
/-- The last thing in it is a class. -/
def endsClass : Ast → Bool
  | .cls _ => true
  | .seq l => endsClassSeq l
  | .rep t lo hi => decide (lo = 1) && decide (hi = some 1) && endsClass t
  | _ => false
def endsClassSeq : List Ast → Bool
  | [] => false
  | [a] => endsClass a
  | _ :: b :: l => endsClassSeq (b :: l)
end

mutual
/-- Each alternative in it but the last of its group ends with a class, not with a loop. -/
def calm : Ast → Bool
  | .cls _ => true
  | .alts l => calmAlts l
  | .seq l => calmAll l
  | .substr _ => true
  | .rep t _ _ => calm t
  | .anagram _ _ => true
def calmAll : List Ast → Bool
  | [] => true
  | a :: l => calm a && calmAll l
def calmAlts : List Ast → Bool
  | [] => true
  | [a] => calm a
  | a :: b :: l => endsClass a && calm a && calmAlts (b :: l)
end

mutual
/-- The fragment of expressions whose compilation is proved correct: classes; sequences;
alternatives each of which but the last ends with a class or an unbounded repetition; substring groups of at least two
classes; `t*` of a rigid term; `t+`, `t{n,}` of any such term without the empty word in which alternatives other than the
last end with a class; `t?`, `t{n,m}` of any such term. -/
def tame : Ast → Bool
  | .cls c => c != CharSet.empty
  | .alts l => !l.isEmpty && tameAlts l
  | .seq l => tameAll l
  | .substr l => decide (2 ≤ l.length) && l.all isClass
  | .rep t lo hi =>
    if lo = 0 ∧ hi = some 0 then true
    else if lo = 1 ∧ hi = some 1 then tame t
    else if hi = none then
      if lo = 0 then (tame t && rigid t && decide (0 < states t)) || anyClass t else tame t && !nullable t && calm t
    else decide (lo ≤ hi.getD lo) && tame t && decide (0 < states t)
  | .anagram _ _ => false
def tameAll : List Ast → Bool
  | [] => true
  | a :: l => tame a && tameAll l
/-- Likewise, and ending with a class or an unbounded repetition. -/
def tameEnd : Ast → Bool
  | .cls c => c != CharSet.empty
  | .seq l => tameEndSeq l
  | .rep t lo hi =>
    if lo = 1 ∧ hi = some 1 then tameEnd t
    else if hi = none then
      if lo = 0 then (tame t && rigid t && decide (0 < states t)) || anyClass t else tame t && !nullable t && calm t
    else false
  | _ => false
def tameEndSeq : List Ast → Bool
  | [] => false
  | [a] => tameEnd a
  | a :: b :: l => tame a && tameEndSeq (b :: l)
def tameAlts : List Ast → Bool
  | [] => true
  | [a] => tame a && decide (0 < states a)
  | a :: b :: l => tameEnd a && tameAlts (b :: l)
end

mutual
/-- The larger fragment for which the automaton before optimisation is proved to be right: classes; sequences;
alternatives each of which but the last ends with a class or a repetition; substring groups of at least two classes; all
repetitions (with the lower bound at most the upper). -/
def plain : Ast → Bool
  | .cls _ => true
  | .alts l => plainAlts l
  | .seq l => plainAll l
  | .substr l => decide (2 ≤ l.length) && l.all isClass
  | .rep t lo hi =>
    if lo = 0 ∧ hi = some 0 then true
    else decide (lo ≤ hi.getD lo) && plain t
  | .anagram _ _ => false
def plainAll : List Ast → Bool
  | [] => true
  | a :: l => plain a && plainAll l
/-- Likewise, and ending with a class or a repetition. -/
def plainEnd : Ast → Bool
  | .cls c => c != CharSet.empty
  | .seq l => plainEndSeq l
  | .rep t lo hi =>
    if lo = 0 ∧ hi = some 0 then false
    else if lo = 1 ∧ hi = some 1 then plainEnd t
    else decide (lo ≤ hi.getD lo) && plain t
  | _ => false
def plainEndSeq : List Ast → Bool
  | [] => false
  | [a] => plainEnd a
  | a :: b :: l => plain a && plainEndSeq (b :: l)
def plainAlts : List Ast → Bool
  | [] => true
  | [a] => plain a && decide (0 < states a)
  | a :: b :: l => plainEnd a && plainAlts (b :: l)
end

end Noodle.Spec
