/-
Model of the parser generator `pest` (a dependency), as far as /repo/noodle/src/noodle_grammar.pest uses it: parsing
expressions with ordered choice and greedy repetition; between the parts of a sequence, and between the rounds of a
repetition, blanks and comments are skipped (unless the rule is atomic).
-/
namespace Noodle.Peg
set_option autoImplicit false

/-- noodle_grammar.pest: the rules that leave a node in the parse tree (`EOI` is built in). -/
inductive Rule
  | number | character | dot | letterRange | invert | cls | anagramBody | sequence | alternatives | anagram
  | superanagram | subanagram | transadd | transdelete | substring | subset | superset
  | repeatOptional | repeatAny | repeatOneormore | repeatAtmost | repeatExact | repeatAtleast | repeatRange
  | optionWordBoundaries | optionPunctuation | optionFuzz | expression
  | macroName | macroValue | macroDefine
  | pragmaWords | pragmaDict | pragmaLimit | pragmaQuiet | pragmaWordlist | query | eoi
  deriving DecidableEq, Repr

/-- A `pest::iterators::Pair`: a rule, the text it covers, and the nodes inside. -/
inductive Pair
  | mk (rule : Rule) (text : List Char) (inner : List Pair)
  deriving Repr

def Pair.rule : Pair → Rule | .mk r _ _ => r
def Pair.text : Pair → List Char | .mk _ t _ => t
def Pair.inner : Pair → List Pair | .mk _ _ i => i

/-- Names of rules: those that leave a node, and the silent ones (`_{ … }`). -/
inductive Name
  | vis (r : Rule)
  | term | group | subexpression | repeat | option | pragma | emptyLine
  deriving DecidableEq, Repr

/-- Parsing expressions. -/
inductive Exp
  /-- one character of a range or class -/
  | chr (p : Char → Bool)
  /-- `"…"` -/
  | str (s : List Char)
  /-- `^"…"`: ASCII case-insensitive -/
  | istr (s : List Char)
  | soi
  /-- end of input (the node it leaves is produced here) -/
  | eoi
  /-- `a ~ b` -/
  | seq (a b : Exp)
  /-- `a | b` -/
  | alt (a b : Exp)
  /-- `a?` -/
  | opt (a : Exp)
  /-- `a*` -/
  | star (a : Exp)
  /-- the rounds of `a*` after the first, each after skipping -/
  | more (a : Exp)
  | ref (n : Name)

/-- `a+`, which pest unrolls to `a ~ a*`. -/
def Exp.plus (a : Exp) : Exp := .seq a (.star a)

/-- The text left after a given prefix. -/
def stripPrefix (eq : Char → Char → Bool) : List Char → List Char → Option (List Char)
  | [], l => some l
  | _ :: _, [] => none
  | c :: cs, d :: ds => if eq c d then stripPrefix eq cs ds else none

/-- noodle_grammar.pest:2-5 `COMMENT`, run in atomic mode. `ANY+` takes all that is left, so that the first form ends
at the end of the input, and the second, which then wants `*/`, never matches. -/
def comment (l : List Char) : Option (List Char) :=
  match (stripPrefix (· == ·) "//".toList l).orElse fun _ => stripPrefix (· == ·) "--".toList l with
  | some (_ :: _) => some []
  | _ => none

/-- The implicit skipping: `WHITESPACE* ~ (COMMENT ~ WHITESPACE*)*`, where `WHITESPACE` is a blank
(noodle_grammar.pest:1). After a comment nothing is left. -/
def skip (l : List Char) : List Char :=
  let l1 := l.dropWhile (· == ' ')
  (comment l1).getD l1

/-- The result of a parsing expression: nodes and the text left; `none` is failure. -/
abbrev Res := Option (List Pair × List Char)

/-- Runs a parsing expression on the text that is left; `total` is the length of the whole input. The outer `Option` is
`none` when the fuel is used up (proved impossible for the fuel given in `Verif/Model/Grammar.lean`). -/
def run (body : Name → Bool × Exp) (total : Nat) : Nat → Bool → Exp → List Char → Option Res
  | 0, _, _, _ => none
  | n + 1, atomic, e, l =>
    match e with
    | .chr p => match l with
      | c :: cs => if p c then some (some ([], cs)) else some none
      | [] => some none
    | .str s => some ((stripPrefix (· == ·) s l).map fun r => ([], r))
    | .istr s => some ((stripPrefix (fun a b => a.toLower == b.toLower) s l).map fun r => ([], r))
    | .soi => some (if l.length = total then some ([], l) else none)
    | .eoi => some (if l.isEmpty then some ([.mk .eoi [] []], l) else none)
    | .seq a b =>
      (run body total n atomic a l).bind fun ra =>
        match ra with
        | none => some none
        | some (ps, l1) =>
          (run body total n atomic b (if atomic then l1 else skip l1)).map fun rb =>
            rb.map fun q => (ps ++ q.1, q.2)
    | .alt a b =>
      (run body total n atomic a l).bind fun ra =>
        match ra with
        | none => run body total n atomic b l
        | some r => some (some r)
    | .opt a =>
      (run body total n atomic a l).map fun ra => some (ra.getD ([], l))
    | .star a =>
      (run body total n atomic a l).bind fun ra =>
        match ra with
        | none => some (some ([], l))
        | some (ps, l1) =>
          (run body total n atomic (.more a) l1).map fun rb => rb.map fun q => (ps ++ q.1, q.2)
    | .more a =>
      (run body total n atomic a (if atomic then l else skip l)).bind fun ra =>
        match ra with
        | none => some (some ([], l))
        | some (ps, l1) =>
          (run body total n atomic (.more a) l1).map fun rb => rb.map fun q => (ps ++ q.1, q.2)
    | .ref m =>
      (run body total n (atomic || (body m).1) (body m).2 l).map fun r =>
        match m with
        | .vis r0 => r.map fun q =>
          ([.mk r0 (l.take (l.length - q.2.length)) (if (body m).1 then [] else q.1)], q.2)
        | _ => r

end Noodle.Peg
