import Verif.Model.Peg
/-
The grammar, /repo/noodle/src/noodle_grammar.pest.
-/
namespace Noodle.Peg
set_option autoImplicit false

/-- `ASCII_ALPHA` -/
def alphaChar : Exp := .chr Char.isAlpha
/-- `ASCII_DIGIT` -/
def digitChar : Exp := .chr Char.isDigit
/-- A literal. -/
def lit (s : String) : Exp := .str s.toList
/-- A reference to a rule that leaves a node. -/
def node (r : Rule) : Exp := .ref (.vis r)

/-- `a ~ b ~ …` -/
def seqs : List Exp → Exp
  | [] => .str []
  | [a] => a
  | a :: l => .seq a (seqs l)
/-- `a | b | …` -/
def choices : List Exp → Exp
  | [] => .chr fun _ => false
  | [a] => a
  | a :: l => .alt a (choices l)

/-- noodle_grammar.pest: the body of every rule, and whether the rule is atomic (`@{ … }`). -/
def grammar : Name → Bool × Exp
  | .vis .number => (true, digitChar.plus)                                            -- line 9
  | .vis .character =>                                                                 -- lines 11-14
    (false, choices [alphaChar, node .dot, lit "'", lit "_"])
  | .vis .dot => (false, lit ".")                                                      -- line 15
  | .vis .letterRange => (false, seqs [alphaChar, lit "-", alphaChar])                 -- line 16
  | .vis .invert => (false, lit "^")                                                   -- line 17
  | .vis .cls =>                                                                       -- line 18
    (false, seqs [lit "[", .opt (node .invert), (Exp.alt (node .letterRange) (node .character)).plus, lit "]"])
  | .vis .anagramBody => (false, alphaChar.plus)                                       -- line 19
  | .vis .sequence => (false, (Exp.alt (.ref .repeat) (.ref .term)).plus)              -- line 21
  | .vis .alternatives => (false, .seq (node .sequence) (Exp.seq (lit "|") (node .sequence)).plus) -- line 22
  | .vis .anagram => (false, seqs [lit "<", node .anagramBody, lit ">"])               -- line 23
  | .vis .superanagram => (false, seqs [lit "<", node .anagramBody, lit "+>"])         -- line 24
  | .vis .subanagram => (false, seqs [lit "<", node .anagramBody, lit "->"])           -- line 25
  | .vis .transadd => (false, seqs [lit "<", node .anagramBody, lit "+", node .number, lit ">"])    -- line 26
  | .vis .transdelete => (false, seqs [lit "<", node .anagramBody, lit "-", node .number, lit ">"]) -- line 27
  | .vis .substring => (false, seqs [lit "(", (Exp.ref .term).plus, lit ":^)"])        -- line 28
  | .vis .subset => (false, seqs [lit "(", (Exp.ref .term).plus, lit ":-)"])           -- line 29
  | .vis .superset => (false, seqs [lit "(", (Exp.ref .term).plus, lit ":+)"])         -- line 30
  | .vis .repeatOptional => (false, .seq (.ref .term) (lit "?"))                       -- line 32
  | .vis .repeatAny => (false, .seq (.ref .term) (lit "*"))                            -- line 33
  | .vis .repeatOneormore => (false, .seq (.ref .term) (lit "+"))                      -- line 34
  | .vis .repeatAtmost => (false, seqs [.ref .term, lit "{,", node .number, lit "}"])  -- line 35
  | .vis .repeatExact => (false, seqs [.ref .term, lit "{", node .number, lit "}"])    -- line 36
  | .vis .repeatAtleast => (false, seqs [.ref .term, lit "{", node .number, lit ",}"]) -- line 37
  | .vis .repeatRange =>                                                               -- line 38
    (false, seqs [.ref .term, lit "{", node .number, lit ",", node .number, lit "}"])
  | .subexpression => (false, .alt (node .alternatives) (node .sequence))              -- line 40
  | .group => (false, seqs [lit "(", .ref .subexpression, lit ")"])                    -- line 41
  | .term => (false, choices [node .cls, node .dot, .ref .group, node .anagram, node .superanagram,  -- lines 42-56
      node .subanagram, node .transadd, node .transdelete, node .substring, node .subset, node .superset,
      node .number, node .character])
  | .repeat => (false, choices [node .repeatOptional, node .repeatAny, node .repeatOneormore,        -- lines 57-65
      node .repeatAtmost, node .repeatExact, node .repeatAtleast, node .repeatRange])
  | .vis .optionWordBoundaries => (false, lit "!_")                                    -- line 69
  | .vis .optionPunctuation => (false, lit "!'")                                       -- line 70
  | .vis .optionFuzz => (false, .seq (lit "!") (node .number))                         -- line 71
  | .option => (false, choices [node .optionWordBoundaries, node .optionPunctuation, node .optionFuzz]) -- line 72
  | .vis .expression =>                                                                -- line 74
    (false, seqs [.soi, .ref .subexpression, .star (.ref .option), .eoi])
  | .vis .macroName =>                                                                 -- line 76
    (false, .seq alphaChar (.star (choices [alphaChar, digitChar, lit "_"])))
  | .vis .macroValue =>                                                                -- line 77
    (false, .star (.chr fun c => decide (' '.toNat ≤ c.toNat) && decide (c.toNat ≤ '~'.toNat)))
  | .vis .macroDefine =>                                                               -- line 78
    (false, seqs [.soi, node .macroName, lit "=", node .macroValue, .eoi])
  | .vis .pragmaWords => (false, .seq (.istr "#words".toList) (node .number))          -- line 80
  | .vis .pragmaDict =>                                                                -- line 81
    (false, .seq (.alt (.istr "#dict".toList) (.istr "#dictionary".toList))
      (Exp.alt (node .character) (lit "-")).plus)
  | .vis .pragmaLimit => (false, .seq (.istr "#limit".toList) (node .number))          -- line 82
  | .vis .pragmaQuiet => (false, .istr "#quiet".toList)                                -- line 83
  | .vis .pragmaWordlist => (false, .istr "#wordlist".toList)                          -- line 84
  | .pragma =>                                                                         -- line 85
    (false, seqs [.soi, choices [node .pragmaWords, node .pragmaDict, node .pragmaLimit, node .pragmaQuiet,
      node .pragmaWordlist], .eoi])
  | .emptyLine => (false, .seq .soi .eoi)                                              -- line 87
  | .vis .query =>                                                                     -- line 89
    (false, choices [.ref .pragma, node .macroDefine, node .expression, .ref .emptyLine])
  | .vis .eoi => (false, .eoi)

/-- Enough fuel for a text (see `Verif/Proofs/Peg.lean`). -/
def fuelFor (l : List Char) : Nat := (l.length + 1) * 100

/-- `NoodleParser::parse(rule, text)`: the tree of the first node, or a syntax error (`none`). The outer `Option` is
`none` only when the fuel is used up. -/
def parse (r : Rule) (l : List Char) : Option (Option Pair) :=
  (run grammar l.length (fuelFor l) false (node r) l).map fun res => res.bind fun q => q.1.head?

end Noodle.Peg
