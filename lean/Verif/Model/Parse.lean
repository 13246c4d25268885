import Verif.Model.Grammar
import Verif.Model.Expand
/-
Model of /repo/noodle/src/parser.rs: from the parse tree to the syntax tree, and from the text of a query to the query.
-/
namespace Noodle
open Peg
set_option autoImplicit false

/-- The value of a string of decimal digits. -/
def decimal (l : List Char) : Nat := l.foldl (fun n c => 10 * n + (c.toNat - '0'.toNat)) 0

/-- `str::parse::<usize>()` on the text of a `number` (which is a non-empty string of decimal digits): fails on
overflow. -/
def parseUsize (l : List Char) : Option Nat :=
  if !l.isEmpty && l.all Char.isDigit && decide (decimal l < 2 ^ 64) then some (decimal l) else none

/-- parser.rs:476-486 `parse_numbers`. -/
def parseNumbers (ps : List Pair) : List Nat :=
  ps.filterMap fun p => if p.rule = .number then parseUsize p.text else none

/-- parser.rs:491-498 `parse_anagram`. -/
def parseAnagram : List Pair → Except Crash (List Ch × Option Nat)
  | [] => .error .index
  | body :: ps =>
    if body.rule = .anagramBody then .ok (body.text.map chOfChar, (parseNumbers ps)[0]?) else .error .assert

/-- parser.rs:517-527: the closure over the items of a class. The flag is `invert`. -/
def classItem (st : Bool × CharSet) (p : Pair) : Except Crash (Bool × CharSet) :=
  match p.rule with
  | .invert => .ok (true, st.2)
  | .letterRange => match p.text[0]?, p.text[2]? with
    | some lo, some hi => .ok (st.1, st.2.union (CharSet.fromRange lo hi))
    | _, _ => .error .index
  | .character => match p.text.head? with
    | some c => .ok (st.1, st.2.union (CharSet.ofChar c))
    | none => .error .index
  | _ => .error .unreachable

/-- parser.rs:509-532: the class branch of `parse_term`. -/
def parseClass (inner : List Pair) : Except Crash CharSet :=
  let peeked : Bool × List Pair := match inner with
    | p :: ps => if p.rule = .invert then (true, ps) else (false, inner)
    | [] => (false, [])
  (peeked.2.foldlM classItem (peeked.1, CharSet.empty)).map fun st => if st.1 then st.2.invert else st.2

/-- parser.rs:595-604: the bounds of a repetition. -/
def repeatBounds (rule : Rule) (numbers : List Nat) : Except Crash (Nat × Option Nat) :=
  match rule with
  | .repeatOptional => .ok (0, some 1)
  | .repeatAny => .ok (0, none)
  | .repeatOneormore => .ok (1, none)
  | .repeatExact => match numbers[0]? with
    | some n => .ok (n, some n)
    | none => .error .index
  | .repeatAtmost => match numbers[0]? with
    | some n => .ok (0, some n)
    | none => .error .index
  | .repeatAtleast => match numbers[0]? with
    | some n => .ok (n, none)
    | none => .error .index
  | .repeatRange => match numbers[0]?, numbers[1]? with
    | some n, some m => .ok (n, some m)
    | _, _ => .error .index
  | _ => .error .unreachable

/-- parser.rs:607-637: the two anagram branches of `parse_term`. -/
def parseAnagramTerm (rule : Rule) (inner : List Pair) : Except Crash Ast :=
  (parseAnagram inner).bind fun r =>
    match rule with
    | .anagram => if r.2.isNone then .ok (.anagram .standard r.1) else .error .assert
    | .subanagram => if r.2.isNone then .ok (.anagram .sub r.1) else .error .assert
    | .superanagram => if r.2.isNone then .ok (.anagram .super r.1) else .error .assert
    | .transadd => match r.2 with
      | some n => .ok (.anagram (.transAdd n) r.1)
      | none => .error .assert
    | .transdelete => match r.2 with
      | some n => .ok (.anagram (.transDelete (if r.1.length < n then r.1.length else n)) r.1)
      | none => .error .assert
    | _ => .error .unreachable

/-- parser.rs:543-563: the terms of a superset group, each preceded (and the whole followed) by `[all]*`. -/
def supersetOf (l : List Ast) : List Ast :=
  l.flatMap (fun c => [.rep (.cls CharSet.all) 0 none, c]) ++ [.rep (.cls CharSet.all) 0 none]

mutual
/-- parser.rs:502-644 `parse_term`. -/
def parseTerm : Pair → Except Crash (Option Ast)
  | .mk rule text inner =>
    match rule with
    | .character => match text.head? with
      | some c => .ok (some (.cls (CharSet.ofChar c)))
      | none => .error .index
    | .dot => .ok (some (.cls CharSet.letters))
    | .cls => (parseClass inner).map fun c => some (.cls c)
    | .subset => (parseTerms inner).map fun l => some (.seq (l.map fun c => .rep c 0 (some 1)))
    | .superset => (parseTerms inner).map fun l => some (.seq (supersetOf l))
    | .substring => (parseTerms inner).map fun l => some (.substr l)
    | .sequence => (parseTerms inner).map fun l => some (.seq l)
    | .number => match parseUsize text with
      | some n => .ok (some (.seq [.rep (.cls CharSet.letters) n (some n), .cls (CharSet.ofCh Ch.wordEnd)]))
      | none => .error .index
    | .repeatOptional | .repeatAny | .repeatOneormore | .repeatExact | .repeatAtmost | .repeatAtleast
    | .repeatRange => parseRepeat rule inner
    | .anagram | .subanagram | .superanagram | .transadd | .transdelete =>
      (parseAnagramTerm rule inner).map some
    | .alternatives => (parseTerms inner).map fun l => some (.alts l)
    | _ => .ok none
/-- parser.rs:585-606: the repetition branch of `parse_term`. -/
def parseRepeat (rule : Rule) : List Pair → Except Crash (Option Ast)
  | [] => .error .index
  | p :: ps => (parseTerm p).bind fun r => match r with
    | none => .error .index
    | some t => (repeatBounds rule (parseNumbers ps)).map fun b => some (.rep t b.1 b.2)
/-- parser.rs:534-535, 544-545, 565, 571, 639: `pair.into_inner().filter_map(parse_term).collect()` -/
def parseTerms : List Pair → Except Crash (List Ast)
  | [] => .ok []
  | p :: ps => (parseTerm p).bind fun r => (parseTerms ps).map fun l => match r with
    | some a => a :: l
    | none => l
end

/-- parser.rs:653-661: one step of `parse_options`. -/
def parseOption (o : ExprOptions) (p : Pair) : Except Crash ExprOptions :=
  match p.rule with
  | .optionWordBoundaries => .ok { o with explicitWB := some true }
  | .optionPunctuation => .ok { o with explicitPunct := some true }
  | .optionFuzz => match (parseNumbers p.inner)[0]? with
    | some n => .ok { o with fuzz := some n }
    | none => .error .index
  | .eoi => .ok o
  | _ => .error .unreachable

/-- parser.rs:648-668 `parse_options`. -/
def parseOptions (ps : List Pair) : Except Crash ExprOptions := ps.foldlM parseOption {}

mutual
/-- parser.rs:672-699 `detect_options`. -/
def detectOptions : Ast → ExprOptions → ExprOptions
  | .cls c, o =>
    let o := if c.contains Ch.wordEnd then { o with explicitWB := some true } else o
    if c.contains Ch.punct then { o with explicitPunct := some true } else o
  | .alts l, o => detectAll l o
  | .seq l, o => detectAll l o
  | .substr l, o => detectAll l o
  | .rep t _ _, o => detectOptions t o
  | .anagram _ bank, o =>
    let o := if bank.contains Ch.wordEnd then { o with explicitWB := some true } else o
    if bank.contains Ch.punct then { o with explicitPunct := some true } else o
def detectAll : List Ast → ExprOptions → ExprOptions
  | [], o => o
  | a :: l, o => detectAll l (detectOptions a o)
end

/-- parser.rs:702-716 `parse_expression`. -/
def parseExpression (p : Pair) : Except Crash ExprAst :=
  if p.rule ≠ .expression then .error .assert
  else match p.inner with
  | [] => .error .index
  | sub :: ps =>
    if sub.rule = .sequence ∨ sub.rule = .alternatives then
      (parseTerm sub).bind fun r => match r with
        | none => .error .index
        | some ast => (parseOptions ps).map fun o => { root := ast, options := detectOptions ast o }
    else .error .assert

/-- parser.rs:79-85 `ExpressionAst::new_from_str`; `none` is a syntax error. -/
def ExprAst.ofText (l : List Char) : Except Crash (Option ExprAst) :=
  match parse .expression l with
  | none => .error .fuel
  | some none => .ok none
  | some (some p) => (parseExpression p).map some

/-! ### Queries -/

/-- `str::replace`: left to right, without overlaps. The counter is the number of characters of the pattern still to be
skipped. Simplification: the pattern is not empty (names of macros are not). -/
def replaceAux (pat rep : List Char) : Nat → List Char → List Char
  | _, [] => []
  | k + 1, _ :: cs => replaceAux pat rep k cs
  | 0, c :: cs =>
    if pat.isPrefixOf (c :: cs) then rep ++ replaceAux pat rep (pat.length - 1) cs else c :: replaceAux pat rep 0 cs

/-- parser.rs:139: `str::replace` -/
def replaceAll (pat rep l : List Char) : List Char := replaceAux pat rep 0 l

/-- parser.rs:184 `IndexMap::insert`: a new key goes to the end, an old one keeps its place. -/
def insertMacro (name value : List Char) : List (List Char × List Char) → List (List Char × List Char)
  | [] => [(name, value)]
  | (n, v) :: ms => if n = name then (n, value) :: ms else (n, v) :: insertMacro name value ms

/-- parser.rs:128: `split(&['\n', ';'][..])` -/
def splitLines : List Char → List (List Char)
  | [] => [[]]
  | c :: cs =>
    if c = '\n' ∨ c = ';' then [] :: splitLines cs
    else match splitLines cs with
      | [] => [[c]]
      | l :: ls => (c :: l) :: ls

/-- `char::is_whitespace` (Unicode `White_Space`). -/
def isWhite (c : Char) : Bool :=
  let n := c.toNat
  decide (9 ≤ n ∧ n ≤ 13) || n == 0x20 || n == 0x85 || n == 0xA0 || n == 0x1680 ||
    decide (0x2000 ≤ n ∧ n ≤ 0x200A) || n == 0x2028 || n == 0x2029 || n == 0x202F || n == 0x205F || n == 0x3000

/-- parser.rs:130: `str::trim` -/
def trim (l : List Char) : List Char := ((l.dropWhile isWhite).reverse.dropWhile isWhite).reverse

/-- Lexicographic comparison of two lists of numbers (`Ord` for slices and, code point by code point, for strings). -/
def cmpNats : List Nat → List Nat → Ordering
  | [], [] => .eq
  | [], _ :: _ => .lt
  | _ :: _, [] => .gt
  | a :: as, b :: bs => (compare a b).then (cmpNats as bs)

/-- words.rs:153-162: the derived `Ord` of `Word`: fields in order. UTF-8 preserves the order of code points. -/
def Word.cmp (a b : Word) : Ordering :=
  (compare a.tranche b.tranche).then <| (cmpNats (a.chars.map (·.val)) (b.chars.map (·.val))).then <|
    (cmpNats (a.text.toList.map Char.toNat) (b.text.toList.map Char.toNat)).then (compare a.score b.score)

/-- `wl.sort()`: equal words are identical, so that stability does not matter. -/
def sortWords (l : List Word) : List Word := l.mergeSort fun a b => Word.cmp a b != .gt

/-- parser.rs:24-31 `struct QueryOptions`. -/
structure QueryOptions where
  maxWords : Option Nat := none
  dictionary : Option (List Char) := none
  limit : Option Nat := none
  quiet : Option Bool := none
  wordlist : Option (List Word) := none

/-- parser.rs:17-22 `struct QueryAst`. -/
structure QueryAst where
  macros : List (List Char × List Char)
  expressions : List ExprAst
  options : QueryOptions

/-- parser.rs:106-115: the local variables of `QueryAst::new_from_str`. -/
structure ParseState where
  expressions : List ExprAst := []
  macros : List (List Char × List Char) := []
  options : QueryOptions := {}
  wordlist : Option (List Word) := none

/-- parser.rs:117-126, 143: what stops the parsing of a query: a syntax error, with the number of its line, or a panic. -/
inductive ParseError
  | syntax (line : Nat)
  | crash (c : Crash)
  deriving DecidableEq, Repr

/-- A panic in a nested call (parser.rs:151, 202). -/
def orCrash {α : Type} : Except Crash α → Except ParseError α
  | .ok a => .ok a
  | .error c => .error (.crash c)

/-- parser.rs:138-140: all macros defined so far, applied one after the other. -/
def applyMacros (ms : List (List Char × List Char)) (line : List Char) : List Char :=
  ms.foldl (fun l m => replaceAll m.1 m.2 l) line

/-- parser.rs:148-189: what the first node of a line does. -/
def lineNode (st : ParseState) (p : Pair) : Except Crash ParseState :=
  match p.rule with
  | .expression => (parseExpression p).map fun e => { st with expressions := st.expressions ++ [e] }
  | .pragmaWords => .ok { st with options := { st.options with maxWords := (parseNumbers p.inner)[0]? } }
  | .pragmaDict => .ok { st with options := { st.options with
      dictionary := some (p.inner.flatMap Pair.text) } }
  | .pragmaLimit => .ok { st with options := { st.options with limit := (parseNumbers p.inner)[0]? } }
  | .pragmaQuiet => .ok { st with options := { st.options with quiet := some true } }
  | .pragmaWordlist => .ok { st with wordlist := some [] }
  | .macroDefine =>
    let terms := (p.inner.filter fun q => q.rule = .macroName ∨ q.rule = .macroValue).map Pair.text
    match terms[0]?, terms[1]? with
    | some n, some v => .ok { st with macros := insertMacro n v st.macros }
    | _, _ => .error .index
  | _ => .ok st

/-- parser.rs:129-189: the body of the loop over the lines; `i` is the index of the line. -/
def parseLine (U : Unicode) (st : ParseState) (i : Nat) (line : List Char) : Except ParseError ParseState :=
  match st.wordlist with
  | some wl =>
    .ok (if (trim line).isEmpty then st
      else { st with wordlist := some (wl ++ [Word.new U (String.ofList (trim line)) 1 (i % 2 ^ 32)]) })
  | none =>
    match parse .query (applyMacros st.macros line) with
    | none => .error (.crash .fuel)
    | some none => .error (.syntax (i + 1))
    | some (some p) => match p.inner with
      | [] => .ok st
      | q :: _ => orCrash (lineNode st q)

/-- parser.rs:128-190: the loop, from line `i` on. -/
def parseLines (U : Unicode) : Nat → List (List Char) → ParseState → Except ParseError ParseState
  | _, [], st => .ok st
  | i, l :: ls, st => (parseLine U st i l).bind (parseLines U (i + 1) ls)

/-- parser.rs:105-205 `QueryAst::new_from_str`. -/
def QueryAst.ofText (U : Unicode) (l : List Char) : Except ParseError QueryAst :=
  (parseLines U 0 (splitLines l) {}).bind fun st =>
    (orCrash (expandExpressions st.expressions)).map fun es =>
      { macros := st.macros, expressions := es,
        options := { st.options with wordlist := st.wordlist.map sortWords } }

end Noodle
