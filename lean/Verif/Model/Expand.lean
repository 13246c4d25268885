import Verif.Model.Ast
/-
Model of the rewriting of anagram blocks, `QueryAst::expand_expressions` (/repo/noodle/src/parser.rs:211-387).
`usize` values (counts, lengths) are unbounded here.
-/
namespace Noodle
set_option autoImplicit false

mutual
/-- parser.rs:212-229 `visit`: runs `action` (which may change a state and replace the node) on the anagram blocks of
a tree, from left to right. It does not enter repetitions. -/
def visit {σ : Type} (action : AnagramKind → List Ch → σ → Except Crash (Ast × σ)) : Ast → σ → Except Crash (Ast × σ)
  | .cls c, s => .ok (.cls c, s)
  | .alts l, s => (visitAll action l s).map fun r => (.alts r.1, r.2)
  | .seq l, s => (visitAll action l s).map fun r => (.seq r.1, r.2)
  | .substr l, s => (visitAll action l s).map fun r => (.substr r.1, r.2)
  | .rep t lo hi, s => .ok (.rep t lo hi, s)
  | .anagram k b, s => action k b s
/-- parser.rs:219 `nodes.iter_mut().for_each(|n| visit(n, action))`. -/
def visitAll {σ : Type} (action : AnagramKind → List Ch → σ → Except Crash (Ast × σ)) : List Ast → σ → Except Crash (List Ast × σ)
  | [], s => .ok ([], s)
  | a :: l, s => (visit action a s).bind fun r => (visitAll action l r.2).map fun q => (r.1 :: q.1, q.2)
end

/-- parser.rs:234-239: the closure collecting the anagram blocks. -/
def collectAnagram (k : AnagramKind) (b : List Ch) (s : List (AnagramKind × List Ch)) :
    Except Crash (Ast × List (AnagramKind × List Ch)) := .ok (.anagram k b, s ++ [(k, b)])

/-- parser.rs:244-245: `set[l.as_index()] += 1` for every letter of the bank. -/
def bins (bank : List Ch) : List Nat :=
  bank.foldl (fun set l => set.modify l.val (· + 1)) (List.replicate 28 0)

/-- parser.rs:246-258: the letters of the bank with their counts, in the order of the alphabet. -/
def histogram (bank : List Ch) : List (Ch × Nat) :=
  (bins bank).zipIdx.filterMap fun p => if 0 < p.1 then some (Fin.ofNat 28 p.2, p.1) else none

/-- parser.rs:273-276 `char_bitset`. -/
def bankSet (hist : List (Ch × Nat)) : CharSet :=
  hist.foldl (fun s p => s.union (CharSet.ofCh p.1)) CharSet.empty

/-- parser.rs:281-296 `char_ast`. -/
def anagramChar (kind : AnagramKind) (ch : Ch) : Ast :=
  match kind with
  | .standard | .super | .transAdd _ => .cls (CharSet.ofCh ch)
  | .sub | .transDelete _ => .rep (.cls (CharSet.ofCh ch)) 0 (some 1)

/-- parser.rs:298-319 `fill_ast`. -/
def anagramFill (kind : AnagramKind) (bs : CharSet) (ch : Ch) : Ast :=
  match kind with
  | .standard | .sub | .transDelete _ => .rep (.cls (bs.diff (CharSet.ofCh ch))) 0 none
  | .super | .transAdd _ => .rep (.cls CharSet.letters) 0 none

/-- parser.rs:328-357: the length constraint. -/
def anagramLength (kind : AnagramKind) (bs : CharSet) (total : Nat) : Ast :=
  match kind with
  | .standard => .rep (.cls bs) total (some total)
  | .sub => .rep (.cls bs) 0 (some total)
  | .transDelete d => .rep (.cls bs) (total - d) (some (total - d))
  | .super => .rep (.cls CharSet.letters) total none
  | .transAdd a => .rep (.cls CharSet.letters) (total + a) (some (total + a))

/-- parser.rs:270-358 `ast_for_anagram`. -/
def astForAnagram (kind : AnagramKind) (hist : List (Ch × Nat)) (nth : Nat) : Ast :=
  match hist[nth]? with
  | some (ch, count) =>
    .seq ((List.replicate count [anagramFill kind (bankSet hist) ch, anagramChar kind ch]).flatten ++
      [anagramFill kind (bankSet hist) ch])
  | none => anagramLength kind (bankSet hist) (hist.map (·.2)).sum

/-- parser.rs:378-381: the closure replacing the `j`-th anagram block, `*node = replacements[j][i].clone(); j += 1`. -/
def replaceAnagram (replacements : List (List Ast)) (i : Nat) (_ : AnagramKind) (_ : List Ch) (j : Nat) :
    Except Crash (Ast × Nat) :=
  match (replacements[j]?).bind (·[i]?) with
  | some a => .ok (a, j + 1)
  | none => .error .index

/-- parser.rs:360-364 `max_unique_letters`. -/
def maxUnique (sets : List (AnagramKind × List (Ch × Nat))) : Nat :=
  ((sets.map fun p => p.2.length).max?).getD 0

/-- parser.rs:366-373: the table of replacements. -/
def replacementsOf (sets : List (AnagramKind × List (Ch × Nat))) : List (List Ast) :=
  sets.map fun p => (List.range (maxUnique sets + 1)).map (astForAnagram p.1 p.2)

/-- parser.rs:231-384: the expressions one expression is replaced with. -/
def expandOne (e : ExprAst) : Except Crash (List ExprAst) :=
  (visit collectAnagram e.root []).bind fun r =>
    let sets := r.2.map fun p => (p.1, histogram p.2)
    (List.range (maxUnique sets + 1)).mapM fun i =>
      (visit (replaceAnagram (replacementsOf sets) i) r.1 0).map fun q => { e with root := q.1 }

/-- parser.rs:211-387 `expand_expressions`. -/
def expandExpressions (es : List ExprAst) : Except Crash (List ExprAst) :=
  (es.mapM expandOne).map List.flatten

end Noodle
