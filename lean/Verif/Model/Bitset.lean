/-
Model of /repo/noodle/src/bitset.rs at block level.

`none` stands for a panic or for an out-of-range unchecked access (undefined behaviour).
The borrow wrappers (`BitSet`, `BitSetRef`, `BitSetRefMut`) only differ in ownership and are one
type here.  `compact_distance_set` (bitset.rs:225-240) is never called and is not modelled.
-/
namespace Noodle.Bits

/-- bitset.rs:111-112 `type Block = u32; const BLOCK_BITS = 32`. -/
abbrev Block := BitVec 32

/-- A 1-D bitset: its blocks (bitset.rs:118-122 with `Idx = ()`). -/
abbrev Bits := List Block

/-- bitset.rs:126-127: `div_rem(inner_size, 32)`, rounded up. -/
def blockSize (inner : Nat) : Nat := inner / 32 + (if inner % 32 > 0 then 1 else 0)

/-- bitset.rs:125-134 `BitSet::new((), n)`. -/
def new (n : Nat) : Bits := List.replicate (1 * blockSize n) 0#32

/-- bitset.rs:275-279 `contains`. -/
def contains (s : Bits) (i : Nat) : Option Bool :=
  s[i / 32]?.map fun b => (b &&& (1#32 <<< (i % 32))) != 0#32

/-- bitset.rs:346-350 `insert`. -/
def insert (s : Bits) (i : Nat) : Option Bits :=
  if i / 32 < s.length then some (s.modify (i / 32) (· ||| (1#32 <<< (i % 32)))) else none

/-- bitset.rs:341-345 `remove`. -/
def remove (s : Bits) (i : Nat) : Option Bits :=
  if i / 32 < s.length then some (s.modify (i / 32) (· &&& ~~~(1#32 <<< (i % 32)))) else none

/-- bitset.rs:272-274 `is_empty`. -/
def isEmpty (s : Bits) : Bool := s.all (· == 0#32)

/-- bitset.rs:351-353 `clear`. -/
def clear (s : Bits) : Bits := s.map fun _ => 0#32

/-- The loop `for i in 0..other.blocks.len() { self[i] = f(self[i], other[i]) }` shared by
bitset.rs:360-377; reading `self` out of range is `none`. -/
def zipInto (f : Block → Block → Block) : Bits → Bits → Option Bits
  | s, [] => some s
  | [], _ :: _ => none
  | a :: s, b :: o => (zipInto f s o).map (f a b :: ·)

/-- bitset.rs:360-365 `union_with`. -/
def union (s o : Bits) : Option Bits := zipInto (· ||| ·) s o
/-- bitset.rs:366-371 `difference_with`. -/
def difference (s o : Bits) : Option Bits := zipInto (fun a b => a &&& ~~~b) s o
/-- bitset.rs:372-377 `intersect_with`. -/
def intersect (s o : Bits) : Option Bits := zipInto (· &&& ·) s o

/-- bitset.rs:378-383 `copy_from`: loops over `self`'s blocks, reading `other` unchecked. -/
def copyFrom (s o : Bits) : Option Bits :=
  if s.length ≤ o.length then some (o.take s.length) else none

/-- bitset.rs:280-286 `BitSetRef::is_subset` (zips the two block slices). -/
def isSubset (s o : Bits) : Bool := (s.zip o).all fun p => (p.1 ||| p.2) == p.2

/-- bitset.rs:406-410 `struct Ones`. -/
structure Ones where
  block : Block
  offset : Nat
  remaining : List Block

/-- bitset.rs:416-423, the `while self.block == 0` loop of `Ones::next`; structural on the
remaining blocks. `none` = the iterator is exhausted. -/
def Ones.skip (block : Block) (offset : Nat) : List Block → Option Ones
  | [] => if block == 0#32 then none else some ⟨block, offset, []⟩
  | r :: rs => if block == 0#32 then Ones.skip r (offset + 32) rs else some ⟨block, offset, r :: rs⟩

/-- bitset.rs:415-429 `Ones::next`. -/
def Ones.next (o : Ones) : Option (Nat × Ones) :=
  match Ones.skip o.block o.offset o.remaining with
  | none => none
  | some o' =>
    let t := o'.block &&& (0#32 - o'.block)
    let r := o'.block.ctz.toNat
    some (o'.offset + r, { o' with block := o'.block ^^^ t })

/-- Collecting an iterator: repeated `next`, with fuel. -/
def Ones.collect : Nat → Ones → List Nat
  | 0, _ => []
  | n + 1, o => match o.next with
    | none => []
    | some (i, o') => i :: Ones.collect n o'

/-- bitset.rs:287-293 `ones()` and `.collect()`; `self.blocks[0]` panics on an empty block slice.
The fuel is one more than the number of bits in the blocks, which `ones_spec` shows is enough. -/
def ones (s : Bits) : Option (List Nat) :=
  match s with
  | [] => none
  | b :: bs => some (Ones.collect (32 * s.length + 1) ⟨b, 0, bs⟩)

/-- bitset.rs:164-173 `resize`: assert that every element fits, then copy block by block into a
fresh bitset (the `zip` stops at the shorter of the two). -/
def resize (s : Bits) (n : Nat) : Option Bits :=
  match ones s with
  | none => none
  | some l =>
    if l.all (· < n) then
      some (s.take (blockSize n) ++ (new n).drop s.length)
    else none

/-- bitset.rs:21, 118-122: a 3-D bitset, `size = (dim2, block_size)`. -/
structure Bits3 where
  blocks : List Block
  d2 : Nat
  bs : Nat
  deriving DecidableEq

/-- bitset.rs:125-134 with `Idx = (usize, usize)`: `total_size`, `transpose` (bitset.rs:69-77). -/
def new3 (d1 d2 inner : Nat) : Bits3 :=
  { blocks := List.replicate (d1 * d2 * blockSize inner) 0#32, d2, bs := blockSize inner }

/-- An unchecked slice `get_unchecked(start..stop)`: undefined when it leaves the blocks. -/
def sub (bl : List Block) (start stop : Nat) : Option (List Block) :=
  if start ≤ stop ∧ stop ≤ bl.length then some ((bl.drop start).take (stop - start)) else none

/-- Writing `new` over the slice beginning at `start` (what a `&mut` slice does). -/
def put (bl : List Block) (start : Nat) (new : List Block) : List Block :=
  bl.take start ++ new ++ bl.drop (start + new.length)

/-- bitset.rs:78-81 `Index::slice` for `(usize, usize)`. -/
def Bits3.rowStart (t : Bits3) (i j : Nat) : Nat := t.bs * (t.d2 * i + j)

/-- bitset.rs:136-140 `slice((i, j))`. -/
def Bits3.row (t : Bits3) (i j : Nat) : Option Bits :=
  sub t.blocks (t.rowStart i j) (t.rowStart i j + t.bs)

/-- bitset.rs:142-146 `slice_mut((i, j))` followed by an in-place update `f` of the slice. -/
def Bits3.modifyRow (t : Bits3) (i j : Nat) (f : Bits → Option Bits) : Option Bits3 :=
  (t.row i j).bind fun r => (f r).map fun r' => { t with blocks := put t.blocks (t.rowStart i j) r' }

/-- bitset.rs:208-223 `slice2d(i)`: blocks `d2*bs*i .. d2*bs*(i+1)`. -/
def Bits3.slice2d (t : Bits3) (i : Nat) : Option (List Block) :=
  sub t.blocks (t.d2 * t.bs * i) (t.d2 * t.bs * (i + 1))

/-- bitset.rs:64-66, 91-98, 301-310: row `j` of a 2-D slice with block size `bs`. -/
def row2 (bl : List Block) (bs j : Nat) : Option Bits := sub bl (bs * j) (bs * (j + 1))

end Noodle.Bits
