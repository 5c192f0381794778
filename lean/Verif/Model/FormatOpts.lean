import Verif.Model.Format
/-!
# Formatting with options

`{:?}` passes the options of the format string (`{:#?}`, `{:8x?}`, `{:*^12?}`, …) on to the derived `Debug` implementations, which
pass them to every number inside. `Debug` for `IntVector` (int_vector.rs:409-422) and `Binary` for `BitVector`
(bit_vector.rs:227-236) do not look at them: `write!` starts with fresh options, and `write_str` has none. Their models are those of
`Model/Iter.lean` and `Model/Format.lean`.

What std does is assumed: `Debug` for unsigned integers, `Formatter::pad_integral`, `DebugStruct`, `DebugTuple` and `DebugList` with
their `PadAdapter` (core/src/fmt).
-/
namespace Succinct

/-- The text, as characters. -/
abbrev Text := List Char

/-- `<`, `^`, `>` -/
inductive Align where
  | left
  | center
  | right
deriving DecidableEq, Repr

/-- The options of a format string. The precision has no effect on integers and is left out. -/
structure FmtOpts where
  /-- `#` -/
  alternate : Bool := false
  /-- `x?` (lower case), `X?` (upper case) -/
  hex : Option Bool := none
  width : Option Nat := none
  fill : Char := ' '
  align : Option Align := none
  /-- `+` -/
  plus : Bool := false
  /-- `0` -/
  zero : Bool := false

namespace FmtOpts
variable (o : FmtOpts)

/-- The digits of a number. -/
def digits (n : Nat) : Text :=
  match o.hex with
  | none => Nat.toDigits 10 n
  | some false => Nat.toDigits 16 n
  | some true => (Nat.toDigits 16 n).map Char.toUpper

/-- What `pad_integral` writes before the digits: the sign and, with `#`, the prefix of the base. -/
def lead : Text := (if o.plus then ['+'] else []) ++ (if o.alternate && o.hex.isSome then ['0', 'x'] else [])

/-- `Formatter::pad_integral` of a number that is not negative (std): the padding on both sides. -/
def padding (missing : Nat) : Nat × Nat :=
  match o.align with
  | some .left => (0, missing)
  | some .center => (missing / 2, (missing + 1) / 2)
  | some .right => (missing, 0)
  | none => (missing, 0)

/-- `Debug` for `u8` … `u64`, `usize` (std). -/
def int (n : Nat) : Text :=
  let ds := o.digits n
  let missing := o.width.getD 0 - (o.lead ++ ds).length
  if o.zero then o.lead ++ List.replicate missing '0' ++ ds
  else List.replicate (o.padding missing).1 o.fill ++ (o.lead ++ ds) ++ List.replicate (o.padding missing).2 o.fill

/-- `PadAdapter` (std): four spaces before the first character of each line. -/
def indent : Bool → Text → Text
  | _, [] => []
  | true, x :: xs => ' ' :: ' ' :: ' ' :: ' ' :: x :: indent (x == '\n') xs
  | false, x :: xs => x :: indent (x == '\n') xs

/-- `", "` between the items. -/
def commas : List Text → Text
  | [] => []
  | [t] => t
  | t :: ts => t ++ [',', ' '] ++ commas ts

/-- Items on lines of their own, indented. -/
def lines (ts : List Text) : Text := indent true (ts.flatMap fun t => t ++ [',', '\n'])

/-- `Formatter::debug_struct` with one field or more (std). -/
def struct (name : String) (fields : List (String × Text)) : Text :=
  let fs := fields.map fun f => f.1.toList ++ ([':', ' '] ++ f.2)
  if o.alternate then name.toList ++ [' ', '{', '\n'] ++ lines fs ++ ['}']
  else name.toList ++ [' ', '{', ' '] ++ commas fs ++ [' ', '}']

/-- `Formatter::debug_tuple` with one field (std). -/
def tuple (name : String) (field : Text) : Text :=
  if o.alternate then name.toList ++ ['(', '\n'] ++ lines [field] ++ [')']
  else name.toList ++ ['('] ++ field ++ [')']

/-- `Formatter::debug_list` (std). -/
def list (items : List Text) : Text :=
  if o.alternate then
    if items = [] then ['[', ']'] else ['[', '\n'] ++ lines items ++ [']']
  else ['['] ++ commas items ++ [']']

end FmtOpts

/-- Derived for `VectorBase`, vector_base.rs:24-28. -/
def VB.debugWith (o : FmtOpts) (s : VB w) : Text :=
  o.struct "VectorBase" [("len", o.int s.len), ("vec", o.list (s.vec.map fun b => o.int b.toNat))]

/-- Derived for `BitVector`, bit_vector.rs:12-13. -/
def BV.debugWith (o : FmtOpts) (s : VB w) : Text := o.tuple "BitVector" (s.debugWith o)

/-- Derived for `Address`, storage.rs:336-342. -/
def Address.debugWith (o : FmtOpts) (a : Address) : Text :=
  o.struct "Address" [("block_index", o.int a.blockIndex), ("bit_offset", o.int a.bitOffset)]

/-- Derived for `BitBuffer`, bit_buffer.rs:9-13. -/
def BitBuf.debugWith (o : FmtOpts) (inner : FmtOpts → S → Text) (b : BitBuf S) : Text :=
  o.struct "BitBuffer" [("data", inner o b.data), ("pos", o.int b.pos)]

/-- Derived for `BitSlice` and `BitSliceMut`, bit_slice.rs:8-21. -/
def Slice.debugWith (o : FmtOpts) (name : String) (inner : FmtOpts → S → Text) (v : Slice S) : Text :=
  o.struct name [("data", inner o v.data), ("start", o.int v.start), ("len", o.int v.len)]

/-- Derived for `Rank9Cell` and `Level2`, rank9.rs:15-24. -/
def Rank9Cell.debugWith (o : FmtOpts) (x : Rank9Cell) : Text :=
  o.struct "Rank9Cell" [("level1", o.int x.level1), ("level2", o.tuple "Level2" (o.int x.level2.toNat))]

/-- Derived for `Rank9`, rank9.rs:9-13. -/
def Rank9.debugWith (o : FmtOpts) (inner : FmtOpts → S → Text) (r : Rank9 S) : Text :=
  o.struct "Rank9" [("bit_store", inner o r.bitStore), ("counts", o.list (r.counts.map (Rank9Cell.debugWith o)))]

/-- Derived for `JacobsonRank`, jacobson.rs:13-19. -/
def Jacobson.debugWith (c : Cfg) (o : FmtOpts) (inner : FmtOpts → S → Text) (j : Jacobson S) : Res Text := do
  let large ← j.largeBlockRanks.fmtDebug c
  let small ← j.smallBlockRanks.fmtDebug c
  .ok (o.struct "JacobsonRank" [("bit_store", inner o j.bitStore), ("large_block_size", o.int j.largeBlockSize),
    ("large_block_ranks", large.toList), ("small_block_ranks", small.toList)])

/-- Derived for `vector_base::Iter`, vector_base.rs:329-335, and the `Iter`s around it, bit_vector.rs:253-255 and
int_vector.rs:359-361. -/
def VIter.debugWith (o : FmtOpts) (it : VIter w) : Text :=
  o.tuple "Iter" (o.struct "Iter" [("start", o.int it.start), ("limit", o.int it.limit),
    ("element_bits", o.int it.elementBits), ("data", it.data.debugWith o)])

end Succinct
