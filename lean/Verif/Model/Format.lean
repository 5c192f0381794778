import Verif.Model.Iter
import Verif.Model.Rank
import Verif.Model.Stream
import Verif.Model.Slice
/-!
# Formatting with a formatter that may refuse to write

bit_vector.rs:227-236 and int_vector.rs:409-422 once more, with the calls of `write_str` they make and `try!` after each, and the
text that the derived `Debug` implementations write.

What std does is assumed: `write!` calls `write_str` once for each literal piece and once for each integer argument (`{}` and
`{:?}` of an integer without options write its decimal digits in one call), and stops at the first error.
-/
namespace Succinct

/-- `fmt::Formatter`, of which only `write_str` matters here. The result tells whether it returned `Ok`. -/
structure FmtSink (σ : Type) where
  writeStr : String → σ → Res (Bool × σ)

/-- `write!` with the given pieces, arguments already formatted (std). -/
def FmtSink.write (K : FmtSink σ) : List String → σ → Res (Bool × σ)
  | [], t => .ok (true, t)
  | p :: ps, t => do
    let (ok, t) ← K.writeStr p t
    if ok then K.write ps t else .ok (false, t)

/-- `for x in it { try!(body) }`: `next` until `None` or an error (std desugaring). -/
def VIter.tryEach (c : Cfg) (it : VIter w) (t : σ) (body : BitVec w → σ → Res (Bool × σ)) : Res (Bool × σ) := do
  let (r, it) ← it.next c
  match r with
  | some x => do
    let (ok, t) ← body x t
    if ok then tryEach c it t body else .ok (false, t)
  | none => .ok (true, t)
partial_fixpoint

/-- `fmt::Binary for BitVector`, bit_vector.rs:227-236. -/
def BV.fmtBinaryTo (c : Cfg) (K : FmtSink σ) (s : VB w) (t : σ) : Res (Bool × σ) :=
  (BV.iter s).tryEach c t fun x t => K.writeStr (if bitItem x then "1" else "0") t

/-- `fmt::Debug for IntVector`, int_vector.rs:409-422. -/
def IV.fmtDebugTo (c : Cfg) (K : FmtSink σ) (s : IV w) (t : σ) : Res (Bool × σ) := do
  let (ok, t) ← K.write ["IntVector { element_bits: ", Nat.repr s.elementBits, ", elements: { "] t
  if ok then do
    let (ok, t) ← s.iter.tryEach c t fun x t => K.write [Nat.repr x.toNat, ", "] t
    if ok then K.write ["} }"] t else .ok (false, t)
  else .ok (false, t)

/-! ### Derived `Debug`: the text of `{:?}` without options, as std writes it -/

/-- `Formatter::debug_struct` with its fields (std). -/
def debugStruct (name : String) (fields : List (String × String)) : String :=
  name ++ " { " ++ ", ".intercalate (fields.map fun f => f.1 ++ ": " ++ f.2) ++ " }"

/-- `Formatter::debug_list`, used for `Vec` and slices (std). -/
def debugList (items : List String) : String := "[" ++ ", ".intercalate items ++ "]"

/-- Derived for `VectorBase`, vector_base.rs:24-28. -/
def VB.debugText (s : VB w) : String :=
  debugStruct "VectorBase" [("len", Nat.repr s.len), ("vec", debugList (s.vec.map fun b => Nat.repr b.toNat))]

/-- Derived for `BitVector`, bit_vector.rs:12-13. -/
def BV.debugText (s : VB w) : String := "BitVector(" ++ s.debugText ++ ")"

/-- Derived for `Address`, storage.rs:336-342. -/
def Address.debugText (a : Address) : String :=
  debugStruct "Address" [("block_index", Nat.repr a.blockIndex), ("bit_offset", Nat.repr a.bitOffset)]

/-- Derived for `BitBuffer`, bit_buffer.rs:9-13; `inner` formats the data. -/
def BitBuf.debugText (inner : S → String) (b : BitBuf S) : String :=
  debugStruct "BitBuffer" [("data", inner b.data), ("pos", Nat.repr b.pos)]

/-- Derived for `BitSlice` and `BitSliceMut`, bit_slice.rs:8-21: the whole of the underlying vector, then the bounds. -/
def Slice.debugText (name : String) (inner : S → String) (v : Slice S) : String :=
  debugStruct name [("data", inner v.data), ("start", Nat.repr v.start), ("len", Nat.repr v.len)]

/-- Derived for `Rank9Cell` and `Level2`, rank9.rs:15-24. -/
def Rank9Cell.debugText (x : Rank9Cell) : String :=
  debugStruct "Rank9Cell" [("level1", Nat.repr x.level1), ("level2", "Level2(" ++ Nat.repr x.level2.toNat ++ ")")]

/-- Derived for `Rank9`, rank9.rs:9-13. -/
def Rank9.debugText (inner : S → String) (r : Rank9 S) : String :=
  debugStruct "Rank9" [("bit_store", inner r.bitStore), ("counts", debugList (r.counts.map Rank9Cell.debugText))]

/-- Derived for `JacobsonRank`, jacobson.rs:13-19; the directories are formatted by `IntVector`'s own `fmt`. -/
def Jacobson.debugText (c : Cfg) (inner : S → String) (j : Jacobson S) : Res String := do
  let large ← j.largeBlockRanks.fmtDebug c
  let small ← j.smallBlockRanks.fmtDebug c
  .ok (debugStruct "JacobsonRank" [("bit_store", inner j.bitStore), ("large_block_size", Nat.repr j.largeBlockSize),
    ("large_block_ranks", large), ("small_block_ranks", small)])

/-- Derived for `vector_base::Iter`, vector_base.rs:329-335, and the `Iter`s around it, bit_vector.rs:253-255 and
int_vector.rs:359-361. -/
def VIter.debugText (it : VIter w) : String :=
  "Iter(" ++ debugStruct "Iter" [("start", Nat.repr it.start), ("limit", Nat.repr it.limit),
    ("element_bits", Nat.repr it.elementBits), ("data", it.data.debugText)] ++ ")"

end Succinct
