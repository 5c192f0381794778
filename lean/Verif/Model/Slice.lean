import Verif.Model.BitVecTrait
/-! Bit slices (src/bit_vec/bit_slice.rs). -/
namespace Succinct

/-- `struct BitSlice` and `struct BitSliceMut`, bit_slice.rs:9-21. The borrowed base is held by value;
for `BitSliceMut` the operations return the new base inside the new slice. -/
structure Slice (S : Type) where
  data : S
  start : Nat
  len : Nat
deriving DecidableEq, Repr

/-- The four range types implementing `IntoRange`, bit_slice.rs:192-206. -/
inductive RangeArg where
  | range (a b : Nat)
  | to (b : Nat)
  | from (a : Nat)
  | full
deriving DecidableEq, Repr

/-- `IntoRange::into_range`, bit_slice.rs:192-206. -/
def RangeArg.intoRange : RangeArg → Nat → Nat → Nat × Nat
  | .range a b, _, _ => (a, b)
  | .to b, start, _ => (start, b)
  | .from a, _, limit => (a, limit)
  | .full, start, limit => (start, limit)

namespace Slice

variable {w : Nat} {S : Type} (c : Cfg)

/-- `BitSlice::new`, bit_slice.rs:25-33, and `BitSliceMut::new`, bit_slice.rs:52-60. -/
def new (o : BitVecOps w S) (base : S) (r : RangeArg) : Res (Slice S) := do
  let n ← o.bitLen base
  let (a, b) := r.intoRange 0 n
  let n ← o.bitLen base
  assertR (b ≤ n)
  .ok ⟨base, a, b - a⟩

/-- `BitSlice::slice`, bit_slice.rs:39-47; `BitSliceMut::slice_mut`, 66-75; `BitSliceMut::slice`,
78-86. -/
def slice (s : Slice S) (r : RangeArg) : Res (Slice S) := do
  let (a, b) := r.intoRange 0 s.len
  assertR (b ≤ s.len)
  let st ← addN c 64 s.start a
  .ok ⟨s.data, st, b - a⟩

/-- `get_bit`, bit_slice.rs:98-101 and 124-127. -/
def getBit (o : BitVecOps w S) (s : Slice S) (position : Nat) : Res Bool := do
  assertR (position < s.len)
  let p ← addN c 64 s.start position
  o.getBit s.data p

/-- `get_bits`, bit_slice.rs:103-108 and 129-134. -/
def getBits (o : BitVecOps w S) (s : Slice S) (position count : Nat) : Res (BitVec w) := do
  let e ← expectR (checkedAdd 64 position count)
  assertR (e ≤ s.len)
  let p ← addN c 64 s.start position
  o.getBits s.data p count

/-- `get_block`, bit_slice.rs:110-112 and 136-138. -/
def getBlock (o : BitVecOps w S) (s : Slice S) (position : Nat) : Res (BitVec w) := do
  let p ← mulNbits c w position
  getBits c o s p w

/-- `set_bit`, bit_slice.rs:143-146. -/
def setBit (o : BitVecMutOps w S) (s : Slice S) (position : Nat) (value : Bool) : Res (Slice S) := do
  assertR (position < s.len)
  let p ← addN c 64 s.start position
  let d ← o.setBit s.data p value
  .ok { s with data := d }

/-- `set_bits`, bit_slice.rs:148-153. -/
def setBits (o : BitVecMutOps w S) (s : Slice S) (position count : Nat) (value : BitVec w) : Res (Slice S) := do
  let e ← expectR (checkedAdd 64 position count)
  assertR (e ≤ s.len)
  let p ← addN c 64 s.start position
  let d ← o.setBits s.data p count value
  .ok { s with data := d }

/-- `set_block`, bit_slice.rs:155-158. -/
def setBlock (o : BitVecMutOps w S) (s : Slice S) (position : Nat) (value : BitVec w) : Res (Slice S) := do
  let p ← mulNbits c w position
  setBits c o s p w value

end Slice

/-- `impl BitVec for BitSlice` / `BitSliceMut`, bit_slice.rs:89-139: `block_len` is the default. -/
def sliceBitVec (c : Cfg) (o : BitVecOps w S) : BitVecOps w (Slice S) :=
  let bitLen := fun s : Slice S => Res.ok s.len
  { bitLen := bitLen
    blockLen := dfltBlockLen c w bitLen
    getBit := Slice.getBit c o
    getBlock := Slice.getBlock c o
    getBits := Slice.getBits c o }

/-- `impl BitVecMut for BitSliceMut`, bit_slice.rs:141-159. -/
def sliceBitVecMut (c : Cfg) (o : BitVecMutOps w S) : BitVecMutOps w (Slice S) :=
  { sliceBitVec c o.toBitVecOps with
    setBit := Slice.setBit c o
    setBlock := Slice.setBlock c o
    setBits := Slice.setBits c o }

end Succinct
