import Verif.Model.VectorBase
/-!
# Model of `src/stream/traits.rs`, `src/stream/bit_buffer.rs` and `src/internal/errors.rs`

A source or sink is a dictionary with its one required method. The default methods
(`read_int`, `write_int`, …) are functions of it; no implementation in the crate overrides them.
An integer type `N: PrimInt` is a width `w` and a signedness.
-/
deriving instance DecidableEq for Except

namespace Succinct

/-- `trait BitRead`, stream/traits.rs:8-12. -/
structure BitRead (σ : Type) where
  readBit : SM σ (Option Bool)

/-- `trait BitWrite`, stream/traits.rs:65-67. -/
structure BitWrite (σ : Type) where
  writeBit : Bool → SM σ Unit

/-- `out_of_bits`, internal/errors.rs:3-5. The message is dropped. -/
def outOfBits : SM σ α := SM.fail .unexpectedEof
/-- `too_many_bits`, internal/errors.rs:7-9. The message is dropped. -/
def tooManyBits : SM σ α := SM.fail .invalidData

/-- `x >> k` of a `PrimInt` type: arithmetic if the type is signed. -/
def shrI (c : Cfg) (signed : Bool) (x : BitVec w) (k : Nat) : Res (BitVec w) :=
  let f := fun k => if signed then x.sshiftRight k else x >>> k
  if k < w then .ok (f k) else overflow c (f (k % w))

/-- The loop of `BitRead::read_int`, stream/traits.rs:20-36, with `n` iterations to go. -/
def readIntLoop (c : Cfg) (R : BitRead σ) : Nat → BitVec w → BitVec w → Bool → SM σ (Option (BitVec w))
  | 0, result, _, _ => pure (some result)
  | n + 1, result, mask, consumed => do
    match ← R.readBit with
    | some bit => do
      let result := if bit then result ||| mask else result
      let mask ← SM.lift (shlB c mask 1)
      readIntLoop c R n result mask true
    | none => if consumed then outOfBits else pure none

/-- `BitRead::read_int`, stream/traits.rs:15-37. -/
def readInt (c : Cfg) (R : BitRead σ) (w nbits : Nat) : SM σ (Option (BitVec w)) :=
  readIntLoop c R nbits 0 1 false

/-- The loop of `BitRead::read_int_be`, stream/traits.rs:44-60. -/
def readIntBeLoop (c : Cfg) (R : BitRead σ) : Nat → BitVec w → Bool → SM σ (Option (BitVec w))
  | 0, result, _ => pure (some result)
  | n + 1, result, consumed => do
    match ← R.readBit with
    | some bit => do
      let result ← SM.lift (shlB c result 1)
      let result := if bit then result ||| 1 else result
      readIntBeLoop c R n result true
    | none => if consumed then outOfBits else pure none

/-- `BitRead::read_int_be`, stream/traits.rs:40-61. -/
def readIntBe (c : Cfg) (R : BitRead σ) (w nbits : Nat) : SM σ (Option (BitVec w)) :=
  readIntBeLoop c R nbits 0 false

/-- The loop of `BitWrite::write_int`, stream/traits.rs:71-76. -/
def writeIntLoop (c : Cfg) (signed : Bool) (W : BitWrite σ) : Nat → BitVec w → SM σ Unit
  | 0, _ => pure ()
  | n + 1, value => do
    W.writeBit (value &&& 1 != 0)
    let value ← SM.lift (shrI c signed value 1)
    writeIntLoop c signed W n value

/-- `BitWrite::write_int`, stream/traits.rs:70-77. -/
def writeInt (c : Cfg) (signed : Bool) (W : BitWrite σ) (nbits : Nat) (value : BitVec w) : SM σ Unit :=
  writeIntLoop c signed W nbits value

/-- The loop of `BitWrite::write_int_be`, stream/traits.rs:84-89. -/
def writeIntBeLoop (c : Cfg) (signed : Bool) (W : BitWrite σ) (value : BitVec w) :
    Nat → BitVec w → SM σ Unit
  | 0, _ => pure ()
  | n + 1, mask => do
    W.writeBit (value &&& mask != 0)
    let mask ← SM.lift (shrI c signed mask 1)
    writeIntBeLoop c signed W value n mask

/-- `BitWrite::write_int_be`, stream/traits.rs:80-90. `N::one() << nbits - 1` is
`N::one() << (nbits - 1)`. -/
def writeIntBe (c : Cfg) (signed : Bool) (W : BitWrite σ) (nbits : Nat) (value : BitVec w) : SM σ Unit := do
  let k ← SM.lift (subN c c.usz nbits 1)
  let mask ← SM.lift (shlB c (1 : BitVec w) k)
  writeIntBeLoop c signed W value nbits mask

/-- `impl BitRead for VecDeque<bool>`, stream/traits.rs:98-102. -/
def dequeRead : BitRead (List Bool) where
  readBit s := .ok (.ok s.head?, s.tail)

/-- `impl BitWrite for VecDeque<bool>`, stream/traits.rs:104-109 (allocation does not fail). -/
def dequeWrite : BitWrite (List Bool) where
  writeBit b s := .ok (.ok (), s ++ [b])

/-! ### `BitBuffer` -/

/-- `struct BitBuffer`, bit_buffer.rs:10-13. -/
structure BitBuf (S : Type) where
  data : S
  pos : Nat
deriving DecidableEq, Repr

namespace BitBuf
variable {w : Nat} {S : Type} (c : Cfg)

/-- `BitBuffer::with_capacity` (and `new`, its value at 0), bit_buffer.rs:18-29. -/
def withCapacity (c : Cfg) (w capacity : Nat) : Res (BitBuf (VB w)) := do
  let data ← BV.withCapacity c w capacity
  .ok ⟨data, 0⟩

/-- `BitBuffer::new`, bit_buffer.rs:18-20. -/
def new (c : Cfg) (w : Nat) : Res (BitBuf (VB w)) := withCapacity c w 0

/-- `BitBuffer::from`, bit_buffer.rs:34-39. -/
def from_ (input : S) : BitBuf S := ⟨input, 0⟩

/-- `BitBuffer::append`, bit_buffer.rs:42-48. -/
def append (o : BitVecOps w S) (vec : S) : Res (BitBuf S) := do
  let len ← o.bitLen vec
  .ok ⟨vec, len⟩

/-- `BitBuffer::seek`, bit_buffer.rs:51-59. -/
def seek (o : BitVecOps w S) (position : Nat) : SM (BitBuf S) Unit := fun s => do
  let n ← o.bitLen s.data
  if position ≤ n then .ok (.ok (), { s with pos := position })
  else .ok (.error .notFound, s)

/-- `into_inner` / `inner`, bit_buffer.rs:65-74. -/
def inner (s : BitBuf S) : S := s.data
/-- `position`, bit_buffer.rs:78-80. -/
def position (s : BitBuf S) : Nat := s.pos

/-- `impl BitVec for BitBuffer`, bit_buffer.rs:83-100: three methods are forwarded, `get_bit` and
`get_bits` are the defaults of the trait. -/
def bitVec (o : BitVecOps w S) : BitVecOps w (BitBuf S) :=
  let bitLen := fun s : BitBuf S => o.bitLen s.data
  let getBlock := fun (s : BitBuf S) i => o.getBlock s.data i
  { bitLen, getBlock
    blockLen := fun s => o.blockLen s.data
    getBit := dfltGetBit c bitLen getBlock
    getBits := dfltGetBits c bitLen getBlock }

/-- `impl BitVecMut for BitBuffer`, bit_buffer.rs:102-107: only `set_block` is forwarded. -/
def bitVecMut (o : BitVecMutOps w S) : BitVecMutOps w (BitBuf S) :=
  let b := bitVec c o.toBitVecOps
  let setBlock := fun (s : BitBuf S) i x => do
    let d ← o.setBlock s.data i x
    .ok { s with data := d }
  { b with
    setBlock
    setBit := dfltSetBit c b.bitLen b.getBlock setBlock
    setBits := dfltSetBits c b.bitLen b.getBlock setBlock }

/-- `impl BitRead for BitBuffer`, bit_buffer.rs:109-119. -/
def read (o : BitVecOps w S) : BitRead (BitBuf S) where
  readBit s := do
    let n ← (bitVec c o).bitLen s
    if s.pos < n then do
      let result ← (bitVec c o).getBit s s.pos
      let p ← addN c 64 s.pos 1
      .ok (.ok (some result), { s with pos := p })
    else .ok (.ok none, s)

/-- The `while` loop of `write_bit`, bit_buffer.rs:123-125. -/
def pad (o : BitVecPushOps w S) (s : BitBuf S) : Res (BitBuf S) := do
  let n ← (bitVec c o.toBitVecOps).bitLen s
  if s.pos ≥ n then do
    let d ← o.pushBit s.data false
    pad o { s with data := d }
  else .ok s
partial_fixpoint

/-- `impl BitWrite for BitBuffer`, bit_buffer.rs:121-133. -/
def write (o : BitVecPushOps w S) : BitWrite (BitBuf S) where
  writeBit value s := do
    let s ← pad c o s
    let pos := s.pos
    let s ← (bitVecMut c o.toBitVecMutOps).setBit s pos value
    let p ← addN c 64 pos 1
    .ok (.ok (), { s with pos := p })

end BitBuf
end Succinct
