import Verif.Model.Storage
/-!
# Model of `src/bit_vec/traits.rs` and `src/bit_vec/prim.rs`

A Rust trait is a dictionary of functions; a default method is a function of the other methods.
`&mut self` methods return the new value of `self`.
-/
namespace Succinct

/-- `trait BitVec`, traits.rs:11-99. -/
structure BitVecOps (w : Nat) (S : Type) where
  bitLen : S → Res Nat
  blockLen : S → Res Nat
  getBit : S → Nat → Res Bool
  getBlock : S → Nat → Res (BitVec w)
  getBits : S → Nat → Nat → Res (BitVec w)

/-- `trait BitVecMut: BitVec`, traits.rs:107-187. -/
structure BitVecMutOps (w : Nat) (S : Type) extends BitVecOps w S where
  setBit : S → Nat → Bool → Res S
  setBlock : S → Nat → BitVec w → Res S
  setBits : S → Nat → Nat → BitVec w → Res S

/-- `trait BitVecPush: BitVecMut`, traits.rs:190-220. -/
structure BitVecPushOps (w : Nat) (S : Type) extends BitVecMutOps w S where
  pushBit : S → Bool → Res S
  popBit : S → Res (Option Bool × S)
  alignBlock : S → Bool → Res S
  pushBlock : S → BitVec w → Res S

section Defaults
variable {w : Nat} {S : Type} (c : Cfg)

/-- default `BitVec::block_len`, traits.rs:19-21. -/
def dfltBlockLen (w : Nat) (bitLen : S → Res Nat) (s : S) : Res Nat := do
  let n ← bitLen s
  let q ← ceilDiv c 64 n w
  .ok (asUsize c q)

/-- default `BitVec::get_bit`, traits.rs:31-37. -/
def dfltGetBit (bitLen : S → Res Nat) (getBlock : S → Nat → Res (BitVec w)) (s : S)
    (position : Nat) : Res Bool := do
  let n ← bitLen s
  assertR (position < n)
  let a ← Address.new c w position
  let block ← getBlock s a.blockIndex
  blkGetBit c block a.bitOffset

/-- default `BitVec::get_block`, traits.rs:52-69. Loop state: `(result, mask)`. -/
def dfltGetBlock (bitLen blockLen : S → Res Nat) (getBit : S → Nat → Res Bool) (s : S)
    (position : Nat) : Res (BitVec w) := do
  let bl ← blockLen s
  assertR (position < bl)
  let bitPosition ← mulN c 64 position w
  let r ← forRange 0 w ((0 : BitVec w), (1 : BitVec w)) fun i (result, mask) => do
    let p ← addN c 64 bitPosition i
    let n ← bitLen s
    let b ← (if p < n then do
        let p ← addN c 64 bitPosition i
        getBit s p
      else .ok false)
    let result := if b then result ||| mask else result
    let mask ← shlB c mask 1
    .ok (result, mask)
  .ok r.1

/-- default `BitVec::get_bits`, traits.rs:77-98. -/
def dfltGetBits (bitLen : S → Res Nat) (getBlock : S → Nat → Res (BitVec w)) (s : S)
    (start count : Nat) : Res (BitVec w) := do
  let limit ← addN c 64 start count
  let n ← bitLen s
  assertR (limit ≤ n)
  let a ← Address.new c w start
  let margin ← subN c c.usz w a.bitOffset
  if margin ≥ count then do
    let block ← getBlock s a.blockIndex
    blkGetBits c block a.bitOffset count
  else do
    let extra ← subN c c.usz count margin
    let block1 ← getBlock s a.blockIndex
    let i2 ← addN c c.usz a.blockIndex 1
    let block2 ← getBlock s i2
    let low ← blkGetBits c block1 a.bitOffset margin
    let high ← blkGetBits c block2 0 extra
    let h ← shlB c high margin
    .ok (h ||| low)

/-- default `BitVecMut::set_bit`, traits.rs:115-122. -/
def dfltSetBit (bitLen : S → Res Nat) (getBlock : S → Nat → Res (BitVec w))
    (setBlock : S → Nat → BitVec w → Res S) (s : S) (position : Nat) (value : Bool) : Res S := do
  let n ← bitLen s
  assertR (position < n)
  let a ← Address.new c w position
  let old ← getBlock s a.blockIndex
  let new ← blkWithBit c old a.bitOffset value
  setBlock s a.blockIndex new

/-- default `BitVecMut::set_block`, traits.rs:138-151. Loop state: `(self, value)`. -/
def dfltSetBlock (bitLen blockLen : S → Res Nat) (setBit : S → Nat → Bool → Res S) (s : S)
    (position : Nat) (value : BitVec w) : Res S := do
  let p1 ← addN c c.usz position 1
  let bl ← blockLen s
  let limit ← (if p1 = bl then do
      let n ← bitLen s
      lastBlockBits c w n
    else .ok w)
  let start ← mulNbits c w position
  let r ← forRange 0 limit (s, value) fun i (s, value) => do
    let bit := value &&& 1 != 0
    let p ← addN c 64 start i
    let s ← setBit s p bit
    let value ← shrB c value 1
    .ok (s, value)
  .ok r.1

/-- default `BitVecMut::set_bits`, traits.rs:159-186. -/
def dfltSetBits (bitLen : S → Res Nat) (getBlock : S → Nat → Res (BitVec w))
    (setBlock : S → Nat → BitVec w → Res S) (s : S) (start count : Nat) (value : BitVec w) :
    Res S := do
  let limit ← addN c 64 start count
  let n ← bitLen s
  assertR (limit ≤ n)
  let a ← Address.new c w start
  let margin ← subN c c.usz w a.bitOffset
  if margin ≥ count then do
    let old ← getBlock s a.blockIndex
    let new ← blkWithBits c old a.bitOffset count value
    setBlock s a.blockIndex new
  else do
    let extra ← subN c c.usz count margin
    let old1 ← getBlock s a.blockIndex
    let i2 ← addN c c.usz a.blockIndex 1
    let old2 ← getBlock s i2
    let high ← shrB c value margin
    let new1 ← blkWithBits c old1 a.bitOffset margin value
    let new2 ← blkWithBits c old2 0 extra high
    let s ← setBlock s a.blockIndex new1
    let i2 ← addN c c.usz a.blockIndex 1
    setBlock s i2 new2

/-- default `BitVecPush::align_block`, traits.rs:199-203 (an unbounded `while` loop). -/
def dfltAlignBlock (w : Nat) (bitLen : S → Res Nat) (pushBit : S → Bool → Res S) (s : S)
    (value : Bool) : Res S := do
  let n ← bitLen s
  let m ← modNbits c w n
  if m ≠ 0 then do
    let s ← pushBit s value
    dfltAlignBlock w bitLen pushBit s value
  else .ok s
partial_fixpoint

/-- default `BitVecPush::push_block`, traits.rs:212-219. Loop state: `(self, value)`. -/
def dfltPushBlock (alignBlock : S → Bool → Res S) (pushBit : S → Bool → Res S) (s : S)
    (value : BitVec w) : Res S := do
  let s ← alignBlock s false
  let r ← forRange 0 w (s, value) fun _ (s, value) => do
    let s ← pushBit s (value &&& 1 != 0)
    let value ← shrB c value 1
    .ok (s, value)
  .ok r.1

end Defaults

/-- indexing `v[i]` of a `Vec`/slice -/
def vecGet (v : List α) (i : Nat) : Res α := expectR v[i]?
/-- assignment `v[i] = x` to a `Vec`/slice element -/
def vecSet (v : List α) (i : Nat) (x : α) : Res (List α) := if i < v.length then .ok (v.set i x) else .panic

/-- `impl BitVec for [Block]` / `&[Block]` / `&mut [Block]` / `Vec<Block>`,
traits.rs:222-239, 248-265, 267-284, 293-310 (four textually identical impls, modelled once). -/
def vecBitVec (c : Cfg) (w : Nat) : BitVecOps w (List (BitVec w)) :=
  let bitLen := fun s : List (BitVec w) => mulN c 64 s.length w
  let getBlock := fun (s : List (BitVec w)) i => vecGet s i
  { bitLen := bitLen
    blockLen := fun s => .ok s.length
    getBit := dfltGetBit c bitLen getBlock
    getBlock := getBlock
    getBits := dfltGetBits c bitLen getBlock }

/-- `impl BitVecMut for [Block]` / `&mut [Block]` / `Vec<Block>`, traits.rs:241-246, 286-291,
312-317. -/
def vecBitVecMut (c : Cfg) (w : Nat) : BitVecMutOps w (List (BitVec w)) :=
  let setBlock := fun (s : List (BitVec w)) i x => vecSet s i x
  { vecBitVec c w with
    setBit := dfltSetBit c (vecBitVec c w).bitLen (vecBitVec c w).getBlock setBlock
    setBlock := setBlock
    setBits := dfltSetBits c (vecBitVec c w).bitLen (vecBitVec c w).getBlock setBlock }

/-- `impl BitVec for Vec<bool>` (with `Block = u8`), traits.rs:319-330. -/
def boolVecBitVec (c : Cfg) : BitVecOps 8 (List Bool) :=
  let bitLen := fun s : List Bool => Res.ok s.length
  let blockLen := dfltBlockLen c 8 bitLen
  let getBit := fun (s : List Bool) p => do
    let i ← expectR (toUsize c p)
    vecGet s i
  let getBlock := dfltGetBlock c bitLen blockLen getBit
  { bitLen, blockLen, getBit, getBlock, getBits := dfltGetBits c bitLen getBlock }

/-- `impl BitVecMut for Vec<bool>`, traits.rs:332-338. -/
def boolVecBitVecMut (c : Cfg) : BitVecMutOps 8 (List Bool) :=
  let b := boolVecBitVec c
  let setBit := fun (s : List Bool) p v => do
    let i ← expectR (toUsize c p)
    vecSet s i v
  let setBlock := dfltSetBlock c b.bitLen b.blockLen setBit
  { b with
    setBit, setBlock, setBits := dfltSetBits c b.bitLen b.getBlock setBlock }

/-- `impl BitVecPush for Vec<bool>`, traits.rs:340-348. -/
def boolVecBitVecPush (c : Cfg) : BitVecPushOps 8 (List Bool) :=
  let b := boolVecBitVecMut c
  let pushBit := fun (s : List Bool) v => Res.ok (s ++ [v])
  let alignBlock := dfltAlignBlock c 8 b.bitLen pushBit
  { b with
    pushBit
    popBit := fun s => .ok (s.getLast?, s.dropLast)
    alignBlock
    pushBlock := dfltPushBlock c alignBlock pushBit }

/-- `impl BitVec for uN` (macro `impl_bits_prim!`), prim.rs:8-40, 66-70. `position as usize` and
`start as usize` truncate. -/
def primBitVec (c : Cfg) (w : Nat) : BitVecOps w (BitVec w) where
  bitLen := fun _ => .ok w
  blockLen := fun _ => .ok 1
  getBit := fun s position => do
    assertR (position < w)
    blkGetBit c s (asUsize c position)
  getBlock := fun s position => do
    assertR (position = 0)
    .ok s
  getBits := fun s start count => do
    let e ← addN c 64 start count
    assertR (e ≤ w)
    blkGetBits c s (asUsize c start) count

/-- `impl BitVecMut for uN`, prim.rs:42-62. -/
def primBitVecMut (c : Cfg) (w : Nat) : BitVecMutOps w (BitVec w) :=
  { primBitVec c w with
    setBit := fun s position value => do
      assertR (position < w)
      blkWithBit c s (asUsize c position) value
    setBlock := fun _ position value => do
      assertR (position = 0)
      .ok value
    setBits := fun s start count value => do
      let e ← addN c 64 start count
      assertR (e ≤ w)
      blkWithBits c s (asUsize c start) count value }

end Succinct
