import Verif.Model.VectorBase
/-!
# The mutating methods with the state left behind by a panic

The other models forget the value of `self` when a method panics. Here a method taking `&mut self` is
a sequence of reads and writes of `self`, in the order of the source text, and a panic keeps the value
`self` has at that moment: this is what `catch_unwind` or a destructor observes. Each function below
is tied to the model it refines by a theorem `…_res` in `Verif/Lemmas/Unwind.lean`.
-/
namespace Succinct

/-- The outcome of a method taking `&mut self`. -/
inductive Out (σ α : Type) where
  | ok (a : α) (s : σ)
  /-- the call unwound and left `s` behind -/
  | panic (s : σ)
  | diverge
deriving DecidableEq, Repr

/-- A method taking `&mut self`. -/
def PM (σ α : Type) : Type := σ → Out σ α

namespace PM

@[inline] protected def bind (x : PM σ α) (f : α → PM σ β) : PM σ β := fun s =>
  match x s with
  | .ok a s' => f a s'
  | .panic s' => .panic s'
  | .diverge => .diverge

instance : Monad (PM σ) where
  pure a := fun s => .ok a s
  bind := PM.bind

/-- an expression that reads `self` -/
def eval (f : σ → Res α) : PM σ α := fun s =>
  match f s with
  | .ok a => .ok a s
  | .panic => .panic s
  | .diverge => .diverge

/-- an expression that does not mention `self` -/
def lift (x : Res α) : PM σ α := eval fun _ => x

/-- an assignment to a part of `self` -/
def modify (f : σ → σ) : PM σ Unit := fun s => .ok () (f s)

/-- a method call on a field of `self` -/
def zoom (get : σ → τ) (put : τ → σ → σ) (m : PM τ α) : PM σ α := fun s =>
  match m (get s) with
  | .ok a t => .ok a (put t s)
  | .panic t => .panic (put t s)
  | .diverge => .diverge

/-- `for i in lo .. hi` with a body working on `self` -/
def loop : Nat → Nat → (Nat → PM σ Unit) → PM σ Unit
  | 0, _, _ => pure ()
  | n + 1, i, f => do f i; loop n (i + 1) f

def forRange (lo hi : Nat) (f : Nat → PM σ Unit) : PM σ Unit := loop (hi - lo) lo f

/-- `for i in lo .. hi` with a body working on `self` and on a local variable -/
def loopL : Nat → Nat → τ → (Nat → τ → PM σ τ) → PM σ τ
  | 0, _, t, _ => pure t
  | n + 1, i, t, f => do let t ← f i t; loopL n (i + 1) t f

end PM

section Defaults
variable {w : Nat} {S : Type} (c : Cfg)

/-- default `BitVecMut::set_bit`, traits.rs:115-122. -/
def dfltSetBitP (bitLen : S → Res Nat) (getBlock : S → Nat → Res (BitVec w))
    (setBlock : Nat → BitVec w → PM S Unit) (position : Nat) (value : Bool) : PM S Unit := do
  let n ← PM.eval bitLen
  PM.lift (assertR (position < n))
  let a ← PM.lift (Address.new c w position)
  let old ← PM.eval fun s => getBlock s a.blockIndex
  let new ← PM.lift (blkWithBit c old a.bitOffset value)
  setBlock a.blockIndex new

/-- default `BitVecMut::set_block`, traits.rs:138-151. -/
def dfltSetBlockP (bitLen blockLen : S → Res Nat) (setBit : Nat → Bool → PM S Unit)
    (position : Nat) (value : BitVec w) : PM S Unit := do
  let p1 ← PM.lift (addN c c.usz position 1)
  let bl ← PM.eval blockLen
  let limit ← (if p1 = bl then do
      let n ← PM.eval bitLen
      PM.lift (lastBlockBits c w n)
    else pure w)
  let start ← PM.lift (mulNbits c w position)
  let _ ← PM.loopL limit 0 value fun i value => do
    let bit := value &&& 1 != 0
    let p ← PM.lift (addN c 64 start i)
    setBit p bit
    PM.lift (shrB c value 1)
  pure ()

/-- default `BitVecMut::set_bits`, traits.rs:159-186. -/
def dfltSetBitsP (bitLen : S → Res Nat) (getBlock : S → Nat → Res (BitVec w))
    (setBlock : Nat → BitVec w → PM S Unit) (start count : Nat) (value : BitVec w) : PM S Unit := do
  let limit ← PM.lift (addN c 64 start count)
  let n ← PM.eval bitLen
  PM.lift (assertR (limit ≤ n))
  let a ← PM.lift (Address.new c w start)
  let margin ← PM.lift (subN c c.usz w a.bitOffset)
  if margin ≥ count then do
    let old ← PM.eval fun s => getBlock s a.blockIndex
    let new ← PM.lift (blkWithBits c old a.bitOffset count value)
    setBlock a.blockIndex new
  else do
    let extra ← PM.lift (subN c c.usz count margin)
    let old1 ← PM.eval fun s => getBlock s a.blockIndex
    let i2 ← PM.lift (addN c c.usz a.blockIndex 1)
    let old2 ← PM.eval fun s => getBlock s i2
    let high ← PM.lift (shrB c value margin)
    let new1 ← PM.lift (blkWithBits c old1 a.bitOffset margin value)
    let new2 ← PM.lift (blkWithBits c old2 0 extra high)
    setBlock a.blockIndex new1
    let i2 ← PM.lift (addN c c.usz a.blockIndex 1)
    setBlock i2 new2

/-- default `BitVecPush::align_block`, traits.rs:199-203. The `while` loop is cut off after `fuel`
rounds; with `fuel` at least the number of missing bits it is the loop (`alignBlockP_ok`). -/
def dfltAlignBlockP (w : Nat) (bitLen : S → Res Nat) (pushBit : Bool → PM S Unit) (value : Bool) :
    Nat → PM S Unit
  | 0 => fun _ => .diverge
  | fuel + 1 => do
    let n ← PM.eval bitLen
    let m ← PM.lift (modNbits c w n)
    if m ≠ 0 then do
      pushBit value
      dfltAlignBlockP w bitLen pushBit value fuel
    else pure ()

end Defaults

/-- assignment `v[i] = x`: the bounds check comes before the write -/
def vecSetP (i : Nat) (x : α) : PM (List α) Unit := do
  let _ ← PM.eval fun v => vecGet v i
  PM.modify fun v => v.set i x

/-- `set_bit`, `set_bits` of `[Block]`/`Vec<Block>`, traits.rs:241-246, 312-317 and the defaults. -/
def vecSetBitP (c : Cfg) (w : Nat) : Nat → Bool → PM (List (BitVec w)) Unit :=
  dfltSetBitP c (vecBitVec c w).bitLen (vecBitVec c w).getBlock vecSetP
def vecSetBitsP (c : Cfg) (w : Nat) : Nat → Nat → BitVec w → PM (List (BitVec w)) Unit :=
  dfltSetBitsP c (vecBitVec c w).bitLen (vecBitVec c w).getBlock vecSetP

/-- `set_bit` and `set_block` of `Vec<bool>`, traits.rs:332-338 and 138-151. -/
def boolVecSetBitP (c : Cfg) (p : Nat) (v : Bool) : PM (List Bool) Unit := do
  let i ← PM.lift (expectR (toUsize c p))
  vecSetP i v
def boolVecSetBlockP (c : Cfg) : Nat → BitVec 8 → PM (List Bool) Unit :=
  dfltSetBlockP c (boolVecBitVec c).bitLen (boolVecBitVec c).blockLen (boolVecSetBitP c)

namespace VB
variable {w : Nat} (c : Cfg)

/-- a method call on `self.vec` -/
def onVec (m : PM (List (BitVec w)) α) : PM (VB w) α := PM.zoom VB.vec (fun v s => { s with vec := v }) m

/-- `self.vec = …`, `self.len = …` -/
def putVec (f : List (BitVec w) → List (BitVec w)) : PM (VB w) Unit := PM.modify fun s => { s with vec := f s.vec }
def putLen (n : Nat) : PM (VB w) Unit := PM.modify fun s => { s with len := n }

/-- `clear_extra_bits`, vector_base.rs:39-45. -/
def clearExtraBitsP (eb : Nat) : PM (VB w) Unit := do
  let bitLen ← PM.eval fun s => mulN c 64 s.len eb
  let last ← PM.eval fun s => .ok s.vec.getLast?
  match last with
  | none => pure ()
  | some block => do
    let n ← PM.lift (lastBlockBits c w bitLen)
    let mask ← PM.lift (lowMask c w n)
    putVec fun v => v.set (v.length - 1) (block &&& mask)

/-- `set_len_from_blocks`, vector_base.rs:49-52. -/
def setLenFromBlocksP (eb : Nat) : PM (VB w) Unit := do
  let n ← PM.eval fun s => mulNbits c w s.vec.length
  let len ← PM.lift (divN n eb)
  putLen len
  clearExtraBitsP c eb

/-- `set_block`, vector_base.rs:109-115. -/
def setBlockP (eb i : Nat) (value : BitVec w) : PM (VB w) Unit := do
  onVec (vecSetP i value)
  let i1 ← PM.lift (addN c c.usz i 1)
  let n ← PM.eval fun s => .ok s.vec.length
  if i1 = n then clearExtraBitsP c eb else pure ()

/-- `set_bits`, vector_base.rs:127-133. -/
def setBitsP (eb index count : Nat) (value : BitVec w) : PM (VB w) Unit := do
  let e ← PM.lift (addN c 64 index count)
  let n ← PM.eval fun s => mulN c 64 s.len eb
  PM.lift (assertR (e ≤ n))
  onVec (vecSetBitsP c w index count value)

/-- `set_bit`, vector_base.rs:144-147. -/
def setBitP (index : Nat) (value : Bool) : PM (VB w) Unit := do
  let n ← PM.eval fun s => .ok s.len
  PM.lift (assertR (index < n))
  onVec (vecSetBitP c w index value)

/-- `push_block`, vector_base.rs:150-153. -/
def pushBlockP (eb : Nat) (value : BitVec w) : PM (VB w) Unit := do
  putVec fun v => v ++ [value]
  setLenFromBlocksP c eb

/-- `pop_block`, vector_base.rs:156-160. -/
def popBlockP (eb : Nat) : PM (VB w) (Option (BitVec w)) := do
  let result ← PM.eval fun s => .ok s.vec.getLast?
  putVec fun v => v.dropLast
  setLenFromBlocksP c eb
  pure result

/-- `push_bits`, vector_base.rs:163-172. -/
def pushBitsP (eb : Nat) (value : BitVec w) : PM (VB w) Unit := do
  let l1 ← PM.eval fun s => addN c 64 s.len 1
  let need ← PM.lift (mulN c 64 eb l1)
  let have_ ← PM.eval fun s => mulNbits c w s.vec.length
  if need > have_ then putVec fun v => v ++ [0] else pure ()
  let pos ← PM.eval fun s => .ok s.len
  let len ← PM.eval fun s => addN c 64 s.len 1
  putLen len
  let p ← PM.lift (mulN c 64 pos eb)
  setBitsP c eb p eb value

/-- `pop_bits`, vector_base.rs:175-188. -/
def popBitsP (eb : Nat) : PM (VB w) (Option (BitVec w)) := do
  let n ← PM.eval fun s => .ok s.len
  if n = 0 then pure none
  else do
    let l1 ← PM.lift (subN c 64 n 1)
    let bitLen ← PM.lift (mulN c 64 eb l1)
    let blockLen ← PM.lift (ceilDivNbits c w bitLen)
    let result ← PM.eval fun s => getBits c s eb bitLen eb
    setBitsP c eb bitLen eb 0
    let len ← PM.eval fun s => subN c 64 s.len 1
    putLen len
    let m ← PM.eval fun s => .ok s.vec.length
    if m > blockLen then putVec fun v => v.dropLast else pure ()
    pure (some result)

/-- `push_bit`, vector_base.rs:192-200. -/
def pushBitP (value : Bool) : PM (VB w) Unit := do
  let l1 ← PM.eval fun s => addN c 64 s.len 1
  let have_ ← PM.eval fun s => mulNbits c w s.vec.length
  if l1 > have_ then putVec fun v => v ++ [0] else pure ()
  let pos ← PM.eval fun s => .ok s.len
  let len ← PM.eval fun s => addN c 64 s.len 1
  putLen len
  setBitP c pos value

/-- `pop_bit`, vector_base.rs:203-215. -/
def popBitP : PM (VB w) (Option Bool) := do
  let n ← PM.eval fun s => .ok s.len
  if n = 0 then pure none
  else do
    let newLen ← PM.lift (subN c 64 n 1)
    let result ← PM.eval fun s => getBit c s newLen
    setBitP c newLen false
    putLen newLen
    let blockLen ← PM.lift (ceilDivNbits c w newLen)
    let m ← PM.eval fun s => .ok s.vec.length
    if m > blockLen then putVec fun v => v.dropLast else pure ()
    pure (some result)

/-- `block_truncate`, vector_base.rs:243-248. -/
def blockTruncateP (eb blockLen : Nat) : PM (VB w) Unit := do
  let n ← PM.eval fun s => .ok s.vec.length
  if blockLen < n then do
    putVec fun v => v.take blockLen
    setLenFromBlocksP c eb
  else pure ()

/-- `truncate`, vector_base.rs:251-258. -/
def truncateP (eb len : Nat) : PM (VB w) Unit := do
  let n ← PM.eval fun s => .ok s.len
  if len < n then do
    let m ← PM.lift (mulN c 64 len eb)
    let blockLen ← PM.lift (ceilDivNbits c w m)
    putVec fun v => v.take blockLen
    putLen len
    clearExtraBitsP c eb
  else pure ()

/-- `clear`, vector_base.rs:261-264. -/
def clearP : PM (VB w) Unit := do
  putVec fun _ => []
  putLen 0

/-- `block_resize`, vector_base.rs:303-307. -/
def blockResizeP (eb blockLen : Nat) (fill : BitVec w) : PM (VB w) Unit := do
  putVec fun v => vecResize v blockLen fill
  setLenFromBlocksP c eb

/-- `resize`, vector_base.rs:310-326. -/
def resizeP (eb len : Nat) (fill : BitVec w) : PM (VB w) Unit := do
  let o ← PM.lift (lenToBlockLen c w eb len)
  let blockLen ← PM.lift (expectR o)
  putVec fun v => vecResize v blockLen 0
  let old ← PM.eval fun s => .ok s.len
  putLen len
  if len ≤ old then clearExtraBitsP c eb
  else PM.forRange old len fun i => do
    let p ← PM.lift (mulN c 64 i eb)
    setBitsP c eb p eb fill

end VB

namespace BV
variable {w : Nat} (c : Cfg)

/-- `BitVector::resize`, bit_vector.rs:78-94. -/
def resizeP (newLen : Nat) (value : Bool) : PM (VB w) Unit := do
  let o ← PM.lift (checkedCeilDivNbits c w newLen)
  let newBlockLen ← PM.lift (expectR o)
  let len ← PM.eval fun s => .ok s.len
  if newLen < len ∨ value = false then VB.blockResizeP c 1 newBlockLen 0
  else do
    let trailing ← PM.lift (lastBlockBits c w len)
    let remaining ← PM.lift (subN c c.usz w trailing)
    PM.forRange 0 remaining fun _ => VB.pushBitP c true
    VB.blockResizeP c 1 newBlockLen (~~~ 0)
  VB.truncateP c 1 newLen

/-- `BitVecMut::set_bits` of `BitVector` (the default). -/
def setBitsP (start count : Nat) (value : BitVec w) : PM (VB w) Unit :=
  dfltSetBitsP c (bvBitVec c w).bitLen (bvBitVec c w).getBlock (VB.setBlockP c 1) start count value

/-- `BitVecPush::align_block` of `BitVector` (the default). -/
def alignBlockP (value : Bool) : PM (VB w) Unit :=
  dfltAlignBlockP c w (bvBitVec c w).bitLen (VB.pushBitP c) value (w + 1)

end BV

namespace IV
variable {w : Nat} (c : Cfg)

/-- a method call on `self.base` -/
def onBase (m : Nat → PM (VB w) α) : PM (IV w) α := do
  let eb ← PM.eval fun s : IV w => .ok s.elementBits
  PM.zoom IV.base (fun b s => { s with base := b }) (m eb)

/-- `set_random`, int_vector.rs:151-160. -/
def setRandomP (bitOffset eb index : Nat) (value : BitVec w) : PM (IV w) Unit := do
  PM.lift (checkValueRandom c eb value)
  let a ← PM.lift (computeAddressRandom bitOffset eb index)
  onBase fun k => VB.setBitsP c k a eb value

/-- `push`, int_vector.rs:164-167. -/
def pushP (value : BitVec w) : PM (IV w) Unit := do
  PM.eval fun s => checkValue c s value
  onBase fun k => VB.pushBitsP c k value

/-- `pop`, int_vector.rs:170-172. -/
def popP : PM (IV w) (Option (BitVec w)) := onBase fun k => VB.popBitsP c k

/-- `resize`, `block_resize`, `truncate`, `block_truncate`, `clear`,
int_vector.rs:186-193, 264-278. -/
def resizeP (n : Nat) (fill : BitVec w) : PM (IV w) Unit := onBase fun k => VB.resizeP c k n fill
def blockResizeP (n : Nat) (fill : BitVec w) : PM (IV w) Unit := onBase fun k => VB.blockResizeP c k n fill
def truncateP (n : Nat) : PM (IV w) Unit := onBase fun k => VB.truncateP c k n
def blockTruncateP (n : Nat) : PM (IV w) Unit := onBase fun k => VB.blockTruncateP c k n
def clearP : PM (IV w) Unit := onBase fun _ => VB.clearP

/-- `BitVecMut::set_block`, int_vector.rs:353-355. -/
def setBlockP (i : Nat) (value : BitVec w) : PM (IV w) Unit := onBase fun k => VB.setBlockP c k i value

/-- `IntVecMut::set`, int_vector.rs:320-333. -/
def setP (index : Nat) (value : BitVec w) : PM (IV w) Unit := do
  let blockSized ← PM.eval fun s : IV w => .ok s.isBlockSized
  if blockSized then onBase fun k => VB.setBlockP c k (asUsize c index) value
  else do
    PM.eval fun s => checkValue c s value
    let a ← PM.eval fun s => computeAddress s index
    onBase fun k => VB.setBitsP c k a k value

/-- `BitVecMut::set_bit` and `set_bits` of `IntVector` (the defaults). -/
def setBitP (position : Nat) (value : Bool) : PM (IV w) Unit :=
  dfltSetBitP c (ivBitVec c w).bitLen (ivBitVec c w).getBlock (setBlockP c) position value
def setBitsP (start count : Nat) (value : BitVec w) : PM (IV w) Unit :=
  dfltSetBitsP c (ivBitVec c w).bitLen (ivBitVec c w).getBlock (setBlockP c) start count value

end IV

end Succinct
