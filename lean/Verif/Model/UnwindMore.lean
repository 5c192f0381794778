import Verif.Model.Unwind
import Verif.Model.Slice
import Verif.Model.Stream
/-!
# Buffers, slices and streams with the state left behind by a panic

As in `Verif/Model/Unwind.lean`, for `BitBuffer` and `BitSliceMut`. The coders only use a stream through `read_bit` and
`write_bit`, so that the state in which they leave it behind is determined by how many of these calls they have made; a metered
stream, which hangs after a given number of calls, finds out how many.
-/
namespace Succinct

section Order
open Lean.Order
instance : PartialOrder (Out σ α) := inferInstanceAs (PartialOrder (FlatOrder (Out.diverge : Out σ α)))
instance : CCPO (Out σ α) := inferInstanceAs (CCPO (FlatOrder (Out.diverge : Out σ α)))
instance : PartialOrder (PM σ α) := inferInstanceAs (PartialOrder (σ → Out σ α))
instance : CCPO (PM σ α) := inferInstanceAs (CCPO (σ → Out σ α))
instance : MonoBind (PM σ) where
  bind_mono_left {_ _ a b f} h := by
    intro s
    show PM.bind a f s ⊑ PM.bind b f s
    unfold PM.bind
    have := h s
    revert this
    generalize a s = x
    generalize b s = y
    intro h
    cases h with
    | bot => exact FlatOrder.rel.bot
    | refl => exact FlatOrder.rel.refl
  bind_mono_right {_ _ a f g} h := by
    intro s
    show PM.bind a f s ⊑ PM.bind a g s
    unfold PM.bind
    cases a s with
    | ok x s' => exact h x s'
    | panic s' => exact FlatOrder.rel.refl
    | diverge => exact FlatOrder.rel.refl
end Order

/-- `BitVecMut` with unwinding setters. -/
structure BitVecMutP (w : Nat) (S : Type) extends BitVecOps w S where
  setBitP : Nat → Bool → PM S Unit
  setBlockP : Nat → BitVec w → PM S Unit
  setBitsP : Nat → Nat → BitVec w → PM S Unit

/-- `BitVecMut for BitVector`, bit_vector.rs:178-186 and the default `set_bits`. -/
def bvMutP (c : Cfg) (w : Nat) : BitVecMutP w (VB w) where
  toBitVecOps := bvBitVec c w
  setBitP := VB.setBitP c
  setBlockP := VB.setBlockP c 1
  setBitsP := BV.setBitsP c

/-- `BitVecMut for IntVector`, int_vector.rs:352-356 and the defaults. -/
def ivMutP (c : Cfg) (w : Nat) : BitVecMutP w (IV w) where
  toBitVecOps := ivBitVec c w
  setBitP := IV.setBitP c
  setBlockP := IV.setBlockP c
  setBitsP := IV.setBitsP c

namespace BitBuf
variable {w : Nat} {S : Type} (c : Cfg)

/-- a method call on `self.data` -/
def onData (m : PM S α) : PM (BitBuf S) α := PM.zoom BitBuf.data (fun d s => { s with data := d }) m

/-- `BitVecMut for BitBuffer`, bit_buffer.rs:102-107 and the defaults. -/
def mutP (o : BitVecMutP w S) : BitVecMutP w (BitBuf S) :=
  let b := bitVec c o.toBitVecOps
  { b with
    setBlockP := fun i x => onData (o.setBlockP i x)
    setBitP := dfltSetBitP c b.bitLen b.getBlock fun i x => onData (o.setBlockP i x)
    setBitsP := dfltSetBitsP c b.bitLen b.getBlock fun i x => onData (o.setBlockP i x) }

/-- `BitBuffer::seek`, bit_buffer.rs:51-59. -/
def seekP (o : BitVecOps w S) (position : Nat) : PM (BitBuf S) (Except IoErr Unit) := do
  let n ← PM.eval fun s => o.bitLen s.data
  if position ≤ n then do
    PM.modify fun s => { s with pos := position }
    pure (.ok ())
  else pure (.error .notFound)

/-- `read_bit`, bit_buffer.rs:110-118. -/
def readBitP (o : BitVecOps w S) : PM (BitBuf S) (Except IoErr (Option Bool)) := do
  let pos ← PM.eval fun s => .ok s.pos
  let n ← PM.eval (bitVec c o).bitLen
  if pos < n then do
    let result ← PM.eval fun s => (bitVec c o).getBit s s.pos
    let p ← PM.eval fun s => addN c 64 s.pos 1
    PM.modify fun s => { s with pos := p }
    pure (.ok (some result))
  else pure (.ok none)

/-- The `while` loop of `write_bit`, bit_buffer.rs:123-125. -/
def padP (o : BitVecOps w S) (pushBitP : Bool → PM S Unit) : PM (BitBuf S) Unit := do
  let n ← PM.eval (bitVec c o).bitLen
  let pos ← PM.eval fun s => .ok s.pos
  if pos ≥ n then do
    onData (pushBitP false)
    padP o pushBitP
  else pure ()
partial_fixpoint

/-- `write_bit`, bit_buffer.rs:122-132. -/
def writeBitP (o : BitVecMutP w S) (pushBitP : Bool → PM S Unit) (value : Bool) : PM (BitBuf S) (Except IoErr Unit) := do
  padP c o.toBitVecOps pushBitP
  let pos ← PM.eval fun s => .ok s.pos
  (mutP c o).setBitP pos value
  let p ← PM.lift (addN c 64 pos 1)
  PM.modify fun s => { s with pos := p }
  pure (.ok ())

end BitBuf

namespace Slice
variable {w : Nat} {S : Type} (c : Cfg)

/-- a method call on `self.data` -/
def onData (m : PM S α) : PM (Slice S) α := PM.zoom Slice.data (fun d s => { s with data := d }) m

/-- `set_bit`, bit_slice.rs:143-146. -/
def setBitP (o : BitVecMutP w S) (position : Nat) (value : Bool) : PM (Slice S) Unit := do
  let n ← PM.eval fun s => .ok s.len
  PM.lift (assertR (position < n))
  let p ← PM.eval fun s => addN c 64 s.start position
  onData (o.setBitP p value)

/-- `set_bits`, bit_slice.rs:148-153. -/
def setBitsP (o : BitVecMutP w S) (position count : Nat) (value : BitVec w) : PM (Slice S) Unit := do
  let e ← PM.lift (expectR (checkedAdd 64 position count))
  let n ← PM.eval fun s => .ok s.len
  PM.lift (assertR (e ≤ n))
  let p ← PM.eval fun s => addN c 64 s.start position
  onData (o.setBitsP p count value)

/-- `set_block`, bit_slice.rs:155-158. -/
def setBlockP (o : BitVecMutP w S) (position : Nat) (value : BitVec w) : PM (Slice S) Unit := do
  let p ← PM.lift (mulNbits c w position)
  setBitsP c o p w value

/-- `impl BitVecMut for BitSliceMut`, bit_slice.rs:141-159. -/
def mutP (o : BitVecMutP w S) : BitVecMutP w (Slice S) where
  toBitVecOps := sliceBitVec c o.toBitVecOps
  setBitP := setBitP c o
  setBlockP := setBlockP c o
  setBitsP := setBitsP c o

end Slice

/-- A source that answers a given number of calls and hangs on the next one. -/
def BitRead.metered (R : BitRead σ) : BitRead (σ × Nat) where
  readBit s :=
    match s.2 with
    | 0 => .diverge
    | n + 1 => do
      let r ← R.readBit s.1
      .ok (r.1, (r.2, n))

/-- A sink that answers a given number of calls and hangs on the next one. -/
def BitWrite.metered (W : BitWrite σ) : BitWrite (σ × Nat) where
  writeBit b s :=
    match s.2 with
    | 0 => .diverge
    | n + 1 => do
      let r ← W.writeBit b s.1
      .ok (r.1, (r.2, n))

/-- A source after a number of calls. -/
def BitRead.after (R : BitRead σ) : Nat → σ → Res σ
  | 0, s => .ok s
  | n + 1, s => do
    let r ← R.readBit s
    R.after n r.2

/-- `m`, using a source in state `s`, makes exactly `n` calls, then panics, and leaves the source behind in state `s'`. -/
def PanicsReading (m : {τ : Type} → BitRead τ → SM τ α) (R : BitRead σ) (s s' : σ) : Prop :=
  ∃ n, m R.metered (s, n) = .panic ∧ (∀ j, j < n → m R.metered (s, j) = .diverge) ∧ R.after n s = .ok s'

/-- `m`, using a sink in state `s`, panics before its first call and so leaves the sink as it was. -/
def PanicsUnwritten (m : {τ : Type} → BitWrite τ → SM τ α) (W : BitWrite σ) (s : σ) : Prop :=
  m W.metered (s, 0) = .panic

end Succinct
