import Verif.Model.Storage
/-!
# Model of the I/O methods of `BlockType` (`src/storage.rs:230-332`)

The methods are one-line calls of the `byteorder` crate, which is not part of the repository. What it
does is assumed here: `read_uN` reads exactly `N/8` bytes with `read_exact` and combines them in the
given order, `write_uN` splits the number and calls `write_all` once.
-/
namespace Succinct

/-- `io::Read`, through `read_exact` only. -/
structure ByteRead (σ : Type) where
  readExact : Nat → SM σ (List (BitVec 8))

/-- `io::Write`, through `write_all` only. -/
structure ByteWrite (σ : Type) where
  writeAll : List (BitVec 8) → SM σ Unit

/-- The type parameter `T: ByteOrder`: `LittleEndian` or `BigEndian`. -/
inductive Endian where
  | little
  | big
deriving DecidableEq, Repr

/-- The number whose bytes, least significant first, are `bs`. -/
def leVal : List (BitVec 8) → Nat
  | [] => 0
  | b :: bs => b.toNat + 256 * leVal bs

/-- The `k` low bytes of `x`, least significant first. -/
def leBytes : Nat → Nat → List (BitVec 8)
  | 0, _ => []
  | k + 1, x => BitVec.ofNat 8 (x % 256) :: leBytes k (x / 256)

/-- `T::read_uN` -/
def Endian.val : Endian → List (BitVec 8) → Nat
  | .little, bs => leVal bs
  | .big, bs => leVal bs.reverse
/-- `T::write_uN` -/
def Endian.bytes : Endian → Nat → Nat → List (BitVec 8)
  | .little, k, x => leBytes k x
  | .big, k, x => (leBytes k x).reverse

/-- `ReadBytesExt::read_u8/16/32/64` for `k` bytes -/
def readUint (R : ByteRead σ) (T : Endian) (k : Nat) : SM σ Nat := do
  let bs ← R.readExact k
  pure (T.val bs)
/-- `WriteBytesExt::write_u8/16/32/64` for `k` bytes -/
def writeUint (W : ByteWrite σ) (T : Endian) (k x : Nat) : SM σ Unit := W.writeAll (T.bytes k x)

/-- The types implementing `BlockType`. -/
inductive BlkTy where
  | u8 | u16 | u32 | u64 | usize
deriving DecidableEq, Repr

/-- `nbits()` -/
def BlkTy.bits (c : Cfg) : BlkTy → Nat
  | .u8 => 8
  | .u16 => 16
  | .u32 => 32
  | .u64 => 64
  | .usize => c.usz

/-- `read_block`, storage.rs:259-264 (`u8`), 279-284 (`u16`, `u32`, `u64`), 301-314 (`usize`, one of two
bodies by pointer width). -/
def readBlock (c : Cfg) (t : BlkTy) (R : ByteRead σ) (T : Endian) : SM σ (BitVec (t.bits c)) :=
  match t with
  | .u8 => do let x ← readUint R T 1; pure (BitVec.ofNat _ x)
  | .u16 => do let x ← readUint R T 2; pure (BitVec.ofNat _ x)
  | .u32 => do let x ← readUint R T 4; pure (BitVec.ofNat _ x)
  | .u64 => do let x ← readUint R T 8; pure (BitVec.ofNat _ x)
  | .usize => do
    let x ← (match c.ptr with | .p64 => readUint R T 8 | .p32 => readUint R T 4)
    pure (BitVec.ofNat _ (asUsize c x))

/-- `write_block`, storage.rs:266-270, 286-290, 316-328. -/
def writeBlock (c : Cfg) (t : BlkTy) (W : ByteWrite σ) (T : Endian) (x : BitVec (t.bits c)) : SM σ Unit :=
  match t with
  | .u8 => writeUint W T 1 x.toNat
  | .u16 => writeUint W T 2 x.toNat
  | .u32 => writeUint W T 4 x.toNat
  | .u64 => writeUint W T 8 x.toNat
  | .usize => match c.ptr with | .p64 => writeUint W T 8 (x.toNat % 2 ^ 64) | .p32 => writeUint W T 4 (x.toNat % 2 ^ 32)

end Succinct
