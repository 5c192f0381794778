import Verif.Rust
/-!
# Model of `src/storage.rs`

A block of a Rust type with `w` bits is a `BitVec w`; `BlockType::nbits` (storage.rs:29-31) is `w`. `usize`/`u64` quantities are `Nat`s; every
operation on them that can overflow is one of the checked operations of `Verif.Rust`.
The block type `usize` is the instance `w = c.usz`.
-/
namespace Succinct

/-- The widths of block types that are covered: every power of two from 8 to 65536. The crate implements
`BlockType` (storage.rs:259, 297-299, 301) for `u8`, `u16`, `u32`, `u64` and `usize` (which is 32 or 64 wide); the trait
is public, so a user can implement it for a wider integer type, for instance one of 128 bits. For such a type the model
assumes that its operations (`PrimInt`) behave like those of a built-in unsigned integer of that width, that its
`low_mask` is the one of the macro or the default one (the two agree, `C01_low_mask_default`), and that its `BitVec` and
rank/select implementations are those of bit_vec/prim.rs and rank/prim.rs. `Verif.Model.OwnBlocks` is a second model for
block types that replace the methods of the trait. -/
def IsBlk (w : Nat) : Prop := ∃ k, k < 17 ∧ 3 ≤ k ∧ w = 2 ^ k

instance (w : Nat) : Decidable (IsBlk w) := by unfold IsBlk; infer_instance

/-- `BlockType::floor_lg`, storage.rs:218-221. `Self::nbits() - 1 - lz` is computed in `usize`. -/
def floorLg (c : Cfg) (x : BitVec w) : Res Nat :=
  if x.toNat ≤ 1 then .ok 0
  else do
    let a ← subN c c.usz w 1
    subN c c.usz a (leadingZeros w x.toNat)

/-- `BlockType::ceil_lg`, storage.rs:211-214. -/
def ceilLg (c : Cfg) (x : BitVec w) : Res Nat :=
  if x.toNat ≤ 1 then .ok 0
  else do
    let y ← subB c x 1
    subN c c.usz w (leadingZeros w y.toNat)

/-- `BlockType::ceil_div`, storage.rs:225-227. -/
def ceilDiv (c : Cfg) (bits x d : Nat) : Res Nat := do
  let a ← addN c bits x d
  let b ← subN c bits a 1
  divN b d

/-- `BlockType::lg_nbits`, storage.rs:107-109 (`Self::nbits()` is a `usize`, so `floor_lg` is the
one of `usize`). -/
def lgNbits (c : Cfg) (w : Nat) : Res Nat := floorLg c (BitVec.ofNat c.usz w)

/-- `BlockType::div_nbits`, storage.rs:41-43. -/
def divNbits (c : Cfg) (w index : Nat) : Res Nat := do
  let lg ← lgNbits c w
  let q ← shrN c 64 index lg
  .ok (asUsize c q)

/-- `BlockType::checked_div_nbits`, storage.rs:50-52. -/
def checkedDivNbits (c : Cfg) (w index : Nat) : Res (Option Nat) := do
  let lg ← lgNbits c w
  let q ← shrN c 64 index lg
  .ok (toUsize c q)

/-- `BlockType::ceil_div_nbits`, storage.rs:59-61. -/
def ceilDivNbits (c : Cfg) (w index : Nat) : Res Nat := do
  let m ← subN c 64 w 1
  let i ← addN c 64 index m
  divNbits c w i

/-- `BlockType::checked_ceil_div_nbits`, storage.rs:71-73. -/
def checkedCeilDivNbits (c : Cfg) (w index : Nat) : Res (Option Nat) := do
  let m ← subN c 64 w 1
  let i ← addN c 64 index m
  checkedDivNbits c w i

/-- The generic default body of `BlockType::low_mask`, storage.rs:124-132 (overridden by every
implementation in the crate, see `lowMask`). -/
def lowMaskDefault (c : Cfg) (w k : Nat) : Res (BitVec w) := do
  debugAssert c (k ≤ w)
  if k = w then .ok (~~~ 0)
  else do
    let a ← shlB c (1 : BitVec w) k
    subB c a 1

/-- `low_mask` as every implementation defines it (macro `fn_low_mask!`, storage.rs:240-257).
`wrapping_shl` masks its `u32` shift amount by the width. -/
def lowMask (c : Cfg) (w k : Nat) : Res (BitVec w) := do
  debugAssert c (k ≤ w)
  let a ← subB c ((1 : BitVec w) <<< (k % 2 ^ 32 % w)) 1
  let d ← divNbits c w k
  let b ← mulB c (BitVec.ofNat w (d &&& 1)) (~~~ 0)
  .ok (a ||| b)

/-- `BlockType::lg_nbits_mask::<Result>`, storage.rs:113-115, where `Result` has `v` bits. -/
def lgNbitsMask (c : Cfg) (v w : Nat) : Res (BitVec v) := do
  let lg ← lgNbits c w
  lowMask c v lg

/-- `BlockType::mod_nbits`, storage.rs:80-83. -/
def modNbits (c : Cfg) (w index : Nat) : Res Nat := do
  let mask ← lgNbitsMask c 64 w
  .ok (asUsize c (index &&& mask.toNat))

/-- `BlockType::mul_nbits`, storage.rs:89-91. -/
def mulNbits (c : Cfg) (w index : Nat) : Res Nat := do
  let lg ← lgNbits c w
  shlN c 64 index lg

/-- `BlockType::last_block_bits`, storage.rs:100-103. -/
def lastBlockBits (c : Cfg) (w len : Nat) : Res Nat := do
  let masked ← modNbits c w len
  if masked = 0 then .ok w else .ok masked

/-- `BlockType::nth_mask`, storage.rs:142-144. -/
def nthMask (c : Cfg) (w k : Nat) : Res (BitVec w) := shlB c 1 k

/-- `BlockType::get_bit`, storage.rs:154-157. -/
def blkGetBit (c : Cfg) (x : BitVec w) (i : Nat) : Res Bool := do
  assertR (i < w)
  let m ← nthMask c w i
  .ok (x &&& m != 0)

/-- `BlockType::with_bit`, storage.rs:165-172. -/
def blkWithBit (c : Cfg) (x : BitVec w) (i : Nat) (v : Bool) : Res (BitVec w) := do
  assertR (i < w)
  let m ← nthMask c w i
  if v then .ok (x ||| m) else .ok (x &&& ~~~ m)

/-- `BlockType::get_bits`, storage.rs:180-187. -/
def blkGetBits (c : Cfg) (x : BitVec w) (start len : Nat) : Res (BitVec w) := do
  let e ← addN c c.usz start len
  assertR (e ≤ w)
  if len = 0 then .ok 0
  else do
    let y ← shrB c x start
    let m ← lowMask c w len
    .ok (y &&& m)

/-- `BlockType::with_bits`, storage.rs:195-205. -/
def blkWithBits (c : Cfg) (x : BitVec w) (start len : Nat) (value : BitVec w) : Res (BitVec w) := do
  let e ← addN c c.usz start len
  assertR (e ≤ w)
  if len = 0 then .ok x
  else do
    let m ← lowMask c w len
    let mask ← shlB c m start
    let shifted ← shlB c value start
    .ok ((x &&& ~~~ mask) ||| (shifted &&& mask))

/-- `struct Address`, storage.rs:337-342. -/
structure Address where
  blockIndex : Nat
  bitOffset : Nat
deriving DecidableEq, Repr

/-- `Address::new`, storage.rs:353-359. -/
def Address.new (c : Cfg) (w bitIndex : Nat) : Res Address := do
  let bi ← checkedDivNbits c w bitIndex
  let bi ← expectR bi
  let bo ← modNbits c w bitIndex
  .ok ⟨bi, bo⟩

/-- `Address::bit_index`, storage.rs:365-367. -/
def Address.bitIndex (c : Cfg) (w : Nat) (a : Address) : Res Nat := do
  let m ← mulNbits c w a.blockIndex
  addN c 64 m a.bitOffset

end Succinct
