import Verif.Instances.BigNumbers
import Verif.Props.CompareNumbers
/-! `Verif.Props.CompareNumbers`: each theorem applied to concrete data, see `Verif.Instances.Data`. -/
namespace Succinct.Ex
open Succinct Spec

/-- 256 and 255 in twelve bits: the higher block decides, against the lower one. -/
abbrev num256 : VB 8 := ⟨12, [0x00#8, 0x01#8]⟩
theorem num256_reach (c : Cfg) : BvReach c 8 num256 (natBits 12 256) :=
  (C120_bit_vector c isBlk8 _ _).2 (by rcases c with ⟨_, _ | _, _⟩ <;> decide +revert)
example : compareNumber (bvBitVec cfg 8) (bvBitVec cfg 8) num256 num255 = .ok .gt := C187_bit_vector cfg isBlk8 (num256_reach cfg) (num255_reach cfg) rfl
example : compareNumber (bvBitVec rel 8) (bvBitVec rel 8) num1 num255 = .ok .lt := C187_bit_vector rel isBlk8 (num1_reach rel) (num255_reach rel) rfl
example : compareNumber (bvBitVec rel 8) (bvBitVec rel 8) num1 num1 = .ok .eq := (C187_equal rel isBlk8 (num1_reach rel) (num1_reach rel) rfl).2 rfl
example := C187_compare isBlk8 (bv_block cfg isBlk8).toBVBlockRead (bv_pad cfg isBlk8) (bv_pad cfg isBlk8) ((num256_reach cfg).rep isBlk8)
  ((num255_reach cfg).rep isBlk8) rfl
example := compareFrom_ok (by decide) (bv_pad cfg isBlk8) (bv_pad cfg isBlk8) ((num256_reach cfg).rep isBlk8) ((num255_reach cfg).rep isBlk8) rfl
  (m := 1) (by decide)
example := compare_high (p := 8) (l := 255) (m := 0) (x := 0) (y := 1) (by decide) (by decide)

/-- Bits beyond the end would spoil it if they could be read: so the law that they read as zero is needed. Here a vector of blocks taken for
four bits. -/
abbrev junkOps : BitVecOps 8 (VB 8) := { bvBitVec cfg 8 with getBlock := fun s i => do
    let x ← (bvBitVec cfg 8).getBlock s i
    .ok (x ||| 0xf0#8) }
example : compareNumber junkOps (bvBitVec cfg 8) (⟨4, [0x01#8]⟩ : VB 8) (⟨4, [0x02#8]⟩ : VB 8) = .ok .gt := by decide +kernel

end Succinct.Ex
