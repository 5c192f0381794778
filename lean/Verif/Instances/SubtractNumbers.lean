import Verif.Instances.CompareNumbers
import Verif.Props.SubtractNumbers
/-! `Verif.Props.SubtractNumbers`: each theorem applied to concrete data, see `Verif.Instances.Data`. -/
namespace Succinct.Ex
open Succinct Spec

example := zipWith_not (as := [true, false]) (bs := [true, true]) rfl

/-- 256 less 1 in twelve bits: the second block is borrowed from. -/
example : ∃ a' borrow, subNumber (bvBitVecMut rel 8) (bvBitVec rel 8) num256 num1 = .ok (a', borrow) ∧ BvReach rel 8 a' (natBits 12 255) := by
  obtain ⟨a', borrow, h1, h2, -⟩ := C188_bit_vector rel isBlk8 (num256_reach rel) (num1_reach rel) rfl (by decide)
  exact ⟨a', borrow, h1, h2⟩
example : subNumber (bvBitVecMut cfg 8) (bvBitVec cfg 8) num256 num1 = .ok (num255, false) := by decide +kernel
example := C188_subtract isBlk8 (bv_block cfg isBlk8).toBVBlockRead (bv_mut_law cfg isBlk8) (bv_block cfg isBlk8).toBVBlockRead
  ((num1_reach cfg).rep isBlk8) ((num256_reach cfg).rep isBlk8) rfl

/-- Two whole blocks: 1 less 65535 is 2, with a borrow. -/
example : ∃ a' l, subNumber (bvBitVecMut cfg 8) (bvBitVec cfg 8) numOne numAll = .ok (a', true) ∧ bvR cfg 8 a' l ∧ bitsVal l = 2 := by
  obtain ⟨a', borrow, l, h1, h2, -, h4, h5⟩ := C188_subtract isBlk8 (bv_block cfg isBlk8).toBVBlockRead (bv_mut_law cfg isBlk8)
    (bv_block cfg isBlk8).toBVBlockRead ((numOne_reach cfg).rep isBlk8) ((numAll_reach cfg).rep isBlk8) rfl
  obtain rfl : borrow = true := (h5 rfl).2 (by decide)
  exact ⟨a', l, h1, h2, h4.trans (by decide)⟩

end Succinct.Ex
