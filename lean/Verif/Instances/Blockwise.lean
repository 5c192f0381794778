import Verif.Instances.Data
import Verif.Props.Blockwise
/-! `Verif.Props.Blockwise`: each theorem applied to concrete data, see `Verif.Instances.Data`. -/
namespace Succinct.Ex
open Succinct Spec

/-- Ten other bits. -/
abbrev bitsQ : List Bool := [false, true, true, false, false, true, true, false, false, true]
abbrev bvQ : VB 8 := ⟨10, [0x66#8, 0x02#8]⟩
theorem bvQ_reach (c : Cfg) : BvReach c 8 bvQ bitsQ :=
  (C120_bit_vector c isBlk8 _ _).2 ⟨by rcases c with ⟨_, _ | _, _⟩ <;> decide +revert, rfl, by decide⟩

example := C156_combine isBlk8 (c := cfg) (bv_block cfg isBlk8).toBVBlockRead (bv_mut_law cfg isBlk8) (bv_block cfg isBlk8).toBVBlockRead
    Bitwise.not ((bv_reach cfg).rep isBlk8) ((bvQ_reach cfg).rep isBlk8) rfl
example := C156_bit_vector rel isBlk8 Bitwise.xor (bv_reach rel) (bvQ_reach rel) rfl
example := C156_count cfg isBlk8 (bv_law cfg isBlk8) (bv_block cfg isBlk8).toBVBlockRead (bv_pad cfg isBlk8) (bv_pad cfg isBlk8)
    Bitwise.diff rfl ((bv_reach cfg).rep isBlk8) ((bvQ_reach cfg).rep isBlk8) rfl
example := C156_bit_vector_count cfg isBlk8 (bv_reach cfg) (bvQ_reach cfg) rfl

/-- What they say: complementing sets no unused bit of the last block; there are five differences. -/
example : combine (bvBitVecMut cfg 8) (bvBitVec cfg 8) (fun x _ => ~~~ x) bv bvQ = .ok ⟨10, [0xb2#8, 0x00#8]⟩ := by decide
example : countBlocks cfg (bvBitVec cfg 8) (bvBitVec cfg 8) (· ^^^ ·) bv bvQ = .ok 5 := by decide

end Succinct.Ex
