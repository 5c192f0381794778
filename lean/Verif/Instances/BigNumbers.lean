import Verif.Instances.Data
import Verif.Props.BigNumbers
/-! `Verif.Props.BigNumbers`: each theorem applied to concrete data, see `Verif.Instances.Data`. -/
namespace Succinct.Ex
open Succinct Spec

example := addCarry_ok (w := 8) (by decide) 200#8 55#8 true
example : addCarry 200#8 55#8 true = (0#8, true) := by decide
example : addCarry 200#8 55#8 false = (255#8, false) := by decide
example := addCarry_nat (M := 256) (x := 200) (y := 55) (e := 1) (p := false) (q := true) (by decide) (by decide) (by decide) (by decide) (by decide) (by decide)
example := add_mod_pow (a := 5) (b := 9) (p := 3) (r := 2) (by decide)
example := take_split [true, false, true] (p := 1) (r := 1) (by decide)

/-- 255 and 1 in twelve bits: the carry goes into the second block. -/
abbrev num255 : VB 8 := ⟨12, [0xff#8, 0x00#8]⟩
abbrev num1 : VB 8 := ⟨12, [0x01#8, 0x00#8]⟩
theorem num255_reach (c : Cfg) : BvReach c 8 num255 (natBits 12 255) :=
  (C120_bit_vector c isBlk8 _ _).2 (by rcases c with ⟨_, _ | _, _⟩ <;> decide +revert)
theorem num1_reach (c : Cfg) : BvReach c 8 num1 (natBits 12 1) :=
  (C120_bit_vector c isBlk8 _ _).2 (by rcases c with ⟨_, _ | _, _⟩ <;> decide +revert)
example : addNumber (bvBitVecMut cfg 8) (bvBitVec cfg 8) num255 num1 = .ok (⟨12, [0x00#8, 0x01#8]⟩, false) := by decide +kernel
example : ∃ a' carry, addNumber (bvBitVecMut rel 8) (bvBitVec rel 8) num255 num1 = .ok (a', carry) ∧ BvReach rel 8 a' (natBits 12 256) := by
  obtain ⟨a', carry, h1, h2, -⟩ := C185_bit_vector rel isBlk8 (num255_reach rel) (num1_reach rel) rfl
  exact ⟨a', carry, h1, h2⟩
example := C185_add isBlk8 (bv_block cfg isBlk8).toBVBlockRead (bv_mut_law cfg isBlk8) (bv_block cfg isBlk8).toBVBlockRead ((num255_reach cfg).rep isBlk8)
  ((num1_reach cfg).rep isBlk8) rfl
example := block_low (bits := natBits 12 255) (w := 8) (i := 0) (r := 4) (x := 0xff#8) (by decide) (by decide) (by decide)

/-- Two whole blocks: 65535 and 1 make 0 and a carry. -/
abbrev numAll : VB 8 := ⟨16, [0xff#8, 0xff#8]⟩
abbrev numOne : VB 8 := ⟨16, [0x01#8, 0x00#8]⟩
theorem numAll_reach (c : Cfg) : BvReach c 8 numAll (natBits 16 65535) :=
  (C120_bit_vector c isBlk8 _ _).2 (by rcases c with ⟨_, _ | _, _⟩ <;> decide +revert)
theorem numOne_reach (c : Cfg) : BvReach c 8 numOne (natBits 16 1) :=
  (C120_bit_vector c isBlk8 _ _).2 (by rcases c with ⟨_, _ | _, _⟩ <;> decide +revert)
example : ∃ a', addNumber (bvBitVecMut cfg 8) (bvBitVec cfg 8) numAll numOne = .ok (a', true) ∧ BvReach cfg 8 a' (natBits 16 65536) := by
  obtain ⟨a', carry, h1, h2, h3⟩ := C185_bit_vector cfg isBlk8 (numAll_reach cfg) (numOne_reach cfg) rfl
  obtain rfl : carry = true := (h3 rfl).2 (by decide)
  exact ⟨a', h1, h2⟩

/-- In twelve bits the last carry tells nothing: 4095 and 1 make 4096, which does not fit, without a carry out of the last block. -/
example : addNumber (bvBitVecMut cfg 8) (bvBitVec cfg 8) ⟨12, [0xff#8, 0x0f#8]⟩ num1 = .ok (⟨12, [0x00#8, 0x00#8]⟩, false) := by decide +kernel

end Succinct.Ex
