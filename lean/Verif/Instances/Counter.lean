import Verif.Instances.CompareNumbers
import Verif.Props.Counter
/-! `Verif.Props.Counter`: each theorem applied to concrete data, see `Verif.Instances.Data`. -/
namespace Succinct.Ex
open Succinct Spec

/-- From 255 to 256: nine calls of `set_bit`. -/
example : ∃ s', tick (bvBitVecMut cfg 8) num255 = .ok (s', 9) ∧ BvReach cfg 8 s' (natBits 12 256) := by
  obtain ⟨s', m, h1, h2, h3⟩ := C189_tick (o := bvBitVecMut cfg 8) (by decide) (bv_law cfg isBlk8) (bv_mut_law cfg isBlk8).write
    ((num255_reach cfg).rep isBlk8)
  obtain rfl : m = 9 := by
    rw [show (natBits (natBits 12 255).length (bitsVal (natBits 12 255) + 1)).count true = 1 by decide] at h3
    rw [if_pos (by decide), show (natBits 12 255).count true = 8 by decide] at h3
    omega
  exact ⟨s', h1, bvR.reach isBlk8 h2⟩
example : tick (bvBitVecMut rel 8) num255 = .ok (num256, 9) := by decide +kernel
/-- After the greatest number comes 0, with a call for each bit. -/
example : tick (bvBitVecMut rel 8) ⟨16, [0xff#8, 0xff#8]⟩ = .ok (⟨16, [0, 0]⟩, 16) := by decide +kernel
example := countUp_ok (o := bvBitVecMut cfg 8) (bv_law cfg isBlk8) (bv_mut_law cfg isBlk8).write (natBits 12 255) (pre := [])
  ((num255_reach cfg).rep isBlk8) (by decide)

/-- From 1 to 256. -/
example := C189_ticks (o := bvBitVecMut cfg 8) (by decide) (bv_law cfg isBlk8) (bv_mut_law cfg isBlk8).write 255
  ((num1_reach cfg).rep isBlk8) (by decide)

/-- From 0 to 1000 in 12 bits: 1000 has six bits set. -/
example : ∃ v v', BV.withFill rel 8 12 false = .ok v ∧ ticks (bvBitVecMut rel 8) 1000 v = .ok (v', 1994) ∧ BvReach rel 8 v' (natBits 12 1000) := by
  obtain ⟨v, v', m, h1, h2, h3, h4⟩ := C189_bit_vector rel isBlk8 (n := 12) (by decide) (k := 1000) (by decide)
  rw [show (natBits 12 1000).count true = 6 by decide] at h4
  obtain rfl : m = 1994 := by omega
  exact ⟨v, v', h1, h2, h3⟩

end Succinct.Ex
