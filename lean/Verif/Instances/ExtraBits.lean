import Verif.Instances.Data
import Verif.Props.ExtraBits
/-! `Verif.Props.ExtraBits`: each theorem applied to concrete data, see `Verif.Instances.Data`. -/
namespace Succinct.Ex
open Succinct Spec

/-- Seventeen bits in three bytes. -/
abbrev bits17 : List Bool := bits.take 8 ++ bits.take 8 ++ [true]
theorem bv17_ok : bvR cfg 8 ⟨17, [0x4d#8, 0x4d#8, 0x01#8]⟩ bits17 :=
  ((C120_bit_vector cfg isBlk8 ⟨17, [0x4d#8, 0x4d#8, 0x01#8]⟩ bits17).2 ⟨by decide, rfl, by decide⟩).rep isBlk8
theorem ceilLg {x n : Nat} (h1 : x ≤ 2 ^ (n + 1)) (h2 : 2 ^ n < x) : IsCeilLg x (n + 1) :=
  ⟨h1, fun m h => (Nat.pow_lt_pow_iff_right (by decide : 1 < 2)).1 (Nat.lt_of_lt_of_le h2 h)⟩

example := C150_jacobson_partial isBlk8 (bv_law cfg isBlk8) (bv_block cfg isBlk8).toBVBlockRead bv17_ok (by decide) (by decide)
    (m := 2) (by decide) (last := 1#8) rfl (k := 5) (ceilLg (by decide) (by decide))
example := C150_jacobson_roomy_partial isBlk8 (bv_law cfg isBlk8) (bv_block cfg isBlk8).toBVBlockRead bv17_ok (by decide) (by decide)
    (k := 5) (ceilLg (by decide) (by decide)) (by decide)

end Succinct.Ex
