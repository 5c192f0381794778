import Verif.Instances.Data
import Verif.Props.MinimalImpl
/-! `Verif.Props.MinimalImpl`: each theorem applied to concrete data, see `Verif.Instances.Data`. -/
namespace Succinct.Ex
open Succinct Spec

example := C133_get_bit (R := bvR cfg 8) (c := cfg) isBlk8 (bv_law cfg isBlk8).fits (bv_law cfg isBlk8).bitLen (bv_law cfg isBlk8).getBit
example := C133_get_block (R := bvR cfg 8) (c := cfg) isBlk8 (bv_law cfg isBlk8).fits (bv_law cfg isBlk8).bitLen (bv_block cfg isBlk8).getBlock (bv_block cfg isBlk8).getBlock_panic
example := C133_neither_get (c := cfg) isBlk8 (bitLen := fun n : Nat => .ok n) (s := 20) (n := 20) (by decide) rfl 7
example := C133_neither_set (R := bvR cfg 8) (c := cfg) isBlk8 (bv_block cfg isBlk8) (bv_law cfg isBlk8).fits (bv_law cfg isBlk8).bitLen ((bv_reach cfg).rep isBlk8) 5 true 3#8
example := C133_push (R := bvR cfg 8) (c := cfg) (o := bvBitVecMut cfg 8) isBlk8 fits_mono (bv_law cfg isBlk8).bitLen (bv_pushVec cfg isBlk8).push.pushBit (bv_pushVec cfg isBlk8).push.popBit
example := C133_round_trip (R := bvR cfg 8) (c := cfg) isBlk8 (bv_law cfg isBlk8).fits (bv_law cfg isBlk8).bitLen (bv_block cfg isBlk8).getBlock (bv_block cfg isBlk8).getBlock_panic ((bv_reach cfg).rep isBlk8) 1 (by decide) 3#8 rfl
example := C133_set_bit (R := bvR cfg 8) (c := cfg) isBlk8 (bv_block cfg isBlk8) (bv_law cfg isBlk8).fits (bv_law cfg isBlk8).bitLen (bv_mut_law cfg isBlk8).setBit (bv_mut_law cfg isBlk8).setBit_panic
example := C133_set_block (R := bvR cfg 8) (c := cfg) isBlk8 (bv_block cfg isBlk8) (bv_law cfg isBlk8).fits (bv_law cfg isBlk8).bitLen (bv_mut_law cfg isBlk8).setBlock (bv_mut_law cfg isBlk8).setBlock_panic

end Succinct.Ex
