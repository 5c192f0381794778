import Verif.Instances.Data
import Verif.Props.OwnBlocks
/-! `Verif.Props.OwnBlocks`: each theorem applied to concrete data, see `Verif.Instances.Data`. -/
namespace Succinct.Ex
open Succinct Spec OwnBlk

/-- A build in which blocks have the methods of `flags`. -/
abbrev ocfg : OCfg := ⟨cfg, flags 64⟩
theorem ocfg_lawful : (ocfg.own 8).Lawful ocfg.usz := C152_flags 64 8

example := C152_crate cfg isBlk8
example := C152_inherit cfg isBlk8 (mask := fun k => .ok (BitVec.ofNat 8 (2 ^ k - 1))) (fun k hk => ⟨_, rfl, by revert k; decide⟩)
example := C152_default_mask cfg isBlk8
example := C152_vectors (c := ocfg) isBlk8 ocfg_lawful
example := C152_inherent (c := ocfg) isBlk8 ocfg_lawful
example := C152_bit_vector (c := ocfg) isBlk8 ocfg_lawful .new
    [.pushBit true, .pushBlock 5#8, .setBits 3 7 0x7F#8, .resize 20 true, .popBit] (by decide) (by decide)
example := C152_int_vector (c := ocfg) isBlk8 ocfg_lawful (k := 5) (by decide) (by decide) (.withFill 2 7#8)
    [.push 9#8, .push 31#8, .set 0 4#8, .resize 5 6#8, .pop] (by decide) (by decide)
example := C152_rank_select (c := ocfg) isBlk8 ocfg_lawful (o' := OwnBlk.bvBitVec ocfg 8) (C152_vectors isBlk8 ocfg_lawful).1.write.read
    (bv_law ocfg.dbg isBlk8) (bv_block ocfg.dbg isBlk8).toBVBlockRead (bv_pad ocfg.dbg isBlk8) ((bv_reach ocfg.dbg).rep isBlk8)
    (by decide) (by decide)
example := C152_rank_bit_vector (c := ocfg) isBlk8 ocfg_lawful (i := .withFill 3 true) (ops := [.pushBlock 5#8, .pushBit false])
    (os := [.unit, .unit])
    (bits := [true, true, true, false, false, false, false, false, true, false, true, false, false, false, false, false, false])
    (by decide) (by decide) (by decide) (by decide) (by decide)

end Succinct.Ex
