import Verif.Instances.Data
import Verif.Props.Transfer
/-! `Verif.Props.Transfer`: each theorem applied to concrete data, see `Verif.Instances.Data`. -/
namespace Succinct.Ex
open Succinct Spec

/-- Ten bits from a `BitVector<u8>` into a `Vec<bool>`. -/
example := C158_same_type cfg rel .u8 rfl .big (bv_block cfg isBlk8).toBVBlockRead (boolVec_block rel).toBVBlockRead
    (boolVec_mut_law rel) bytesWrite_lawful bytesRead_lawful ((bv_reach cfg).rep isBlk8)
    (v0 := List.replicate 10 true) (show boolR rel _ _ from ⟨rfl, by decide⟩) rfl (s := [0x77#8]) rfl
/-- Ten bits from a `BitVector<u8>` into a `BitVector<u16>`, both two bytes long. -/
example := C158_little cfg rel .u8 .u16 (bv_block cfg isBlk8).toBVBlockRead (bv_block rel isBlk16).toBVBlockRead
    (bv_mut_law rel isBlk16) bytesWrite_lawful bytesRead_lawful ((bv_reach cfg).rep isBlk8)
    ((bv16_reach rel).rep isBlk16) (by decide) (s := [0x77#8]) rfl
example := C158_int_vector cfg rel .u8 .u16 bytesWrite_lawful bytesRead_lawful (iv_reach cfg) (by decide) (by decide) (s := [0x77#8]) rfl
example := C158_int_vector_same_type cfg .u8 .big bytesWrite_lawful bytesRead_lawful (iv_reach cfg) (s := [0x77#8]) rfl

/-- What they say: twelve bits in two bytes become one `u16`, and the elements are as before. -/
example : store cfg .u8 (ivBitVec cfg 8) bytesWrite .little iv [] = .ok (.ok (), [0xd5#8, 0x03#8]) ∧
    (do let v0 ← IV.withFill rel 3 4 (0 : BitVec 16)
        restore rel .u16 (ivBitVecMut rel 16) bytesRead .little v0 [0xd5#8, 0x03#8]) =
      .ok (.ok (⟨3, ⟨4, [0x03d5#16]⟩⟩ : IV 16), []) := by decide +kernel
/-- One byte is not enough for a `u16`. -/
example : (do let v0 ← IV.withFill rel 4 2 (0 : BitVec 16)
              restore rel .u16 (ivBitVecMut rel 16) bytesRead .little v0 [0xd5#8]) =
      .ok (.error .unexpectedEof, []) := by decide +kernel

end Succinct.Ex
