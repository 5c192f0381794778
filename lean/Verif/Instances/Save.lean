import Verif.Instances.Data
import Verif.Props.Save
/-! `Verif.Props.Save`: each theorem applied to concrete data, see `Verif.Instances.Data`. -/
namespace Succinct.Ex
open Succinct Spec

example := C113_load (σ := List (BitVec 8)) (c := cfg) (t := .u8) (R := bytesRead) (RepR := (fun s l => s = l))
    (hR := bytesRead_lawful) (n := 10) (hf := by conc) (s := [0x4d#8, 0xff#8, 0x10#8]) (hs := by conc)
example := C113_roundtrip cfg rel .u16 .u8 bytesWrite_lawful bytesRead_lawful (bv16_reach cfg) (by decide) (s := [0x77#8]) rfl
example := C113_same_type cfg .u16 .big bytesWrite_lawful bytesRead_lawful (bv16_reach cfg) (s := [0x77#8]) rfl
example := C113_save cfg .u16 bytesWrite_lawful (bv16_reach cfg) (s := [0x77#8]) rfl

end Succinct.Ex
