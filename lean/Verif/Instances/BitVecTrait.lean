import Verif.Instances.Data
import Verif.Props.BitVecTrait
/-! `Verif.Props.BitVecTrait`: each theorem applied to concrete data, see `Verif.Instances.Data`. -/
namespace Succinct.Ex
open Succinct Spec

example := C09_get_bit (w := 8) (c := cfg) (h := by conc) (v := [0x4d#8, 0xa3#8, 0x10#8]) (hv := by conc) (i := 9)
    (hi := by conc)
example := C09_get_bits (w := 8) (c := cfg) (h := by conc) (v := [0x4d#8, 0xa3#8, 0x10#8]) (hv := by conc) (p := 5) (n := 7)
    (hp := by conc) (h1 := by conc) (hn := by conc)
example := C09_get_bits_bit (w := 8) (c := cfg) (h := by conc) (v := [0x4d#8, 0xa3#8, 0x10#8]) (hv := by conc) (p := 5)
    (n := 7) (h1 := by conc) (hn := by conc) (hl := by conc)
example := C10_set_bit (w := 8) (c := cfg) (h := by conc) (v := [0x4d#8, 0xa3#8, 0x10#8]) (hv := by conc) (i := 9)
    (hi := by conc)
example := C10_set_bits (w := 8) (c := cfg) (h := by conc) (v := [0x4d#8, 0xa3#8, 0x10#8]) (hv := by conc) (p := 5) (n := 7)
    (hp := by conc) (h1 := by conc) (hn := by conc)
example := C11_end_panics (w := 8) (c := cfg) (h := by conc) (v := [0x4d#8, 0xa3#8, 0x10#8]) (hv := by conc)
example := C11_zero_width_partial (w := 8) (c := cfg) (h := by conc) (v := [0x4d#8, 0xa3#8, 0x10#8]) (hv := by conc) (p := 5)
    (hp := by conc) (x := 0xb5#8)
example := C12_block_array (w := 8) (c := cfg) (h := by conc)
example := C12_defaults_from_get_block (w := 8) (S := List (BitVec 8)) (c := cfg) (h := by conc) (o := vecBitVec cfg 8)
    (R := vecR cfg 8) (hb := vec_block cfg isBlk8) (hfits := (vec_law cfg isBlk8).fits) (hlen := (vec_law cfg isBlk8).bitLen)
    (hgb := rfl) (hgbs := rfl)
example := C12_get_block_from_get_bit (w := 8) (S := List Bool) (c := cfg) (h := by conc)
    (bitLen := (boolVecBitVec cfg).bitLen) (blockLen := (boolVecBitVec cfg).blockLen) (getBit := (boolVecBitVec cfg).getBit)
    (s := bits) (bits := bits) (hf := by conc) (hlen := by conc) (hbl := by conc)
    (hget := fun i hi => ((C12_vec_bool cfg).1.getBit (s := bits) (bits := bits) ⟨rfl, by decide, by decide⟩ i (by have : bits.length = 10 := rfl; omega)))
    (pos := 1)
example := C12_set_block_from_set_bit (w := 8) (S := List Bool) (c := cfg) (h := by conc) (o := boolVecBitVec cfg)
    (setBit := (boolVecBitVecMut cfg).setBit) (R := boolR cfg) (hfits := (C12_vec_bool cfg).1.fits)
    (hlen := (C12_vec_bool cfg).1.bitLen) (hbl := (C12_vec_bool cfg).2.1.blockLen)
    (hset := (C12_vec_bool cfg).2.2.2.1.setBit) (s := bits) (bits := bits) (hR := by conc) (pos := 1) (v := 0x02#8)
    (hpos := by conc)
example := C13_prim_law (w := 8) (c := cfg) (h := by conc)
example := C13_prim_read (w := 8) (c := cfg) (h := by conc) (x := 0xb5#8) (p := 5) (hp := by conc)
example := C13_prim_write (w := 8) (c := cfg) (h := by conc)
example := C74_wide_partial (w := 8) (c := cfg) (h := by conc) (v := [0x4d#8, 0xa3#8, 0x10#8]) (hv := by conc) (p := 5)
    (n := 20) (hn := by conc) (hw2 := by conc)
example := C75_vec_bool_set_block_partial (c := cfg) (v := bits) (bits := bits) (hR := by conc) (i := 1) (hi := by conc)
    (hu := by conc) (x := 0x02#8)

end Succinct.Ex
