import Verif.Instances.Data
import Verif.Props.Packed
/-! `Verif.Props.Packed`: each theorem applied to concrete data, see `Verif.Instances.Data`. -/
namespace Succinct.Ex
open Succinct Spec

example := C115_bit_vector (w := 8) (c := cfg) (sg := false) (h := by conc) (s := bv) (bits := bits) (hs := by conc) (p := 3)
    (m := 5) (hm := by conc) (hmw := by conc) (hp := by conc) (x := 0x0b#8)
example := C115_int_vector_read (w := 8) (k := 3) (u := 16) (c := cfg) (h := by conc) (s := iv) (xs := ints) (hs := by conc)
    (hu := by conc)
example := C115_int_vector_write (w := 8) (k := 3) (u := 16) (c := cfg) (sg := true) (h := by conc) (s := iv) (xs := ints)
    (hs := by conc) (hu := by conc) (hk := by conc) (n := 20) (hn := by conc)
example := C115_read (S := VB 8) (w := 8) (c := cfg) (R := bvR cfg 8) (o := bvBitVec cfg 8) (h := by conc) (hl := by conc)
    (hb := by conc) (s := bv) (bits := bits) (hR := by conc) (q := 2) (p := 3) (m := 5) (hm := by conc) (hmw := by conc)
    (hp := by conc)
example := C115_write cfg true (bv_pushVec cfg isBlk8) ((bv_reach cfg).rep isBlk8) (q := 2) (by decide) (p := 3) (m := 5) (by decide) (by decide) (by decide) 0x0b#8

end Succinct.Ex
