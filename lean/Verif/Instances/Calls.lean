import Verif.Instances.Data
import Verif.Props.Calls
/-! `Verif.Props.Calls`: each theorem applied to concrete data, see `Verif.Instances.Data`. -/
namespace Succinct.Ex
open Succinct Spec

example := C138_get_bit (w := 8) (S := VB 8) (c := cfg) (hw := by conc) (o := bvBitVec cfg 8) (s := bv) (l := []) (p := 5)
example := C138_get_bits (w := 8) (S := VB 8) (c := cfg) (hw := by conc) (o := bvBitVec cfg 8) (s := bv) (l := []) (p := 5)
    (n := 4) (hp := by conc)
example := C138_get_block (w := 8) (S := VB 8) (c := cfg) (o := bvBitVec cfg 8) (s := bv) (l := []) (p := 1) (n := 10)
    (hn := by conc) (hp := by conc)
example := C138_jacobson_new (w := 8) (S := VB 8) (c := cfg) (o := bvBitVec cfg 8) (s := bv) (l := []) (m := 2)
    (hm := by conc)
example := C138_jacobson_rank1 (w := 8) (S := VB 8) (c := cfg) (hw := by conc) (o := bvBitVec cfg 8) (j := jac) (l := [])
    (p := 5)
example := C138_rank9_new (S := VB 64) (c := cfg) (o := bvBitVec cfg 64) (s := bv70) (l := []) (m := 2) (hm := by conc)
example := C138_rank9_rank1 (S := VB 64) (c := cfg) (o := bvBitVec cfg 64) (r := r9) (l := []) (p := 66)
example := C138_read_bit (w := 8) (S := VB 8) (c := cfg) (hw := by conc) (o := bvBitVec cfg 8) (s := bv) (l := []) (p := 5)
    (n := 10) (hn := by conc)
example := C138_select_rank9 (S := VB 64) (c := cfg) (o := bvBitVec cfg 64) (P := bvR cfg 64) (hl := by conc)
    (hbl := by conc) (s := bv70) (bits := bits70) (hP := by conc) (hu := by conc) (r := r9) (hr := by conc) (idx := 5)
    (hi := by conc) (v := true) (k := 7) (hk := by conc) (l := [])
example := C138_set_bit (w := 8) (S := VB 8) (c := cfg) (hw := by conc) (o := bvBitVecMut cfg 8) (s := bv) (l := []) (p := 5)
    (b := true)
example := C138_set_bits (w := 8) (S := VB 8) (c := cfg) (hw := by conc) (o := bvBitVecMut cfg 8) (s := bv) (l := [])
    (p := 5) (n := 4) (x := 0x0b#8) (hp := by conc)
example := C138_slice (w := 8) (S := VB 8) (c := cfg) (o := bvBitVec cfg 8) (s := bv) (l := []) (a := 2) (n := 6)
    (hn := by conc) (p := 3)
example := C138_slice_new (w := 8) (S := VB 8) (o := bvBitVec cfg 8) (s := bv)

end Succinct.Ex
