import Verif.Instances.Data
import Verif.Props.Slice
/-! `Verif.Props.Slice`: each theorem applied to concrete data, see `Verif.Instances.Data`. -/
namespace Succinct.Ex
open Succinct Spec

example := C32_lawful (S := VB 8) (w := 8) (c := cfg) (o := bvBitVec cfg 8) (R := bvR cfg 8) (hw := by conc) (hl := by conc)
example := C32_new_out_of_bounds (S := VB 8) (w := 8) (c := cfg) (o := bvBitVec cfg 8) (R := bvR cfg 8) (a := 2) (b := 9)
    (hl := by conc) (d := bv) (B := bits) (hR := by conc) (r := .range 2 9) (hr := by conc)
example := C32_window (S := VB 8) (w := 8) (c := cfg) (o := bvBitVec cfg 8) (R := bvR cfg 8) (a := 2) (b := 9)
    (hw := by conc) (hl := by conc) (d := bv) (B := bits) (hR := by conc) (r := .range 2 9) (hr := by conc) (hab := by conc)
    (hb := by conc)
example := C33_lawful (S := VB 8) (w := 8) (c := cfg) (o := bvBitVecMut cfg 8) (R := bvR cfg 8) (hw := by conc)
    (hl := by conc) (hm := by conc)
example := C33_write (S := VB 8) (w := 8) (c := cfg) (o := bvBitVecMut cfg 8) (R := bvR cfg 8) (a := 2) (b := 9)
    (hw := by conc) (hl := by conc) (hm := by conc) (d := bv) (B := bits) (hR := by conc) (r := .range 2 9) (hr := by conc)
    (hab := by conc) (hb := by conc)
example := C34_flatten (S := VB 8) (w := 8) (c := cfg) (o := bvBitVec cfg 8) (R := bvR cfg 8) (x := 1) (y := 9) (a := 2)
    (b := 6) (hw := by conc) (hl := by conc) (d := bv) (B := bits) (hR := by conc) (hxy := by conc) (hy := by conc)
    (r := .range 2 6) (hr := by conc) (hab := by conc) (hb := by conc)
example := C34_nested isBlk8 (bv_law cfg isBlk8) ((bv_reach cfg).rep isBlk8) (r := .from 1) (rs := [.to 6]) (s := ⟨bv, 1, 6⟩)
  (.layer (.layer .base rfl) rfl)
example := C34_range_forms (S := VB 8) (w := 8) (c := cfg) (o := bvBitVec cfg 8) (n := 10) (d := bv) (hn := by conc) (a := 2)
    (b := 9)
example := C35_blocks_partial (S := VB 8) (w := 8) (c := cfg) (o := bvBitVec cfg 8) (R := bvR cfg 8) (s := sl)
    (bits := slBits) (hw := by conc) (hl := by conc) (hs := by conc)
example := C35_partial_block_panics (S := VB 8) (w := 8) (c := cfg) (o := bvBitVec cfg 8) (R := bvR cfg 8) (s := sl)
    (bits := slBits) (hw := by conc) (hl := by conc) (hs := by conc) (hpart := by conc)
example := C35_set_block_partial (S := VB 8) (w := 8) (c := cfg) (o := bvBitVecMut cfg 8) (R := bvR cfg 8) (s := sl)
    (bits := slBits) (hw := by conc) (hl := by conc) (hm := by conc) (hs := by conc)

end Succinct.Ex
