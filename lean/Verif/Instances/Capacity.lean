import Verif.Instances.Data
import Verif.Props.Capacity
/-! `Verif.Props.Capacity`: each theorem applied to concrete data, see `Verif.Instances.Data`. -/
namespace Succinct.Ex
open Succinct Spec

example := C70_block_reserve (w := 8) (eb := 1) (c := cfg) (A := Alloc.amortized) (hA := by conc) (s := cvb) (bits := bits)
    (hs := by conc) (n := 6)
example := C70_change (w := 8) (eb := 1) (c := cfg) (A := Alloc.amortized) (hA := by conc) (s := cvb) (bits := bits)
    (bits' := bits') (hs := by conc) (b := bv') (hb := by conc)
example := C70_overflow_panics (w := 8) (eb := 1) (c := cfg) (h := by conc) (A := Alloc.amortized) (s := cvb) (n := 6)
example := C70_reallocations (w := 8) (A := Alloc.amortized) (s := cvb) (hroom := by decide) (n := 6)
example := C70_reserve_iff (w := 8) (eb := 1) (c := cfg) (h := by conc) (he1 := by conc) (s := cvb) (bits := bits)
    (hs := by conc) (n := 6) (hf := by conc)
example := C70_reserve_partial (w := 8) (eb := 1) (c := cfg) (h := by conc) (A := Alloc.amortized) (hA := by conc)
    (he1 := by conc) (s := cvb) (bits := bits) (hs := by conc) (n := 6) (hf := by conc)
example := C70_reserve_then_push (w := 8) (eb := 1) (c := cfg) (h := by conc) (A := Alloc.amortized) (hA := by conc)
    (he1 := by conc) (hew := by conc) (s := cvb) (bits := bits) (hs := by conc) (n := 6) (hf := by conc)
    (hc := .inr (by decide)) (xs := [1#8, 0#8, 1#8]) (hx := by conc)
example := C70_shrink (w := 8) (eb := 1) (c := cfg) (A := Alloc.amortized) (hA := by conc) (s := cvb) (bits := bits)
    (hs := by conc)
example := C70_with_capacity (w := 8) (eb := 1) (c := cfg) (h := by conc) (A := Alloc.amortized) (hA := by conc)
    (he1 := by conc) (hew := by conc) (n := 6) (hf := by conc)
example := C82_capacity_ge_len (w := 8) (eb := 1) (c := cfg) (h := by conc) (A := Alloc.amortized) (hA := by conc)
    (he1 := by conc) (hew := by conc) (s := cvb) (bits := bits) (hs := by conc)
    (ops := [.push 1#8, .reserve 30, .resize 20 0#8, .shrinkToFit, .pop]) (hf := by conc)
example := C82_no_reallocation (w := 8) (eb := 1) (c := cfg) (h := by conc) (A := Alloc.amortized) (hA := by conc)
    (he1 := by conc) (hew := by conc) (n := 20) (hf := by conc) (ops := [.push 1#8, .resize 20 0#8, .pop, .truncate 3])
    (hops := by conc)

end Succinct.Ex
