import Verif.Instances.Data
import Verif.Props.Documentation
/-! `Verif.Props.Documentation`: each theorem applied to concrete data, see `Verif.Instances.Data`. -/
namespace Succinct.Ex
open Succinct Spec

example := C146_ceil_div (w := 8) (c := cfg) (h := by conc) (i := 21) (hi := by conc)
example := C146_random_bounds (w := 8) (k := 3) (xs := ints) (c := cfg) (h := by conc) (s := iv) (hr := by conc)
example := C146_reserve (w := 8) (eb := 1) (c := cfg) (h := by conc) (A := Alloc.amortized) (hA := by conc) (he1 := by conc)
    (s := cvb) (bits := bits) (hs := by conc) (n := 6)
example := C146_too_large (w := 8) (k := 3) (xs := ints) (c := cfg) (h := by conc) (s := iv) (hr := by conc) (x := 9#8)

end Succinct.Ex
