import Verif.Instances.Data
import Verif.Props.Universal
/-! `Verif.Props.Universal`: each theorem applied to concrete data, see `Verif.Instances.Data`. -/
namespace Succinct.Ex
open Succinct Spec

example := C132_comma cfg (n := 2) (by decide) (by decide) [1, 1, 2, 3] small_1123 (by decide)
example := C132_delta cfg [1, 1, 2, 3] small_1123 (by decide) (by decide)
example := C132_entropy_bound cfg true (C62_gamma_delta cfg true).1 [1, 1, 2, 3] (by decide) (bits := [true, true, false, true, false, false, true, true])
    (by have := encodeAll_length; decide +kernel)
example := C132_fibonacci cfg [1, 1, 2, 3] small_1123 (by decide +kernel)
example := C132_gamma cfg [1, 1, 2, 3] small_1123 (by decide)
example := C132_omega cfg [1, 1, 2, 3] small_1123 (by decide)
example := C132_omega_optimal cfg [1, 1, 2, 3] small_1123 (by decide) (by decide)
example := C132_unary_counterexample (c := cfg) (k := 10) (hk := by conc)

end Succinct.Ex
