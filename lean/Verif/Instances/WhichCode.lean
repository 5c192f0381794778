import Verif.Instances.Data
import Verif.Props.WhichCode
/-! `Verif.Props.WhichCode`: each theorem applied to concrete data, see `Verif.Instances.Data`. -/
namespace Succinct.Ex
open Succinct Spec

example := C135_comma_word (c := cfg) (v := 38) (h1 := by conc) (h2 := by conc)
example := C135_delta_comma (c := cfg) (v := 38) (h1 := by conc) (h2 := by conc)
example := C135_delta_fibonacci (c := cfg) (v := 38) (h1 := by conc) (h2 := by conc)
example := C135_delta_omega (c := cfg) (v := 38) (h1 := by conc) (h2 := by conc)
example := C135_delta_word (c := cfg) (v := 38) (h1 := by conc) (h2 := by conc)
example := C135_fibonacci_comma (c := cfg) (v := 38) (h1 := by conc) (h2 := by conc)
example := C135_fibonacci_word (c := cfg) (v := 38) (h1 := by conc) (h2 := by conc)
example := C135_gamma_comma (c := cfg) (v := 38) (h1 := by conc) (h2 := by conc)
example := C135_gamma_delta (c := cfg) (v := 38) (h1 := by conc) (h2 := by conc)
example := C135_gamma_fibonacci (c := cfg) (v := 38) (h1 := by conc) (h2 := by conc)
example := C135_gamma_omega (c := cfg) (v := 38) (h1 := by conc) (h2 := by conc)
example := C135_gamma_word (c := cfg) (v := 38) (h1 := by conc) (h2 := by conc)
example := C135_omega_comma (c := cfg) (v := 38) (h1 := by conc) (h2 := by conc)
example := C135_omega_fibonacci (c := cfg) (v := 38) (h1 := by conc) (h2 := by conc)
example := C135_omega_word (c := cfg) (v := 38) (h1 := by conc) (h2 := by conc)
example := C135_unary (c := cfg) (v := 38) (h1 := by conc) (h2 := by conc)

end Succinct.Ex
