import Verif.Instances.Data
import Verif.Props.Tests
/-! `Verif.Props.Tests`: each theorem applied to concrete data, see `Verif.Instances.Data`. -/
namespace Succinct.Ex
open Succinct Spec

example := C102_ceil_div (c := cfg) (n := 21) (m := 8) (hn := by conc) (hm := by conc) (h := by conc)
    (hs := Or.inl (by decide))
example := C102_code_decode (c := cfg) (f := false) (K := delta cfg) (D := Pos64) (word := deltaWord)
    (h := (C62_gamma_delta cfg false).2) (v := [5, 38, 1]) (hv := by conc)
example := C102_code_decode_tests (c := cfg) (K := delta cfg) (hK := Or.inr (Or.inl rfl)) (v := [5, 38, 1]) (hv := by conc)
example := C102_fibonacci (c := cfg) (v := [5, 38, 1]) (hv := by conc)

end Succinct.Ex
