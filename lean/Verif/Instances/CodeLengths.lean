import Verif.Instances.Data
import Verif.Props.CodeLengths
/-! `Verif.Props.CodeLengths`: each theorem applied to concrete data, see `Verif.Instances.Data`. -/
namespace Succinct.Ex
open Succinct Spec

example := C92_bounds (v := 38932) (h1 := by conc) (h2 := by conc)
example := C92_monotone (c := cfg) (f := false) (K := delta cfg) (D := Pos64) (word := deltaWord)
    (h := (C62_gamma_delta cfg false).2) (u := 5) (v := 38) (hu := by conc) (hv := by conc) (huv := by conc)
example := C93_kraft (c := cfg) (f := false) (K := delta cfg) (D := Pos64) (word := deltaWord)
    (h := (C62_gamma_delta cfg false).2) (vs := [5, 38, 1]) (hd := by conc) (hv := by conc)

end Succinct.Ex
