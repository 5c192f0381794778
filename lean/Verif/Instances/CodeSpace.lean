import Verif.Instances.Data
import Verif.Props.CodeSpace
/-! `Verif.Props.CodeSpace`: each theorem applied to concrete data, see `Verif.Instances.Data`. -/
namespace Succinct.Ex
open Succinct Spec

example := C142_comma (n := 2) (k := 5) (hn := by conc)
example := C142_decode (c := cfg) (M := 40) (hM := by conc)
example := C142_decode_omega (c := cfg) (hd := by conc) (hp := by conc) (M := 80) (h1 := by conc) (h2 := by conc)
example := C142_omega_step (k := 5) (hk := by conc)
example := C142_streams (c := cfg) (f := false) (K := delta cfg) (D := Pos64) (word := deltaWord)
    (h := (C62_gamma_delta cfg false).2) (T := {5, 38, 1}) (hT := by conc) (M := 20) (hM := by conc)

end Succinct.Ex
