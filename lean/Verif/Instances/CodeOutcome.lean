import Verif.Instances.Data
import Verif.Props.CodeOutcome
/-! `Verif.Props.CodeOutcome`: each theorem applied to concrete data, see `Verif.Instances.Data`. -/
namespace Succinct.Ex
open Succinct Spec

example := C106_all (c := cfg) (k := gam) (bits := bits) (hl := by conc)
example := C119_encode (c := cfg) (k := gam) (v := 38) (hv := by conc)
example := C119_roundtrip (c := cfg) (k := gam) (h := by conc) (v := 5) (hv := by conc) (hv64 := by conc)
    (l := [false, false, true, true, false]) (rest := bits) (he := by decide +kernel) (hl := by conc)
example := C119_untouched (c := cfg) (k := gam) (v := 38) (hv := by conc) (e := .unexpectedEof) (σ := List Bool) (s := bits)
example := C119_valid (k := gam) (h := by conc) (d := true) (v := 38) (hv := by conc)

end Succinct.Ex
