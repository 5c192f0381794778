import Verif.Instances.Data
import Verif.Props.AnySource
/-! `Verif.Props.AnySource`: each theorem applied to concrete data, see `Verif.Instances.Data`. -/
namespace Succinct.Ex
open Succinct Spec

example := C121_any (c := cfg) (k := gam) (bits := bits) (hl := by conc)
example := C121_final (c := cfg) (k := gam) (p := [false, false, true, true, false]) (q := bits) (hl := by conc)
    (h := by decide)
example := C121_unwinds (c := cfg) (k := .lift0 .unary) (bits := [true, false]) (hl := by conc) (h := by conc)

end Succinct.Ex
