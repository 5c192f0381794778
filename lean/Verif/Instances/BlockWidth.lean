import Verif.Instances.Data
import Verif.Props.BlockWidth
/-! `Verif.Props.BlockWidth`: each theorem applied to concrete data, see `Verif.Instances.Data`. -/
namespace Succinct.Ex
open Succinct Spec

example := C139_address (w := 48) (c := cfg) (h1 := by conc) (hw := by conc)
example := C139_lg_nbits (w := 48) (c := cfg) (k := 5) (hk := by conc) (hk2 := by conc) (hw := by conc)
example := C139_other_widths (c := cfg) (w := 48) (k := 5) (hk := by conc) (hk2 := by conc) (hw := by conc)

end Succinct.Ex
