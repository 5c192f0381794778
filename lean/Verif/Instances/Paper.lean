import Verif.Instances.Data
import Verif.Props.Paper
/-! `Verif.Props.Paper`: each theorem applied to concrete data, see `Verif.Instances.Data`. -/
namespace Succinct.Ex
open Succinct Spec

example := C145_constant (c := cfg) (x := 0x4011#64) (hx := by conc)
example := C145_constant_wrong (c := cfg) (x := 0x4011#64) (h0 := by conc) (hx := by conc)
example := C145_line_same (c := cfg) (r := 5) (x := 0x7777777777777777#64) (hx := by conc)
example := C145_line_wrong (c := cfg) (x := 0x0800#64) (p := 11) (hp := by conc) (h4 := by conc) (hx := by conc)

end Succinct.Ex
