import Verif.Instances.Data
import Verif.Props.Broadword
/-! `Verif.Props.Broadword`: each theorem applied to concrete data, see `Verif.Instances.Data`. -/
namespace Succinct.Ex
open Succinct Spec

example := C40_broadword_debug_partial (c := cfg) (hd := by conc) (x := 0x9249249249249249#64) (p := 70) (hp := by conc)
example := C47_broadword_select_partial (c := cfg) (x := 0x9249249249249249#64) (k := 5) (hk := by conc)
example := C47_large_r (c := cfg) (x := 0x9249249249249249#64) (r := 200) (h1 := by conc) (h2 := by conc)
example := C47_never_panics (c := cfg) (x := 0x9249249249249249#64) (r := 200) (hr := by conc)
example := C47_select_partial (c := cfg) (x := 0x9249249249249249#64) (r := 5) (hr := by conc)

end Succinct.Ex
