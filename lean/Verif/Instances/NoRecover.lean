import Verif.Instances.Data
import Verif.Props.NoRecover
/-! `Verif.Props.NoRecover`: each theorem applied to concrete data, see `Verif.Instances.Data`. -/
namespace Succinct.Ex
open Succinct Spec

example := C140_gamma (c := cfg) (n := 5) (m := 6) (lo := 21) (hm := by conc) (hlo := by conc)

end Succinct.Ex
