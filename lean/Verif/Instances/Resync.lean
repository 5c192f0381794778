import Verif.Instances.Data
import Verif.Props.Resync
/-! `Verif.Props.Resync`: each theorem applied to concrete data, see `Verif.Instances.Data`. -/
namespace Succinct.Ex
open Succinct Spec

example := C116_damage cfg [4, 1] [7] [2, 38] (v := 9) (by decide) (by decide +kernel)
example := C116_resync cfg bits (v := 11) (by decide) (by decide +kernel) fib11
example := C116_short bits (v := 11) (by decide) fib11 (by decide +kernel) [true, false] (by decide +kernel) (show True from trivial)

end Succinct.Ex
