import Verif.Instances.Data
import Verif.Props.Recover
/-! `Verif.Props.Recover`: each theorem applied to concrete data, see `Verif.Instances.Data`. -/
namespace Succinct.Ex
open Succinct Spec

example := C131_comma cfg (n := 2) (by decide) (by decide) [[true, true], [false, true]] (by decide) [1, 38] (by decide) 1 dequeSource rfl
example := C131_comma_damage cfg (n := 3) (by decide) (by decide) [4, 0] [7] [2, 38] (v := 9) (by decide)
example := C131_unary cfg [false, false, true, false] [1, 4] (by decide) 1 (by decide) dequeSource rfl
example := C131_unary_damage cfg [4, 0] [7] [2, 38] (v := 9) (by decide)

end Succinct.Ex
