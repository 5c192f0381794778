import Verif.Instances.Data
import Verif.Props.Builds
/-! `Verif.Props.Builds`: each theorem applied to concrete data, see `Verif.Instances.Data`. -/
namespace Succinct.Ex
open Succinct Spec

example (kp : Kept) := C107_codes cfg kp (K := delta cfg) (.elias (.lift0 (.elias .unary)))

end Succinct.Ex
