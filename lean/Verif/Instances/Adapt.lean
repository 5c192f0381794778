import Verif.Instances.Data
import Verif.Props.Adapt
/-! `Verif.Props.Adapt`: each theorem applied to concrete data, see `Verif.Instances.Data`. -/
namespace Succinct.Ex
open Succinct Spec

example := C103_tower (T := Nat × BinSearchSelect (Rank9 (VB 64))) (field := Prod.snd) cfg (t := (7, .new r9)) rfl r9_law

end Succinct.Ex
