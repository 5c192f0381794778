import Verif.Instances.Data
import Verif.Props.BlockIO
/-! `Verif.Props.BlockIO`: each theorem applied to concrete data, see `Verif.Instances.Data`. -/
namespace Succinct.Ex
open Succinct Spec

example := C08_roundtrip cfg .u32 .big bytesWrite_lawful bytesRead_lawful 0x01020384#32 (s := [9#8]) rfl

end Succinct.Ex
