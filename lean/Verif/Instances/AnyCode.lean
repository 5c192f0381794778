import Verif.Instances.Data
import Verif.Props.AnyCode
/-! `Verif.Props.AnyCode`: each theorem applied to concrete data, see `Verif.Instances.Data`. -/
namespace Succinct.Ex
open Succinct Spec

example := C129_elias cfg (fixedWidth_implements cfg (n := 6) (by decide) (by decide))
example := C129_encode cfg (fixedWidth cfg 6) (v := 38) (by decide) (by decide) dequeWrite
example := C129_kraft (fixedWidth_implements cfg (n := 6) (by decide) (by decide)) [5, 38, 0] (by decide) (by decide) 6 (by decide)
example := C129_lift0 cfg (fixedWidth_implements cfg (n := 6) (by decide) (by decide))
example := C129_only_codewords cfg (C77_only_codewords cfg).2.1
example := C129_outcome cfg (K := delta cfg) (C106_all cfg (.elias (.lift0 (.elias .unary))) bits (by decide))
example := C129_streams (fixedWidth_implements cfg (n := 6) (by decide) (by decide)) deque_sink (fun _ _ => trivial) deque_source [5, 38, 0] (by decide) 2 (s := bits) rfl trivial
example := C129_truncated cfg (C62_all cfg false (C62_gamma_delta cfg false).1).decodes (C64_truncated_partial cfg (C62_gamma_delta cfg false).1)
example := C129_unambiguous (fixedWidth_implements cfg (n := 6) (by decide) (by decide))

end Succinct.Ex
