import Verif.Instances.Data
import Verif.Props.Transcode
/-! `Verif.Props.Transcode`: each theorem applied to concrete data, see `Verif.Instances.Data`. -/
namespace Succinct.Ex
open Succinct Spec

example := C124_copy cfg (k := gam) trivial gam_valid bits (by decide)
example := C124_injective cfg (k := gam) trivial (a := [false, false, true, true, false] ++ bits) (b := [false, false, true, true, false] ++ bits) (rest := bits) (v := 5) (by decide) (by decide) rfl rfl
example := C124_lossless cfg (k := gam) (k2 := .omega) trivial gam_valid trivial (fun _ h => h) bits (by decide)
example := C124_recode cfg gam .unary trivial ([false, false, true, true, false] ++ [false, true, true]) (by decide) deque_source deque_sink
    (fun _ _ => trivial) (t := bits) rfl rfl trivial
example := C124_there_and_back cfg (k := gam) (k2 := .omega) gam_valid trivial [5, 3] gam_dom gam_dom

end Succinct.Ex
