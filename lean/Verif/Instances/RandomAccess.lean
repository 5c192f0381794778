import Verif.Instances.Data
import Verif.Props.RandomAccess
/-! `Verif.Props.RandomAccess`: each theorem applied to concrete data, see `Verif.Instances.Data`. -/
namespace Succinct.Ex
open Succinct Spec

example := C114_lookup cfg false (C62_gamma_delta cfg false).2 (bv_pushVec cfg isBlk8) fits_mono (s := ⟨bv, 10⟩) (l := bits)
    ⟨(bv_reach cfg).rep isBlk8, rfl, by decide⟩ [5, 38, 1] (by decide) (by decide)
example := C114_overwrite cfg false (C62_gamma_delta cfg false).2 (bv_pushVec cfg isBlk8) fits_mono (s := ⟨bv, 10⟩) (l := bits)
    ⟨(bv_reach cfg).rep isBlk8, rfl, by decide⟩ [5, 38, 1] (by decide) (by decide) (j := 1) (u := 63) (by decide) (by decide) (by decide +kernel)

end Succinct.Ex
