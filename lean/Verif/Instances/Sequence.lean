import Verif.Instances.Data
import Verif.Props.Sequence
/-! `Verif.Props.Sequence`: each theorem applied to concrete data, see `Verif.Instances.Data`. -/
namespace Succinct.Ex
open Succinct Spec

example := C123_sequence cfg false (C62_gamma_delta cfg false).2 (bv_pushVec cfg isBlk8) fits_mono (s := ⟨⟨0, []⟩, 0⟩)
    ⟨(((C120_bit_vector cfg isBlk8 ⟨0, []⟩ []).2 ⟨by decide, rfl, by decide⟩).rep isBlk8), rfl, by decide⟩ [5, 38, 1] (by decide) (by decide) (by decide)

end Succinct.Ex
