import Verif.Instances.Data
import Verif.Props.Wavelet
/-! `Verif.Props.Wavelet`: the theorem applied to concrete data, see `Verif.Instances.Data`. -/
namespace Succinct.Ex
open Succinct Spec

example := C159_wavelet rel (k := 64) (by decide) [0xFFFFFFFFFFFFFFFF#64, 0#64, 0x8000000000000000#64] (fun x _ => x.isLt) (by decide) (by decide)

/-- What it says: in 5 2 7 2 1 2 the number at place 2 is 7, the range from 1 up to 4 holds 2 twice, and in order it is 2 2 7. -/
example : ∃ ts, levels cfg 3 [5#64, 2#64, 7#64, 2#64, 1#64, 2#64] = .ok ts ∧ levelsGet cfg ts 2 0 = .ok 7#64 ∧
    levelsCount cfg 2#64 ts 1 4 = .ok 2 ∧ levelsNth cfg ts 1 4 1 0 = .ok 2#64 ∧ levelsNth cfg ts 1 4 2 0 = .ok 7#64 := by
  obtain ⟨ts, h1, -, h2, h3⟩ :=
    C159_wavelet cfg (k := 3) (by decide) [5#64, 2#64, 7#64, 2#64, 1#64, 2#64] (by simp) (by decide) (by decide)
  obtain ⟨h4, h5⟩ := h3 1 4 (by decide) (by decide)
  have h6 := h5 [2#64, 2#64, 7#64] (by decide) (by decide)
  exact ⟨ts, h1, h2 2 (by decide), h4 2#64 (by decide), h6 1 (by decide), h6 2 (by decide)⟩

end Succinct.Ex
