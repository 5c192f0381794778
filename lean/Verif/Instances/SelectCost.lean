import Verif.Instances.Data
import Verif.Props.SelectCost
/-! `Verif.Props.SelectCost`: each theorem applied to concrete data, see `Verif.Instances.Data`. -/
namespace Succinct.Ex
open Succinct Spec

example := C148_average (S := Rank9 (VB 64)) (c := cfg) (r := Rank9.ops cfg (bvBitVec cfg 64)) (s := r9) (bits := bits70)
    (hr := by conc) (hn := by conc)
example := C148_oblivious (c := cfg) (c' := rel) (C36_words cfg (by decide) 0b10110100#8) (C36_words rel (by decide) 0b00001000#8) (by decide) (v := true) (v' := false) (idx := 2) (idx' := 4)
    (p := some 5) (by decide) (by decide) ⟨by decide, by decide⟩ ⟨by decide, by decide⟩

end Succinct.Ex
