import Verif.Instances.Data
import Verif.Props.Chunks
/-! `Verif.Props.Chunks`: each theorem applied to concrete data, see `Verif.Instances.Data`. -/
namespace Succinct.Ex
open Succinct Spec

example := C125_bit_vector (w := 8) (c := cfg) (h := by conc) (k := gam) (hk := by conc) (hn := by conc)
    (chunks := [[false, false, true, true], [], [false, false], [true, true]]) (hf := by conc)
example := C125_chunks (bv_pushVec cfg isBlk8) fits_mono gam trivial [[false, false, true, true], [], [false, false], [true, true]] (b := ⟨bv, 10⟩)
    ⟨(bv_reach cfg).rep isBlk8, rfl, by decide⟩ (by decide) (by decide)
    (by simp [parseAll, CodeName.decOut, unaryOut, eliasOut]) []
example := C125_parse_append (c := cfg) (k := gam) (hk := by conc) (p := [false, false, true]) (q := [true, false, true])
    (hl := by conc)
example := C125_roundtrip (w := 8) (c := cfg) (h := by conc) (k := gam) (hk := by conc) (vs := [5, 3]) (hd := by conc)
    (chunks := [[false, false, true, true], [], [false, false], [true, true]]) (he := by decide +kernel) (hf := by conc)
example := C125_start (c := cfg) (k := gam) (hk := by conc)
example := C125_timely (c := cfg) (k := gam) (h := by conc) (vs := [5, 3]) (hd := by conc) (t := [false, false, true])
    (ht := .inr ⟨5, [true, false], gam_dom5, by decide +kernel, by decide, by decide +kernel⟩) (hl := by decide +kernel)

end Succinct.Ex
