import Verif.Instances.Data
import Verif.Props.Completion
/-! `Verif.Props.Completion`: each theorem applied to concrete data, see `Verif.Instances.Data`. -/
namespace Succinct.Ex
open Succinct Spec

theorem comma_split : commaSplit 63 (2 ^ (63 % 64) - 1) (natBits 63 5 ++ [false]) = ([5], none) := by
  rw [commaSplit, dif_neg (by decide), if_neg (by decide)]
  simp only
  rw [commaSplit, dif_pos (by decide)]
  decide
theorem comma_waits : ((CodeName.comma 63).decOut cfg (natBits 63 5 ++ [false])).Waits := by
  show (commaOut true 63 _).Waits
  unfold commaOut
  rw [if_neg (by decide)]
  simp only [comma_split]
  decide

example := C130_comma cfg 63 (natBits 63 5 ++ [false]) comma_waits [5] [false]
  (by rw [comma_split]) (by decide)
example := C130_elias_header (c := cfg) (k := .unary) (bits := [false, false, true, true]) (n := 2) (r := [true])
    (hk := by conc) (h := by conc)
example := C130_fibonacci (c := cfg) (bits := List.replicate 91 false) (h := by decide +kernel)
example := C130_gamma (c := cfg) (bits := [false, false, true, true]) (h := by conc)
example := C130_omega cfg [true, false] (by show (omegaOut _ _ _).Waits; unfold omegaOut; decide +kernel)
example := C130_unary (c := cfg) (bits := [false, false]) (h := by conc)

end Succinct.Ex
