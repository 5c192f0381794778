import Verif.Instances.Data
import Verif.Props.SelectExact
/-! `Verif.Props.SelectExact`: each theorem applied to concrete data, see `Verif.Instances.Data`. -/
namespace Succinct.Ex
open Succinct Spec

example := C40_broadword_rank0_release (c := rel) (ha := by conc) (x := 0xff#64) (p := 70) (hp := by conc)
example := C40_broadword_release (c := rel) (ha := by conc) (x := 0xff#64) (p := 70)
example := C40_rank0 cfg (fun (s p : Nat) => .ok (s + p)) 3 (p := 9) (by decide)
example := C40_rank9_silent_all (S := VB 64) (c := cfg) (o := bvBitVec cfg 64) (R := bvR cfg 64) (r := r9) (hl := by conc)
    (hbl := by conc) (hpad := by conc) (s := bv70) (bits := bits70) (hR := by conc) (hr := r9_new) (hu := by conc) (p := 100)
    (h1 := by conc) (h2 := by conc)
example := C40_words_rank0_release (w := 8) (c := rel) (ha := by conc) (h := by conc) (x := 0xff#8) (p := 11) (hp := by conc)
example := C47_exact (c := cfg) (x := 0x2c#64) (r := 130) (h64 := by conc) (hr := by conc)
example := C47_middle (c := cfg) (x := 0x2c#64) (r := 131) (h1 := by conc) (h2 := by conc) (hc := by conc)
example := C47_middle_low (c := cfg) (x := 0x2c#64) (r := 130) (q := 5) (h1 := by conc) (h2 := by conc) (hq := by conc)
    (hlo := by conc) (hhi := by conc)
example := C47_zero (c := cfg) (r := 130) (h64 := by conc) (hr := by conc)

end Succinct.Ex
