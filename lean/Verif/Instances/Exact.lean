import Verif.Instances.Data
import Verif.Props.Exact
/-! `Verif.Props.Exact`: each theorem applied to concrete data, see `Verif.Instances.Data`. -/
namespace Succinct.Ex
open Succinct Spec

example := C97_ceil_div (c := cfg) (bits := 64) (x := 21) (d := 8) (hx := by conc) (hd := by conc)
example := C97_ceil_div_nbits (w := 8) (c := cfg) (h := by conc) (i := 21) (hi := by conc)
example := C97_low_mask (w := 8) (c := cfg) (h := by conc) (k := 5) (hk := by conc)
example := C97_mul_div_nbits (w := 8) (c := cfg) (h := by conc) (i := 21)
example := C97_word_bits (w := 8) (c := cfg) (h := by conc) (x := 0xb5#8) (p := 5) (v := true)
example := C97_word_fields (w := 8) (c := cfg) (h := by conc) (x := 0xb5#8) (v := 0x1c#8) (start := 2) (len := 5)
    (hs := by conc) (hl := by conc)
example := C97_word_rank (w := 8) (c := cfg) (h := by conc) (x := 0xb5#8) (p := 5) (_hp := by conc)
example := C97_word_spans (w := 8) (c := cfg) (h := by conc) (x := 0xb5#8) (v := 0x1c#8) (start := 2) (count := 5)
    (hs := by conc) (hl := by conc)

end Succinct.Ex
