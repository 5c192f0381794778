import Verif.Instances.Data
import Verif.Props.Storage
/-! `Verif.Props.Storage`: each theorem applied to concrete data, see `Verif.Instances.Data`. -/
namespace Succinct.Ex
open Succinct Spec

example := C01_low_mask (w := 8) (c := cfg) (h := by conc) (k := 3) (hk := by conc)
example := C01_low_mask_default (w := 8) (c := cfg) (h := by conc) (k := 3) (hk := by conc)
example := C01_nth_mask (w := 8) (c := cfg) (k := 3) (hk := by conc)
example := C02_get_with_bit (w := 8) (c := cfg) (b := 0xb5#8) (i := 3) (j := 5) (hi := by conc) (hj := by conc)
example := C03_get_bits (w := 8) (c := cfg) (h := by conc) (b := 0xb5#8) (s := 2) (n := 5) (hn := by conc)
example := C03_panics_debug (w := 8) (c := cfg) (hd := by conc) (b := 0xb5#8) (s := 5) (n := 4) (hn := by conc)
example := C03_panics_partial (w := 8) (c := rel) (b := 0xb5#8) (s := 5) (n := 4) (hn := by conc) (hs := by conc)
example := C03_with_bits (w := 8) (c := cfg) (h := by conc) (b := 0xb5#8) (v := 0x1c#8) (s := 2) (n := 5) (hn := by conc)
example := C04_ceil_lg (w := 8) (c := cfg) (h := by conc) (x := 0xb5#8)
example := C04_floor_lg (w := 8) (c := cfg) (h := by conc) (x := 0xb5#8)
example := C05_ceil_div_partial (w := 64) (c := cfg) (x := 21) (d := 8) (hd := by conc) (ho := by conc)
example := C05_overflow (w := 64) (c := cfg) (x := 2 ^ 64 - 3) (d := 8) (hx := by conc) (hd := by conc) (hdw := by conc)
example := C06_address_of_pair (w := 8) (c := cfg) (h := by conc) (b := 1000) (o := 7) (hb := by conc) (ho := by conc)
    (hfit := by conc)
example := C06_address_round_trip (w := 8) (c := cfg) (h := by conc) (i := 8007) (hi := by conc)
example := C07_counterexamples (w := 8) (h := by conc)
example := C07_exact_partial (w := 8) (c := cfg) (h := by conc) (i := 8007) (hi := by conc)
example := C07_lg_nbits (w := 8) (c := cfg) (h := by conc)
example := C07_nbits (w := 8) (c := cfg) (h := by conc) (i := 8007)

end Succinct.Ex
