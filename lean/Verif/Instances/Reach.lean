import Verif.Instances.Data
import Verif.Props.Reach
/-! `Verif.Props.Reach`: each theorem applied to concrete data, see `Verif.Instances.Data`. -/
namespace Succinct.Ex
open Succinct Spec

example := C120_bit_buffer (w := 8) (c := cfg) (h := by conc)
example := C120_bit_states (w := 8) (c := cfg) (h := by conc) (s := bv)
example := C120_bit_vector (w := 8) (c := cfg) (h := by conc) (s := bv) (bits := bits)
example := C120_int_states (w := 8) (c := cfg) (h := by conc) (s := iv)
example := C120_int_vector (w := 8) (c := cfg) (h := by conc) (s := iv) (k := 3) (xs := ints)
example := C120_push_bits (w := 8) (c := cfg) (h := by conc) (bits := bits) (hf := by conc)
example := C120_push_ints (w := 8) (k := 3) (c := cfg) (h := by conc) (hk := by conc) (hkw := by conc) (xs := ints)
    (hx := by conc) (hf := by conc)

end Succinct.Ex
