import Verif.Instances.Data
import Verif.Props.Iter
/-! `Verif.Props.Iter`: each theorem applied to concrete data, see `Verif.Instances.Data`. -/
namespace Succinct.Ex
open Succinct Spec

example := C29_bit_iter (w := 8) (bits := bits) (c := cfg) (h := by conc) (s := bv) (hr := by conc)
    (ops := [.next, .nth 1, .nextBack, .next])
example := C29_collect (w := 8) (k := 3) (xs := ints) (c := cfg) (h := by conc) (s := iv) (hr := by conc) (m := 2)
example := C29_int_iter (w := 8) (k := 3) (xs := ints) (c := cfg) (h := by conc) (s := iv) (hr := by conc)
    (ops := [.next, .nth 1, .nextBack, .next])
example := C30_exact (w := 8) (k := 3) (xs := ints) (c := cfg) (h := by conc) (s := iv) (hr := by conc)
    (ops := [.next, .nth 1, .nextBack, .next])
example := C30_exact_bits (w := 8) (bits := bits) (c := cfg) (h := by conc) (s := bv) (hr := by conc)
    (ops := [.next, .nth 1, .nextBack, .next])
example := C30_exact_size_bits_partial (w := 8) (bits := bits) (c := cfg) (h := by conc) (s := bv) (hr := by conc)
    (ops := [.next, .nth 1, .nextBack, .next]) (hn := by simp [nthInRange, deque]) (hu := by conc)
example := C30_exact_size_partial (w := 8) (k := 3) (xs := ints) (c := cfg) (h := by conc) (s := iv) (hr := by conc)
    (ops := [.next, .nth 1, .nextBack, .next]) (hn := by simp [nthInRange, deque]) (hu := by conc)
example := C31_binary (w := 8) (bits := bits) (c := cfg) (h := by conc) (s := bv) (hr := by conc)
example := C31_debug (w := 8) (k := 3) (xs := ints) (c := cfg) (h := by conc) (s := iv) (hr := by conc)

end Succinct.Ex
