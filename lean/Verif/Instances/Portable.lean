import Verif.Instances.Data
import Verif.Props.Portable
/-! `Verif.Props.Portable`: each theorem applied to concrete data, see `Verif.Instances.Data`. -/
namespace Succinct.Ex
open Succinct Spec

example := C108_bit_buffer (w := 8) (c := rel) (c' := cfg) (hu := by conc) (h := by conc)
    (ops := [.write true, .write false, .seek 1, .read, .position]) (hops := by conc)
example := C108_bit_vector (w := 8) (c := rel) (c' := cfg) (hu := by conc) (h := by conc) (i := .new)
    (ops := [.pushBit true, .pushBlock 5#8, .setBits 3 7 0x7F#8, .resize 20 true, .popBit]) (hi := by conc) (hops := by conc)
example := C108_block_io (c := cfg) (c' := rel) (t := .u32) (ht := by conc)
example := C108_codes rel cfg (.elias .unary (fun n h => by omega)) [5, 38, 1] (by decide)
example := C108_int_vector (w := 8) (k := 5) (c := rel) (c' := cfg) (hu := by conc) (h := by conc) (hk := by conc)
    (hkw := by conc) (i := .withFill 2 7#8)
    (ops := [.push 9#8, .push 31#8, .set 0 4#8, .getRandom 1 4 1, .resize 5 6#8, .pop]) (hi := by conc) (hops := by conc)
example := C108_iterators (w := 8) (c := rel) (c' := cfg) (hu := by conc) (h := by conc)
example := C108_rank_select (c := rel) (c' := cfg) (hu := by conc)
example := C108_reach_bits (w := 8) (bits := bits) (c := rel) (c' := cfg) (hu := by conc) (h := by conc) (s := bv)
    (hr := by conc)
example := C108_reach_ints (w := 8) (k := 3) (xs := ints) (c := rel) (c' := cfg) (hu := by conc) (h := by conc) (s := iv)
    (hr := by conc)

end Succinct.Ex
