import Verif.Instances.Data
import Verif.Props.Growth
/-! `Verif.Props.Growth`: each theorem applied to concrete data, see `Verif.Instances.Data`. -/
namespace Succinct.Ex
open Succinct Spec

example := C112_bit_vector (w := 8) (c := cfg) (h := by conc) (A := Alloc.amortized) (hA := by conc) (hd := by conc) (k := 5)
    (n := 30) (hk := by conc) (ops := [.pushBit true, .pushBlock 5#8, .setBits 3 7 0x7F#8, .resize 20 true, .popBit])
    (hok := by conc)
example := C112_exact_allocator (w := 8) (c := cfg) (h := by conc) (n := 5) (hf := by conc) (x := 3#8)
example := C112_int_vector (w := 8) (eb := 5) (c := cfg) (h := by conc) (A := Alloc.amortized) (hA := by conc)
    (hd := by conc) (he1 := by conc) (hew := by conc) (k := 2) (n := 10) (hk := by conc)
    (ops := [.push 9#8, .push 31#8, .set 0 4#8, .resize 5 6#8, .pop]) (hok := by conc)

end Succinct.Ex
