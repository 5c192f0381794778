import Verif.Instances.Data
import Verif.Props.CapacityOps
/-! `Verif.Props.CapacityOps`: each theorem applied to concrete data, see `Verif.Instances.Data`. -/
namespace Succinct.Ex
open Succinct Spec

example := C100_bit_vector (w := 8) (c := cfg) (h := by conc) (A := Alloc.amortized) (hA := by conc) (n := 16)
    (hn := by conc)
    (ops := [.edit (.pushBit true), .edit (.pushBlock 5#8), .reserve 20, .edit .popBit, .edit (.resize 3 false)])
    (hok := by conc)
example := C100_int_vector (w := 8) (k := 5) (c := cfg) (h := by conc) (A := Alloc.amortized) (hA := by conc)
    (hk1 := by conc) (hkw := by conc) (n := 3) (hn := by conc)
    (ops := [.edit (.push 9#8), .edit (.push 31#8), .reserveExact 4, .edit .pop]) (hok := by conc)

end Succinct.Ex
