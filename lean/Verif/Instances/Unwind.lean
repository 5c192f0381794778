import Verif.Instances.Data
import Verif.Props.Unwind
/-! `Verif.Props.Unwind`: each theorem applied to concrete data, see `Verif.Instances.Data`. -/
namespace Succinct.Ex
open Succinct Spec

example := C78_caught_panics (w := 8) (c := cfg) (h := by conc) (i := .new)
    (ops := [.pushBit true, .setBit 1 true, .pushBlock 5#8, .setBits 12 7 0x7F#8, .getBlock 2, .popBit]) (hi := by conc)
    (hops := by conc)
example := C78_unchanged (w := 8) (bits := bits) (c := cfg) (h := by conc) (s := bv) (hr := by conc)
    (op := .setBits 8 7 0x7f#8) (hok := by conc) (hsp := by conc)
example := C79_caught_panics (w := 8) (k := 5) (c := cfg) (h := by conc) (hk := by conc) (hkw := by conc) (i := .new)
    (ops := [.push 21#8, .push 32#8, .push 9#8, .set 2 0#8, .set 1 31#8, .get 1, .pop]) (hi := by conc) (hops := by conc)
example := C79_unchanged (w := 8) (k := 3) (xs := ints) (c := cfg) (h := by conc) (s := iv) (hr := by conc)
    (op := .set 1 9#8) (hok := by conc) (hsp := by conc)
example := C80_setters (w := 8) (c := cfg) (h := by conc)
example := C81_bool_vec_set_block_p32 (d := true) (a := true) (v := [true, true, true]) (v' := [true, true, true])
    (hv := by conc) (position := 1) (x := 0#8) (hp := by conc) (hpanic := by conc)
example := C81_bool_vec_set_block_partial (c := cfg) (v := [true, true, true]) (v' := [true, true, true]) (hf := by conc)
    (hv := by conc) (position := 1) (x := 0#8) (hp8 := by conc) (hpanic := by conc)

end Succinct.Ex
