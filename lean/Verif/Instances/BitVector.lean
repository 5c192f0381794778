import Verif.Instances.Data
import Verif.Props.BitVector
/-! `Verif.Props.BitVector`: each theorem applied to concrete data, see `Verif.Instances.Data`. -/
namespace Succinct.Ex
open Succinct Spec

example := C14_bit_vector_is_list (w := 8) (c := cfg) (h := by conc) (i := .new)
    (ops := [.pushBit true, .pushBlock 5#8, .setBits 3 7 0x7F#8, .resize 20 true, .popBit]) (hi := by conc) (hops := by conc)
example := C15_equality_is_extensional (w := 8) (bits := bits) (bits' := bits') (c := cfg) (c' := rel) (h := by conc)
    (s := bv) (s' := bv') (hr := by conc) (hr' := by conc)
example := C16_out_of_range (w := 8) (bits := bits) (c := cfg) (h := by conc) (s := bv) (hr := by conc)
example := C17_fill (w := 8) (c := cfg) (h := by conc)
example := C17_too_large_partial (w := 8) (c := rel) (h := by conc) (n := 2 ^ 40) (b := true) (hc := by conc)
example := C18_resize (w := 8) (bits := bits) (c := cfg) (h := by conc) (s := bv) (hr := by conc) (n := 37) (b := true)
    (hf := by conc)
example := C19_align_block (w := 8) (bits := bits) (c := cfg) (h := by conc) (s := bv) (hr := by conc) (v := true)
example := C19_push_block (w := 8) (bits := bits) (c := cfg) (h := by conc) (s := bv) (hr := by conc) (x := 0xb5#8)
    (hf := by conc)
example := C20_stack (w := 8) (bits := bits) (c := cfg) (h := by conc) (s := bv) (hr := by conc)
example := C21_storage (w := 8) (bits := bits) (c := cfg) (h := by conc) (s := bv) (hr := by conc)
example := C73_bit_vector_order (w := 8) (bs := bits) (bt := bits') (c := cfg) (h := by conc) (s := bv) (t := bv')
    (hs := by conc) (ht := by conc)

end Succinct.Ex
