import Verif.Instances.Data
import Verif.Props.Stream
/-! `Verif.Props.Stream`: each theorem applied to concrete data, see `Verif.Instances.Data`. -/
namespace Succinct.Ex
open Succinct Spec

example := C42_bit_buffer (w := 8) (S := VB 8) (c := cfg) (o := bvBitVec cfg 8) (R := bvR cfg 8) (h := by conc)
    (hl := by conc) (hb := by conc)
example := C51_read (w := 16) cfg dequeRead (by decide) (s := bits ++ [false]) (s' := [false]) (bits := bits) (n := 10) (deque_reads bits [false]) rfl
example := C51_roundtrip (w := 16) cfg true (by decide) deque_sink (fun _ _ => trivial) deque_source 10 (0x2a5#16) (s := bits) (l := bits) rfl trivial
example := C51_write cfg true dequeWrite (by decide) 10 0x2a5#16
example := C52_exact cfg true dequeWrite (by decide) 0x2a5#16 10
example := C52_read (w := 16) cfg dequeRead (by decide) (s := bits ++ [false]) (s' := [false]) (bits := bits) (n := 10) (deque_reads bits [false]) rfl
example := C52_roundtrip_partial (w := 16) cfg true (by decide) deque_sink (fun _ _ => trivial) deque_source (n := 10) (by decide) (by decide) (by decide) (0x2a5#16) (s := bits) (l := bits) rfl trivial
example := C52_signed_full_width cfg dequeWrite (by decide) 0x2a5#16
example := C52_too_wide true dequeWrite .p64 true 0x2a5#16 (n := 17) (by decide)
example := C52_write_partial cfg true dequeWrite (by decide) 0x2a5#16 (n := 10) (by decide) (by decide) (by decide)
example := C53_lawful (w := 16) cfg deque_source (by decide) (s := bits) rfl (n := 7)
example := C53_lawful_be (w := 16) cfg deque_source (by decide) (s := bits) rfl (n := 7)
example := C53_read_int (w := 16) cfg dequeRead (by decide) (s := bits) (s' := []) (bits := bits) (deque_reads bits []) deque_noBit (n := 12) (by decide)
example := C53_read_int_be (w := 16) cfg dequeRead (by decide) (s := bits) (s' := []) (bits := bits) (deque_reads bits []) deque_noBit (n := 12) (by decide)
example := C54_bit_vector (w := 8) (c := cfg) (h := by conc) (ops := [.write true, .write false, .seek 1, .read, .position])
    (hok := by conc)
example := C54_buffer_is_file (bv_pushVec cfg isBlk8) (s := ⟨bv, 10⟩) (f := ⟨bits, 10⟩) ⟨(bv_reach cfg).rep isBlk8, rfl, by decide⟩ [.write true, .seek 1, .read, .write false] (by decide)
example := C54_write_then_read (bv_pushVec cfg isBlk8) fits_mono (s := ⟨bv, 10⟩) (l := bits)
    ⟨(bv_reach cfg).rep isBlk8, rfl, by decide⟩ [true, false, false] (by decide)

end Succinct.Ex
