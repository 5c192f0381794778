import Verif.Instances.Data
import Verif.Props.Memory
/-! `Verif.Props.Memory`: each theorem applied to concrete data, see `Verif.Instances.Data`. -/
namespace Succinct.Ex
open Succinct Spec

theorem heap_bytes : (smallHeap 3).Bytes 8 cfg.byteLimit := fun n hn => by
  have : n ≤ 3 := by simpa [smallHeap] using hn
  show n * (8 / 8) ≤ _
  have : 3 ≤ cfg.byteLimit := by decide
  omega

example := C109_bit_vector (w := 8) (c := cfg) (h := by conc) (H := smallHeap 3) (hA := by conc) (hB := by conc)
    (i := .withFill 15 true) (hi := by conc)
    (ops := [.edit (.pushBit true), .edit (.pushBlock 5#8), .reserve 20, .edit .popBit, .edit (.resize 3 false)])
    (hops := by conc)
example := C109_bounded (w := 8) (c := cfg) (h := by conc) (H := smallHeap 3) (hH := heap_bytes)
example := C109_int_vector (w := 8) (k := 5) (c := cfg) (h := by conc) (H := smallHeap 3) (hA := by conc) (hB := by conc)
    (hk1 := by conc) (hkw := by conc) (i := .withFill 2 7#8) (hi := by conc)
    (ops := [.edit (.push 9#8), .edit (.push 31#8), .reserveExact 4, .edit .pop]) (hops := by conc)
example := C109_rank (w := 8) (c := cfg) (h := by conc) (H := smallHeap 3) (hA := by conc) (hH := heap_bytes)
    (i := .withFill 15 true) (hi := by conc) (ops := [.edit (.pushBit false), .edit .popBit]) (hops := by conc)
    (os := [some .unit, some (.optBit (some false))]) (s := ⟨⟨15, [0xff#8, 0x7f#8]⟩, 2, 0⟩) (hrun := rfl)
example := C109_reserved_bits (w := 8) (c := cfg) (h := by conc) (H := smallHeap 3) (hA := by conc) (n := 20) (hn := by conc)
    (s := ⟨⟨0, []⟩, 3, 0⟩) (hs := rfl) (ops := [.pushBit true, .pushBlock 5#8, .popBit]) (H' := smallHeap 0)
    (hA' := smallHeap_lawful 0) (hok := by conc) (hall := by decide +kernel)
example := C109_reserved_ints (w := 8) (k := 5) (c := cfg) (h := by conc) (H := smallHeap 3) (hA := by conc) (hk1 := by conc)
    (hkw := by conc) (n := 4) (hn := by conc) (s := ⟨⟨0, []⟩, 3, 0⟩) (hs := rfl) (ops := [.push 9#8, .push 31#8, .pop])
    (H' := smallHeap 0) (hA' := smallHeap_lawful 0) (hok := by conc) (hall := by decide +kernel)
example := C109_unlimited cfg { Alloc.amortized with allow := fun _ => true } (fun _ => rfl) 1 (bvStep cfg) [.edit (.pushBit true), .edit (.pushBlock 5#8), .reserve 20, .edit .popBit, .edit (.resize 3 false)] cvb

end Succinct.Ex
