import Verif.Instances.Data
import Verif.Props.BufferMemory
/-! `Verif.Props.BufferMemory`: each theorem applied to concrete data, see `Verif.Instances.Data`. -/
namespace Succinct.Ex
open Succinct Spec

example := C128_buffer (w := 8) (c := cfg) (h := by conc) (H := smallHeap 3) (hA := by conc) (hB := by conc)
    (ops := [.write true, .seek 2, .read, .position]) (ha := by conc) (s := ⟨cvb, 10⟩) (f := ⟨⟨bits, 10⟩, 3⟩) (hs := by conc)
example := C128_encode (w := 8) (c := cfg) (h := by conc) (M := smallStacks 2) (H := smallHeap 3) (hA := by conc)
    (hB := by conc) (k := gam) (vs := [5, 3]) (hv := by conc) (s := ⟨cvb, 10⟩) (f := ⟨⟨bits, 10⟩, 3⟩) (hs := by conc)
    (hp := by conc)
example := C128_new (w := 8) (c := cfg) (h := by conc) (H := smallHeap 3) (hA := by conc) (n := 20) (hn := by conc)
example := C128_roundtrip cfg isBlk8 (smallStacks 2) (smallHeap_lawful 3) heap_bounded gam_valid [5, 3] (by decide) gam_dom
    ((C128_new cfg isBlk8 (smallHeap_lawful 3) (n := 20) (by decide)).2.1 (by decide)) 2

end Succinct.Ex
