import Verif.Instances.Data
import Verif.Props.RankSpace
/-! `Verif.Props.RankSpace`: each theorem applied to concrete data, see `Verif.Instances.Data`. -/
namespace Succinct.Ex
open Succinct Spec

theorem thousand : vecR cfg 32 (List.replicate 1000 5#32) (arrayBits (List.replicate 1000 5#32)) := ⟨rfl, by decide +kernel⟩
theorem words : vecR cfg 64 (List.replicate 118 5#64) (arrayBits (List.replicate 118 5#64)) := ⟨rfl, by decide +kernel⟩

example := C104_jacobson_partial (w := 8) (S := VB 8) (c := cfg) (A := Alloc.exact) (hA := smallHeap_lawful 0)
    (o := bvBitVec cfg 8) (R := bvR cfg 8) (hw := by conc) (hl := by conc) (hbl := by conc) (hpad := by conc) (s := bv)
    (bits := bits) (hR := by conc) (hmem := by conc) (h2 := by conc)
example := C104_jacobson_whole_partial (w := 8) (S := VB 8) (c := cfg) (A := Alloc.exact) (hA := smallHeap_lawful 0)
    (o := bvBitVec cfg 8) (R := bvR cfg 8) (hw := by conc) (hl := by conc) (hbl := by conc) (hpad := by conc) (s := bv)
    (bits := bits) (hR := by conc) (hmem := by conc) (h2 := by conc)
example := C104_rank9 (S := VB 64) (c := cfg) (A := Alloc.exact) (hA := smallHeap_lawful 0) (o := bvBitVec cfg 64)
    (R := bvR cfg 64) (hl := by conc) (hbl := by conc) (s := bv70) (bits := bits70) (hR := by conc) (hu := by conc)
example := C105_jacobson cfg Alloc.amortized_lawful.1 (fun _ => rfl) (fun _ _ _ => by simp only [Alloc.amortized]; omega) (vs := 24) (bs := 32) (is := 48) (rs := 24) (sz := 112)
    (by decide) thousand (by decide +kernel) (by decide +kernel) (by decide +kernel)
example := C105_rank9 cfg Alloc.amortized_lawful.1 (fun _ => rfl) (vs := 24) (sz := 48)
    (by decide) (by decide) words (by decide +kernel) (by decide +kernel)

end Succinct.Ex
