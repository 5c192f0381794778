import Verif.Instances.Data
import Verif.Props.Rank
/-! `Verif.Props.Rank`: each theorem applied to concrete data, see `Verif.Instances.Data`. -/
namespace Succinct.Ex
open Succinct Spec

example := C36_words (w := 8) (c := cfg) (h := by conc) (x := 0xb5#8)
example := C37_bit_vector (w := 8) (bits := bits) (c := cfg) (hw := by conc) (s := bv) (hR := by conc) (hmem := by conc)
    (h2 := by conc)
example := C37_jacobson (S := VB 8) (w := 8) (c := cfg) (o := bvBitVec cfg 8) (R := bvR cfg 8) (hw := by conc)
    (hl := by conc) (hbl := by conc) (hpad := by conc) (s := bv) (bits := bits) (hR := by conc) (hmem := by conc)
    (h2 := by conc)
example := C38_buildable_partial (S := VB 8) (w := 8) (c := cfg) (o := bvBitVec cfg 8) (R := bvR cfg 8) (hw := by conc)
    (hl := by conc) (hbl := by conc) (hpad := by conc) (s := bv) (bits := bits) (hR := by conc) (hmem := by conc)
example := C38_short_vectors_panic (S := VB 8) (w := 8) (c := cfg) (o := bvBitVec cfg 8) (R := bvR cfg 8) (hw := by conc)
    (hl := by conc) (s := ⟨1, [1#8]⟩) (bits := [true])
    (hR := ((C120_bit_vector cfg isBlk8 ⟨1, [1#8]⟩ [true]).2 ⟨by decide, rfl, by decide⟩).rep isBlk8) (h1 := by conc)
example := C39_bit_vector (bits := bits70) (c := cfg) (s := bv70) (hR := by conc) (hu := by conc)
example := C39_rank9 (S := VB 64) (c := cfg) (o := bvBitVec cfg 64) (R := bvR cfg 64) (hl := by conc) (hbl := by conc)
    (s := bv70) (bits := bits70) (hR := by conc) (hu := by conc)
example := C39_vec (bits := arrayBits [0x9249249249249249#64, 0x24#64]) (c := cfg) (v := [0x9249249249249249#64, 0x24#64])
    (hR := ⟨rfl, by decide +kernel⟩) (hu := by decide +kernel)
example := C40_jacobson (w := 8) (S := VB 8) (c := cfg) (o := bvBitVec cfg 8) (j := jac) (n := 10) (hn := by conc) (p := 10)
    (hp := by conc)
example := C40_rank9_partial (S := VB 64) (c := cfg) (o := bvBitVec cfg 64) (R := bvR cfg 64) (r := r9) (hl := by conc)
    (hbl := by conc) (s := bv70) (bits := bits70) (hR := by conc) (hr := by conc) (hu := by conc) (p := 128) (hp := by conc)
example := C40_rank9_silent (S := VB 64) (c := cfg) (o := bvBitVec cfg 64) (R := bvR cfg 64) (r := r9) (hl := by conc)
    (hbl := by conc) (hpad := by conc) (s := bv70) (bits := bits70) (hR := by conc) (hr := by conc) (hu := by conc)
    (p := 100) (h1 := by conc) (h2 := by conc)
example := C40_words_debug_partial (w := 8) (c := cfg) (hd := by conc) (x := 0xb5#8) (p := 9) (hp := by conc)
example := C41_rank_laws (S := Rank9 (VB 64)) (r := Rank9.ops cfg (bvBitVec cfg 64)) (s := r9) (bits := bits70)
    (h := by conc) (p := 65) (hp := by conc)
example := C42_jacobson_inner (w := 8) (S := VB 8) (c := cfg) (o := bvBitVec cfg 8) (s := bv) (j := jac) (h := by conc)
example := C42_rank9_inner (S := VB 64) (c := cfg) (o := bvBitVec cfg 64) (s := bv70) (r := r9) (h := by conc)

end Succinct.Ex
