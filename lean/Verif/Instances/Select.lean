import Verif.Instances.Data
import Verif.Props.Select
/-! `Verif.Props.Select`: each theorem applied to concrete data, see `Verif.Instances.Data`. -/
namespace Succinct.Ex
open Succinct Spec

theorem C45_select15 : BinSearchSelect.select cfg (Rank9.ops cfg (bvBitVec cfg 64)) (.new r9) 5 true = .ok (some 15) := by
  obtain ⟨x, h1, h2⟩ := (C44_select_partial cfg r9_law (k := 5) (by decide)).2.2 true
  rw [h1]
  match x, h2 with
  | none, h => exact absurd h (by unfold IsSelect; decide +kernel)
  | some p, h =>
    obtain ⟨hp, hc⟩ := h
    have hp' : p < 70 := (List.getElem?_eq_some_iff.1 hp).1
    have : ∀ p < 70, bits70[p]? = some true → occ true bits70 p = 5 → p = 15 := by decide +kernel
    rw [this p hp' hp hc]

example := C42_bin_search_rank (S := Rank9 (VB 64)) (r := Rank9.ops cfg (bvBitVec cfg 64)) (s := r9) (bits := bits70)
    (hr := by conc)
example := C43_average (c := cfg) (bits := 64) (x := 2 ^ 64 - 1) (y := 2 ^ 63 + 5) (hb := by conc) (hx := by conc)
    (hy := by conc)
example := C43_binary_search (c := cfg) (bits := 64) (start := 3) (limit := 40) (value := 50) (f := fun i => .ok (i * i))
    (g := fun i => i * i) (hb := by conc) (hl := by conc) (hf := fun _ _ _ => rfl)
    (hg := fun _ _ _ h _ => Nat.mul_le_mul h h)
example := C44_max (S := Rank9 (VB 64)) (c := cfg) (r := Rank9.ops cfg (bvBitVec cfg 64)) (s := r9) (bits := bits70)
    (hr := by conc)
example := C44_max_debug (S := Rank9 (VB 64)) (c := cfg) (hd := by conc) (r := Rank9.ops cfg (bvBitVec cfg 64)) (s := r9)
    (bits := bits70) (hr := by conc)
/-- A release build of the same for a 64-bit target: the structure over a word. -/
example := C44_max_release (c := ⟨false, .p64, false⟩) rfl (C36_words ⟨false, .p64, false⟩ isBlk64 0x9249249249249249#64) (by decide)
example := C44_select_partial (S := Rank9 (VB 64)) (c := cfg) (r := Rank9.ops cfg (bvBitVec cfg 64)) (s := r9)
    (bits := bits70) (hr := by conc) (k := 5) (hk := by conc)
example := C45_rank_of_select (S := Rank9 (VB 64)) (c := cfg) (r := Rank9.ops cfg (bvBitVec cfg 64)) (s := r9)
    (bits := bits70) (hr := by conc) (k := 5) (p := 15) (v := true) (hk := by conc) (h := C45_select15)
example := C45_select_agree (S := Rank9 (VB 64)) (c := cfg) (r := Rank9.ops cfg (bvBitVec cfg 64)) (s := r9) (bits := bits70)
    (hr := by conc) (k := 5) (hk := by conc)
example := C45_select_of_rank (S := Rank9 (VB 64)) (c := cfg) (r := Rank9.ops cfg (bvBitVec cfg 64)) (s := r9)
    (bits := bits70) (hr := by conc) (p := 15) (v := true) (hp := by conc)
example := C45_tower (bits := bits70) (c := cfg) (s := bv70) (hR := by conc) (hu := by conc)

end Succinct.Ex
