import Verif.Instances.Data
import Verif.Props.RankMemory
/-! `Verif.Props.RankMemory`: each theorem applied to concrete data, see `Verif.Instances.Data`. -/
namespace Succinct.Ex
open Succinct Spec

theorem small_monotone (m : Nat) : (smallHeap m).Monotone := by
  intro a b h hb
  simp only [smallHeap, decide_eq_true_eq] at hb ⊢
  omega
theorem heap64 : (smallHeap 3).Bytes 64 cfg.byteLimit := fun n hn => by
  have : n ≤ 3 := by simpa [smallHeap] using hn
  show n * (64 / 8) ≤ _
  have : 24 ≤ cfg.byteLimit := by decide
  omega

example := C126_answers (c := cfg) (smallHeap_lawful 9)
example := C126_jacobson (w := 8) (S := VB 8) (c := cfg) (H := smallHeap 9) (hA := smallHeap_lawful 9)
    (hM := small_monotone 9) (o := bvBitVec cfg 8) (R := bvR cfg 8) (hw := by conc) (hl := by conc) (hbl := by conc)
    (hpad := by conc) (s := bv) (bits := bits) (hR := by conc) (hmem := by conc) (h2 := by conc)
example : ∃ r, Jacobson.newH cfg (smallHeap 9) (bvBitVec cfg 8) bv = .ok r ∧ True := by
  rcases e : Jacobson.newH cfg (smallHeap 9) (bvBitVec cfg 8) bv with r | _ | _
  · exact ⟨r, rfl, (fun _ => trivial) (C126_jacobson_granted e)⟩
  · exact absurd (congrArg (fun x => match x with | Res.ok _ => true | _ => false) e)
      (by decide +kernel)
  · exact absurd (congrArg (fun x => match x with | Res.ok _ => true | _ => false) e)
      (by decide +kernel)
example := C126_jacobson_whole (w := 8) (S := VB 8) (c := cfg) (H := smallHeap 9) (hA := by conc) (o := bvBitVec cfg 8)
    (R := bvR cfg 8) (hw := by conc) (hl := by conc) (hbl := by conc) (hpad := by conc) (s := bv) (bits := bits)
    (hR := by conc) (hmem := by conc) (h2 := by conc)
example := C126_pipeline cfg (smallHeap_lawful 3) (smallHeap_lawful 2) heap64 (.withFill 70 true) (by decide)
    [.edit (.pushBit false), .reserve 20, .edit (.pushBlock 5#64), .edit .popBit, .shrinkToFit] (by decide)
example := C126_rank9 (S := VB 64) (c := cfg) (H := smallHeap 9) (hA := by conc) (o := bvBitVec cfg 64) (R := bvR cfg 64)
    (hl := by conc) (hbl := by conc) (s := bv70) (bits := bits70) (hR := by conc) (hu := by conc)

end Succinct.Ex
