import Verif.Instances.Data
import Verif.Props.Stale
/-! `Verif.Props.Stale`: each theorem applied to concrete data, see `Verif.Instances.Data`. -/
namespace Succinct.Ex
open Succinct Spec

/-- A byte vector before and after a change, and its `JacobsonRank` made before. -/
abbrev oldV : List (BitVec 8) := [0x0f#8, 0xf0#8, 0xff#8]
abbrev newV : List (BitVec 8) := [0xff#8, 0x00#8, 0x55#8]
theorem stale (o n : List (BitVec 8)) (ho : vecR cfg 8 o (arrayBits o)) (hn : vecR cfg 8 n (arrayBits n)) (hm : InMemory cfg.usz (arrayBits o).length)
    (h2 : 2 ≤ (arrayBits o).length) :
    ∃ j, Jacobson.new cfg (vecBitVec cfg 8) o = .ok j ∧
      StaleRank 8 (Jacobson.ops cfg (vecBitVec cfg 8)) { j with bitStore := n } (arrayBits o) (arrayBits n) :=
  C153_jacobson (c := cfg) isBlk8 (C12_block_array _ isBlk8).1 (C12_block_array _ isBlk8).2.1.toBVBlockRead
    (C12_block_array _ isBlk8).2.2.1 ho hn hm h2

example : True := by
  obtain ⟨j, hj, h⟩ := stale oldV newV ⟨rfl, by decide⟩ ⟨rfl, by decide⟩ (by decide) (by decide)
  exact (fun _ => trivial) (C153_error h rfl (p := 13) (by decide))
example := stale oldV newV ⟨rfl, by decide⟩ ⟨rfl, by decide⟩ (by decide) (by decide)
example := C153_rank9 (bv_law cfg isBlk64) (bv_block cfg isBlk64).toBVBlockRead ((bv70_reach cfg).rep isBlk64)
    (t := ⟨70, [0x2492492492492492#64, 0x09#64]⟩) (new := (List.range 70).map (fun i => i % 3 == 1))
    (((C120_bit_vector cfg isBlk64 ⟨70, [0x2492492492492492#64, 0x09#64]⟩ _).2 ⟨by decide, rfl, by decide +kernel⟩).rep isBlk64) (by decide)
example : True := by
  obtain ⟨j, hj, h⟩ := stale oldV newV ⟨rfl, by decide⟩ ⟨rfl, by decide⟩ (by decide) (by decide)
  exact (fun _ => trivial) (C153_right (by decide) h rfl)
example : True := by
  obtain ⟨j, hj, h⟩ := stale oldV newV ⟨rfl, by decide⟩ ⟨rfl, by decide⟩ (by decide) (by decide)
  exact (fun _ => trivial) (C153_select (c := cfg) (by decide) h rfl (by decide) (k := 3) (by decide))
/-- The new bits have as many ones per block as the old ones. -/
example : True := by
  obtain ⟨j, hj, h⟩ := stale oldV [0xf0#8, 0x0f#8, 0x55#8] ⟨rfl, by decide⟩ ⟨rfl, by decide⟩ (by decide) (by decide)
  refine (fun _ => trivial) (C153_still_right (c := cfg) (by decide) h rfl (by decide) (fun i hi => ?_))
  have hi : (i + 1) * 8 < 24 := hi
  obtain rfl | rfl : i = 0 ∨ i = 1 := by omega
  all_goals decide

end Succinct.Ex
