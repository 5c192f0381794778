import Verif.Instances.Data
import Verif.Props.Adaptors
/-! `Verif.Props.Adaptors`: each theorem applied to concrete data, see `Verif.Instances.Data`. -/
namespace Succinct.Ex
open Succinct Spec

example := C136_bit_iter (w := 8) (c := cfg) (hb := by conc)
example := C136_collect (C136_iter_forward cfg isBlk8).1 (C136_start cfg isBlk8 (iv_reach cfg)).1
example := C136_collect_exact (C136_iter_exact cfg isBlk8) ((C136_start cfg isBlk8 (iv_reach cfg)).2 (by decide))
example := C136_iter_exact (w := 8) (c := cfg) (hb := by conc)
example := C136_iter_forward (w := 8) (c := cfg) (hb := by conc)
example := C136_rev (C136_iter_exact cfg isBlk8)
example := C136_skip cfg (C136_iter_exact cfg isBlk8)
example := C136_skip_forward cfg (C136_iter_forward cfg isBlk8).1
example := C136_start (w := 8) (k := 3) (xs := ints) (c := cfg) (hb := by conc) (s := iv) (hr := by conc)
example := C136_start_bits (w := 8) (bits := bits) (c := cfg) (hb := by conc) (s := bv) (hr := by conc)
example := C136_step_by (k := 3) (C136_iter_forward cfg isBlk8).1 (by decide) (by decide) (C136_start cfg isBlk8 (iv_reach cfg)).1
/-- Elements 0 and 2 of the four. -/
example := C136_step_by_back (k := 2) (out := [5#8, 7#8]) (C136_iter_exact cfg isBlk8) ⟨1, true, iv.iter⟩ rfl ((C136_start cfg isBlk8 (iv_reach cfg)).2 (by decide)) (by decide) (by
  intro i
  match i with
  | 0 => rfl
  | 1 => rfl
  | i + 2 => rw [List.getElem?_eq_none (by simp), List.getElem?_eq_none (by simp; omega)])
example := C136_step_by_forward (k := 3) cfg (C136_iter_forward cfg isBlk8).1 (by decide)
/-- Elements 0 and 2 of the four: two of them, and `nth_back(1)` is the first. -/
theorem every2 : IsEvery 2 (ints.map (BitVec.ofNat 8)) [5#8, 7#8] := by
  intro i
  match i with
  | 0 => rfl
  | 1 => rfl
  | i + 2 => rw [List.getElem?_eq_none (by simp), List.getElem?_eq_none (by simp [ints]; omega)]
example := C136_step_by_len (k := 2) (out := [5#8, 7#8]) (s := ⟨1, true, iv.iter⟩) cfg (C136_iter_exact cfg isBlk8)
  ⟨rfl, _, (C136_start cfg isBlk8 (iv_reach cfg)).2 (by decide), every2⟩
example := C136_step_by_nth_back (k := 2) (out := [5#8, 7#8]) (s := ⟨1, true, iv.iter⟩) (n := 1) cfg (C136_iter_exact cfg isBlk8)
  (fun _ _ h => h.2.2) ⟨rfl, _, (C136_start cfg isBlk8 (iv_reach cfg)).2 (by decide), every2⟩ (by decide)
example := C136_take (C136_iter_exact cfg isBlk8)
example := C136_take_forward (C136_iter_forward cfg isBlk8).1
/-- An iterator over numbers whose `nth` goes wrong on arguments that are not `usize`. -/
example := C136_usize cfg (O := ⟨fun s => .ok (some s, s), fun n s => .ok (some n, s), fun s => .ok (some s, s), fun n s => .ok (some n, s), fun _ => .ok 5⟩)
  (O' := ⟨fun s => .ok (some s, s), fun n s => if n < 2 ^ cfg.usz then .ok (some n, s) else .panic, fun s => .ok (some s, s), fun n s => .ok (some n, s), fun _ => .ok 5⟩)
  ⟨rfl, fun n h => by funext s; simp only [if_pos h], rfl, fun _ _ => rfl, rfl, fun _ n h => by cases h; decide⟩

end Succinct.Ex
