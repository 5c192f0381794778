import Verif.Instances.Data
import Verif.Props.SearchGeneric
/-! `Verif.Props.SearchGeneric`: each theorem applied to concrete data, see `Verif.Instances.Data`. -/
namespace Succinct.Ex
open Succinct Spec

abbrev hello : List Nat := [104, 101, 108, 108, 111]
theorem hello_law : RankSupLaw byteRank hello hello := ⟨by decide, rfl, fun _ hp _ => if_pos hp⟩

example := C134_any_function cfg (t := ⟨true, 8⟩) (by decide) (R := Int) ⟨fun a b => decide (b ≤ a), fun a b => decide (a < b)⟩ (-30)
    (f := fun i => if -100 ≤ i ∧ i < 100 then .ok (i % 7) else .panic) (f' := fun i => .ok (i % 7)) (start := -100) (limit := 100)
    (by decide) (by decide) (fun _ h1 h2 => if_pos ⟨h1, h2⟩) (fun _ h1 h2 => by rw [if_pos ⟨h1, h2⟩]; exact nofun)
example := (C134_arithmetic rel (t := ⟨true, 8⟩) (by decide) 200).2.1 (by decide)
example := ((C134_arithmetic rel (t := ⟨false, 8⟩) (by decide) 0).2.2.2 rfl 3 5).2 (by decide) (by decide)
example := C134_average cfg (t := ⟨true, 8⟩) (by decide) (x := -128) (y := 127) (by decide) (by decide)
example := C134_inverse cfg hello_law (p := 3) (v := 108) rfl
example := C134_search cfg (t := ⟨true, 8⟩) (by decide) (R := Int) (o := ⟨fun a b => decide (b ≤ a), fun a b => decide (a < b)⟩)
    (le := (· ≤ ·)) ⟨fun a b => by simp, fun a b => by simp, fun h1 h2 => Int.le_trans h1 h2⟩ (value := -30)
    (f := fun i => if -100 ≤ i ∧ i < 100 then .ok (3 * i) else .panic) (g := fun i => 3 * i) (start := -100) (limit := 100)
    (by decide) (by decide) (fun _ h1 h2 => if_pos ⟨h1, h2⟩) (fun _ _ _ _ _ => by omega)
example := C134_select cfg hello_law 108 (k := 2) (by decide)
example := C134_select_max cfg hello_law 108
example := C134_unsigned cfg (bits := 64) (value := 3) (by decide) (f := fun i => .ok (2 * i)) (start := 1) (limit := 9) (by decide)

end Succinct.Ex
