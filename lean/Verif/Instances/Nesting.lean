import Verif.Instances.Data
import Verif.Props.Nesting
/-! `Verif.Props.Nesting`: each theorem applied to concrete data, see `Verif.Instances.Data`. -/
namespace Succinct.Ex
open Succinct Spec

example := C94_blocks isBlk64 (Store.slice (r := .range 3 67) (.bitVector ((bv70_reach cfg).rep isBlk64)) (a := 3) (b := 67) ⟨rfl, rfl⟩ (by decide) (t := ⟨bv70, 3, 64⟩) rfl) (by decide)
example := C94_jacobson isBlk64 (Store.slice (r := .range 3 67) (.bitVector ((bv70_reach cfg).rep isBlk64)) (a := 3) (b := 67) ⟨rfl, rfl⟩ (by decide) (t := ⟨bv70, 3, 64⟩) rfl) (by decide) (by decide) (by decide)
example := C94_rank9 (Store.slice (r := .range 3 67) (.bitVector ((bv70_reach cfg).rep isBlk64)) (a := 3) (b := 67) ⟨rfl, rfl⟩ (by decide) (t := ⟨bv70, 3, 64⟩) rfl) (by decide) (by decide)
example := C94_reads isBlk64 (Store.slice (r := .range 3 67) (.bitVector ((bv70_reach cfg).rep isBlk64)) (a := 3) (b := 67) ⟨rfl, rfl⟩ (by decide) (t := ⟨bv70, 3, 64⟩) rfl)

end Succinct.Ex
