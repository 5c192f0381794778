import Verif.Instances.Data
import Verif.Props.FormatOpts
/-! `Verif.Props.FormatOpts`: each theorem applied to concrete data, see `Verif.Instances.Data`. -/
namespace Succinct.Ex
open Succinct Spec

/-- `{:#6x?}` -/
abbrev opts : FmtOpts := { alternate := true, width := some 6, hex := some false }
theorem opts_ok : ¬ opts.Mixes := by
  rintro ⟨-, h, -⟩
  cases h

example := C147_bit_vector (w := 8) (bs := bits) (bt := bits') (o := opts) (ho := opts_ok) (c := cfg) (c' := rel)
    (h := by conc) (s := bv) (t := bv') (hs := by conc) (ht := by conc)
example := C147_nested opts opts_ok (inner := (BV.debugWith : FmtOpts → VB 8 → Text)) (fun a b r r' h => (C147_vectors opts opts_ok).1 a b r r' h)
    (kl := 6) (ks := 6) (kl' := 6) (ks' := 6) (xl := ints) (xs := ints) (xl' := ints) (xs' := ints) "BitSlice"
example := C147_plain (S := Nat) (w := 8) (inner := fun n => toString n) (inner' := fun _ n => (toString n).toList) (fun _ => rfl) "BitSlice"
example := C147_vectors (w := 8) (o := opts) (h := opts_ok)

end Succinct.Ex
