import Verif.Instances.Data
import Verif.Props.CodeOrder
/-! `Verif.Props.CodeOrder`: each theorem applied to concrete data, see `Verif.Instances.Data`. -/
namespace Succinct.Ex
open Succinct Spec

example := C160_numeric cfg true .fibonacci (u := 11) (v := 12) ⟨by decide, by decide⟩ ⟨by decide, by decide⟩
example := C160_numeric cfg false (.elias .unary fun _ h => by omega) (u := 5) (v := 6) ⟨by decide, by decide⟩ ⟨by decide, by decide⟩
example := C160_omega (u := 5) (v := 6) (by decide) (by decide)
example := C160_comma (n := 2) (by decide) (u := 5) (v := 6)
example := C160_vectors rel false (.elias .unary fun _ h => by omega) isBlk64 (u := 2 ^ 31) (v := 2 ^ 31 + 1) ⟨by decide, by decide⟩
  ⟨by decide, by decide⟩ (by decide +kernel) (by decide +kernel)
example := C160_comma_vectors rel isBlk8 (by decide) (u := 2 ^ 63) (v := 2 ^ 63 + 255) (by decide) (by decide)

/-- What it says. -/
example : NumBefore (gammaWord 5) (gammaWord 6) ∧ ¬ NumBefore (gammaWord 6) (gammaWord 5) :=
  have h := @C160_numeric cfg false _ _ _ (.elias .unary fun _ h => by omega)
  ⟨(h (u := 5) (v := 6) ⟨by decide, by decide⟩ ⟨by decide, by decide⟩).1 (by decide),
    fun h' => absurd ((h (u := 6) (v := 5) ⟨by decide, by decide⟩ ⟨by decide, by decide⟩).2 h') (by decide)⟩

end Succinct.Ex
