import Verif.Instances.Data
import Verif.Props.CanonicalCode
/-! `Verif.Props.CanonicalCode`: the theorem applied to concrete data, see `Verif.Instances.Data`. -/
namespace Succinct.Ex
open Succinct Spec

/-- The lengths of the example in RFC 1951, in elements of five bits. -/
abbrev rfcLens : List Nat := [3, 3, 3, 3, 3, 2, 4, 4]
abbrev rfcVec : IV 64 := ⟨5, ⟨8, [0x2104318c63#64]⟩⟩
theorem rfc_reach (c : Cfg) : IvReach c 64 5 rfcVec rfcLens :=
  (C120_int_vector c isBlk64 _ _ _).2 ⟨by decide, by decide, by decide,
    by rcases c with ⟨_, _ | _, _⟩ <;> decide +revert, rfl, rfl, by decide⟩

/-- Three codewords of one bit: there are none. -/
abbrev manyVec : IV 64 := ⟨5, ⟨3, [0x421#64]⟩⟩
theorem many_reach (c : Cfg) : IvReach c 64 5 manyVec [1, 1, 1] :=
  (C120_int_vector c isBlk64 _ _ _).2 ⟨by decide, by decide, by decide,
    by rcases c with ⟨_, _ | _, _⟩ <;> decide +revert, rfl, rfl, by decide⟩

example := C165_canonical cfg (longest := 4) (by decide) (by decide) (by decide) (rfc_reach cfg) (by decide)
example := C165_canonical rel (longest := 62) (by decide) (by decide) (by decide) (rfc_reach rel) (by decide)
example := C165_canonical rel (longest := 1) (by decide) (by decide) (by decide) (many_reach rel) (by decide)

/-- What it says of the first: there is a code, since there are such words. -/
example : ∃ t word, canonNew cfg 4 rfcVec = .ok (some t) ∧ (word 5).length = 2 ∧ Implements (canonCode cfg t) (· < 8) word := by
  rcases C165_canonical cfg (longest := 4) (by decide) (by decide) (by decide) (rfc_reach cfg) (by decide) with ⟨h, _⟩ | ⟨_, t, word, h1, h2, h3, _⟩
  · exact absurd ⟨[[false, true, false], [false, true, true], [true, false, false], [true, false, true], [true, true, false],
      [false, false], [true, true, true, false], [true, true, true, true]], rfl, by decide⟩ h
  · exact ⟨t, word, h1, h2 5 (by decide), h3⟩

/-- What it says of the last: `None`, since one of three words of one bit occurs twice. -/
example : canonNew rel 1 manyVec = .ok none := by
  rcases C165_canonical rel (longest := 1) (by decide) (by decide) (by decide) (many_reach rel) (by decide) with ⟨_, h⟩ | ⟨⟨ws, h1, h2⟩, _⟩
  · exact h
  · exact absurd (prefixCode_kraft ⟨h1, h2⟩ (by decide) 1) (by decide)

/-- The program on the first: the codewords of RFC 1951. -/
example : (List.range 8).map (canonWord rfcLens) =
    [[false, true, false], [false, true, true], [true, false, false], [true, false, true], [true, true, false],
      [false, false], [true, true, true, false], [true, true, true, true]] := by decide

end Succinct.Ex
