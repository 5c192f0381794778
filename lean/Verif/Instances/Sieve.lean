import Verif.Instances.Data
import Verif.Props.Sieve
/-! `Verif.Props.Sieve`: the theorem applied to concrete data, see `Verif.Instances.Data`. -/
namespace Succinct.Ex
open Succinct Spec

example := C173_sieve rel (n := 30) (by decide) (by decide) (by decide)

/-- What it says below 30: ten primes, up to 13 six, and the fourth (from 0) is 11. -/
example : ∃ v r, sieve cfg 30 = .ok v ∧ Rank9.new cfg (bvBitVec cfg 64) v = .ok r ∧
    (Rank9.ops cfg (bvBitVec cfg 64)).rank1 r 29 = .ok 10 ∧ (Rank9.ops cfg (bvBitVec cfg 64)).rank1 r 13 = .ok 6 ∧
    BinSearchSelect.select1 cfg (Rank9.ops cfg (bvBitVec cfg 64)) (.new r) 4 = .ok (some 11) := by
  obtain ⟨v, r, h1, -, h2, h3, h4⟩ := C173_sieve cfg (n := 30) (by decide) (by decide) (by decide)
  refine ⟨v, r, h1, h2, (h3 29 (by decide)).trans (by decide), (h3 13 (by decide)).trans (by decide), ?_⟩
  obtain ⟨o, h5, h6, h7⟩ := h4 4 (by decide)
  cases o with
  | none => exact absurd (h7 rfl) (by decide)
  | some q =>
    obtain ⟨a, b, d⟩ := h6 q rfl
    have h : ∀ q, q < 30 → Nat.Prime q → primesBelow q = 4 → q = 11 := by decide
    rw [h5, h q a b d]

end Succinct.Ex
