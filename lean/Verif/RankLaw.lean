import Verif.Spec
import Verif.Model.Rank
/-!
# The contract of rank support

`RankLaw r s bits`: the rank structure `s` answers queries about the list `bits`.
-/
namespace Succinct
open Spec

structure RankLaw (r : RankOps S) (s : S) (bits : List Bool) : Prop where
  small : bits.length < 2 ^ 64
  limit : r.limit s = .ok bits.length
  rank1 : ∀ p < bits.length, r.rank1 s p = .ok (ones bits (p + 1))
  rank0 : ∀ p < bits.length, r.rank0 s p = .ok (zeros bits (p + 1))
  rank : ∀ p < bits.length, ∀ v, r.rank s p v = .ok (occ v bits (p + 1))

end Succinct
