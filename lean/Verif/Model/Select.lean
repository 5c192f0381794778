import Verif.Model.Rank
/-! Binary search and select (src/internal/search.rs, src/select/bin_search.rs). -/
namespace Succinct

/-- `average`, internal/search.rs:4-9, for an unsigned type of `bits` bits. -/
def average (c : Cfg) (bits x y : Nat) : Res Nat := do
  let a ← shrN c bits x 1
  let b ← shrN c bits y 1
  let almost ← addN c bits a b
  let s ← addN c bits (x &&& 1) (y &&& 1)
  let extra ← shrN c bits s 1
  addN c bits almost extra

/-- The loop of `binary_search_function`, internal/search.rs:29-43. -/
def searchLoop (c : Cfg) (bits : Nat) (f : Nat → Res Nat) (value start limit : Nat) : Res (Option Nat) := do
  if start < limit then do
    let mid ← average c bits start limit
    let y ← f mid
    if value ≤ y then do
      let m ← subN c bits mid 1
      let z ← f m
      if z < value then .ok (some mid)
      else searchLoop c bits f value start mid
    else do
      let start ← addN c bits mid 1
      searchLoop c bits f value start limit
  else .ok none
partial_fixpoint

/-- `binary_search_function`, internal/search.rs:16-44. The domain `D` is an unsigned type of `bits` bits, the
result type `R` of `f` is `u64` (as in every use in the crate). -/
def binarySearch (c : Cfg) (bits start limit value : Nat) (f : Nat → Res Nat) : Res (Option Nat) := do
  if limit ≤ start then .ok none
  else do
    let y ← f start
    if value ≤ y then .ok (some start)
    else do
      let start ← addN c bits start 1
      searchLoop c bits f value start limit

/-- `struct BinSearchSelect`, select/bin_search.rs:8-10. -/
structure BinSearchSelect (S : Type) where
  rankSupport : S

namespace BinSearchSelect
variable {S : Type}

/-- `new`, `inner`, `into_inner`, select/bin_search.rs:16-30: `BinSearchSelect.mk`, `rankSupport`. -/
def new (s : S) : BinSearchSelect S := ⟨s⟩
def inner (s : BinSearchSelect S) : S := s.rankSupport

/-- `impl BitVec`, select/bin_search.rs:33-35. -/
def bitVec (o : BitVecOps w S) : BitVecOps w (BinSearchSelect S) := adaptBitVec rankSupport o

/-- `impl RankSupport`, `BitRankSupport`, select/bin_search.rs:37-43, by the adapter macros of
macros.rs:60-92. -/
def rankOps (r : RankOps S) : RankOps (BinSearchSelect S) where
  rank s := r.rank s.rankSupport
  limit s := r.limit s.rankSupport
  rank1 s := r.rank1 s.rankSupport
  rank0 s := r.rank0 s.rankSupport

/-- `select1` and `select0`, select/bin_search.rs:55-58, and `select`, 69-72, for a given rank function. -/
def selectBy (c : Cfg) (r : RankOps S) (rank : S → Nat → Res Nat) (s : BinSearchSelect S) (index : Nat) :
    Res (Option Nat) := do
  let n ← (rankOps r).limit s
  let v ← addN c 64 index 1
  binarySearch c 64 0 n v (fun i => rank s.rankSupport i)

/-- `select1`, select/bin_search.rs:55-58 and 63. -/
def select1 (c : Cfg) (r : RankOps S) : BinSearchSelect S → Nat → Res (Option Nat) := selectBy c r r.rank1
/-- `select0`, select/bin_search.rs:55-58 and 64. -/
def select0 (c : Cfg) (r : RankOps S) : BinSearchSelect S → Nat → Res (Option Nat) := selectBy c r r.rank0
/-- `select`, select/bin_search.rs:69-72. -/
def select (c : Cfg) (r : RankOps S) (s : BinSearchSelect S) (index : Nat) (value : Bool) : Res (Option Nat) :=
  selectBy c r (fun s i => r.rank s i value) s index

end BinSearchSelect

/-- `trait Select1Support`, `Select0Support` and `SelectSupport` over bits, select/traits.rs:1-20. -/
structure SelectOps (S : Type) where
  select1 : S → Nat → Res (Option Nat)
  select0 : S → Nat → Res (Option Nat)
  select : S → Nat → Bool → Res (Option Nat)

/-- `impl Select1Support`, `Select0Support`, `SelectSupport for BinSearchSelect`, select/bin_search.rs:45-73. -/
def BinSearchSelect.ops (c : Cfg) (r : RankOps S) : SelectOps (BinSearchSelect S) where
  select1 := BinSearchSelect.select1 c r
  select0 := BinSearchSelect.select0 c r
  select := BinSearchSelect.select c r

/-- `impl_rank_support_adapter!` and `impl_bit_rank_support_adapter!`, macros.rs:60-92, for a type `T` with the given
field. -/
def adaptRank (field : T → S) (r : RankOps S) : RankOps T where
  rank t := r.rank (field t)
  limit t := r.limit (field t)
  rank1 t := r.rank1 (field t)
  rank0 t := r.rank0 (field t)

/-- `impl_select1_support_adapter!`, `impl_select0_support_adapter!` and `impl_select_support_adapter!`,
macros.rs:95-133; exported, not used in the crate itself. -/
def adaptSelect (field : T → S) (o : SelectOps S) : SelectOps T where
  select1 t := o.select1 (field t)
  select0 t := o.select0 (field t)
  select t := o.select (field t)

end Succinct
