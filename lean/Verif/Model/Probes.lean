import Verif.Model.Select
/-! Binary search with a count of the calls of `f` (src/internal/search.rs, src/select/bin_search.rs).

The definitions repeat those of `Model/Select.lean` and add a counter, increased at each place where the Rust code
calls `f`; `Props/Search.lean` proves that forgetting the counter gives the original definitions. -/
namespace Succinct

/-- The loop of `binary_search_function`, internal/search.rs:29-43, and the number of calls of `f`. -/
def searchLoopN (c : Cfg) (bits : Nat) (f : Nat → Res Nat) (value start limit calls : Nat) : Res (Option Nat × Nat) := do
  if start < limit then do
    let mid ← average c bits start limit
    let y ← f mid
    if value ≤ y then do
      let m ← subN c bits mid 1
      let z ← f m
      if z < value then .ok (some mid, calls + 2)
      else searchLoopN c bits f value start mid (calls + 2)
    else do
      let start ← addN c bits mid 1
      searchLoopN c bits f value start limit (calls + 1)
  else .ok (none, calls)
partial_fixpoint

/-- `binary_search_function`, internal/search.rs:16-44, and the number of calls of `f`. -/
def binarySearchN (c : Cfg) (bits start limit value : Nat) (f : Nat → Res Nat) : Res (Option Nat × Nat) := do
  if limit ≤ start then .ok (none, 0)
  else do
    let y ← f start
    if value ≤ y then .ok (some start, 1)
    else do
      let start ← addN c bits start 1
      searchLoopN c bits f value start limit 1

namespace BinSearchSelect

/-- `select1` and `select0`, select/bin_search.rs:55-58, and `select`, 69-72, and the number of rank queries. -/
def selectByN (c : Cfg) (r : RankOps S) (rank : S → Nat → Res Nat) (s : BinSearchSelect S) (index : Nat) :
    Res (Option Nat × Nat) := do
  let n ← (rankOps r).limit s
  let v ← addN c 64 index 1
  binarySearchN c 64 0 n v (fun i => rank s.rankSupport i)

end BinSearchSelect

end Succinct
