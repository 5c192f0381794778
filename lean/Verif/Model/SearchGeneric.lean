import Verif.Model.Select
/-!
# Binary search and select at every type

`Model/Select.lean` has `binary_search_function` at the types the crate uses it with (`D = R = u64`) and
`BinSearchSelect::select` at `Over = bool`. Here both are modelled with the generality of the source: `D` any
primitive integer type, signed or not, `R` any type with a comparison, `Over` any type.
-/
namespace Succinct

/-- A primitive integer type: `u8` … `u64`, `usize` and `i8` … `i64`, `isize`. -/
structure PrimTy where
  signed : Bool
  bits : Nat
deriving DecidableEq, Repr

namespace PrimTy
/-- the least value -/
def lo (t : PrimTy) : Int := if t.signed then -(2 ^ (t.bits - 1) : Nat) else 0
/-- one more than the greatest value -/
def hi (t : PrimTy) : Int := if t.signed then (2 ^ (t.bits - 1) : Nat) else (2 ^ t.bits : Nat)
/-- the values of the type -/
def In (t : PrimTy) (x : Int) : Prop := t.lo ≤ x ∧ x < t.hi
instance (t : PrimTy) (x : Int) : Decidable (t.In x) := inferInstanceAs (Decidable (_ ∧ _))
/-- the value of the type congruent to `x` modulo `2^bits` -/
def wrap (t : PrimTy) (x : Int) : Int := t.lo + (x - t.lo) % (2 ^ t.bits : Nat)
end PrimTy

/-- A result that may lie outside the type: as it is if it fits, else an overflow. -/
def fitI (c : Cfg) (t : PrimTy) (x : Int) : Res Int :=
  if t.In x then .ok x else if c.debug then .panic else .ok (t.wrap x)

/-- `x >> 1`: the arithmetic shift for signed, the logical shift for unsigned types. -/
def half (x : Int) : Int := x / 2

/-- `average`, internal/search.rs:4-9; `x & 1` is the parity. -/
def averageG (c : Cfg) (t : PrimTy) (x y : Int) : Res Int := do
  let almost ← fitI c t (half x + half y)
  let s ← fitI c t (x % 2 + y % 2)
  fitI c t (almost + half s)

/-- The methods of `Ord` that are called: `>=` and `<`. -/
structure OrdOps (R : Type) where
  ge : R → R → Bool
  lt : R → R → Bool

/-- The loop of `binary_search_function`, internal/search.rs:29-43. -/
def searchLoopG (c : Cfg) (t : PrimTy) (o : OrdOps R) (f : Int → Res R) (value : R) (start limit : Int) :
    Res (Option Int) := do
  if start < limit then do
    let mid ← averageG c t start limit
    let y ← f mid
    if o.ge y value then do
      let m ← fitI c t (mid - 1)
      let z ← f m
      if o.lt z value then .ok (some mid)
      else searchLoopG c t o f value start mid
    else do
      let start ← fitI c t (mid + 1)
      searchLoopG c t o f value start limit
  else .ok none
partial_fixpoint

/-- `binary_search_function`, internal/search.rs:16-44. -/
def binarySearchG (c : Cfg) (t : PrimTy) (o : OrdOps R) (start limit : Int) (value : R) (f : Int → Res R) :
    Res (Option Int) := do
  if limit ≤ start then .ok none
  else do
    let y ← f start
    if o.ge y value then .ok (some start)
    else do
      let start ← fitI c t (start + 1)
      searchLoopG c t o f value start limit

/-- `trait RankSupport` over any `Over`, rank/traits.rs:6-27. -/
structure RankSup (S V : Type) where
  rank : S → Nat → V → Res Nat
  limit : S → Res Nat

/-- A bit rank structure is a rank structure over `bool`. -/
def RankOps.toSup (r : RankOps S) : RankSup S Bool := ⟨r.rank, r.limit⟩

/-- `impl RankSupport for BinSearchSelect`, select/bin_search.rs:37-39 (macros.rs:59-75). -/
def BinSearchSelect.rankSup (r : RankSup S V) : RankSup (BinSearchSelect S) V where
  rank s := r.rank s.rankSupport
  limit s := r.limit s.rankSupport

/-- `impl SelectSupport for BinSearchSelect`, select/bin_search.rs:66-73. -/
def BinSearchSelect.selectG (c : Cfg) (r : RankSup S V) (s : BinSearchSelect S) (index : Nat) (value : V) :
    Res (Option Nat) := do
  let n ← (rankSup r).limit s
  let v ← addN c 64 index 1
  binarySearch c 64 0 n v (fun i => (rankSup r).rank s i value)

end Succinct
