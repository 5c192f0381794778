import Verif.Model.Iter
/-!
# Standard adaptors over the iterators of the crate

The iterators of the crate implement `next`, `nth` and `next_back`, and (vector_base.rs:398-412; bit_vector.rs:282-287 and
int_vector.rs:387-392 on 64-bit targets only) `len`. The adaptors `rev`, `skip`, `take` and `step_by` of std call these
methods. What std does is assumed: the definitions below follow core/src/iter/adapters/{rev,skip,take,step_by}.rs and the
defaults of core/src/iter/traits.
-/
namespace Succinct

/-- The methods of `Iterator`, `DoubleEndedIterator` and `ExactSizeIterator` that the adaptors call. -/
structure IterOps (I A : Type) where
  next : I → Res (Option A × I)
  nth : Nat → I → Res (Option A × I)
  nextBack : I → Res (Option A × I)
  nthBack : Nat → I → Res (Option A × I)
  len : I → Res Nat

/-- The default of `DoubleEndedIterator::nth_back` (std): `n` times `next_back`, stopping at `None`, and once more. -/
def dfltNthBack (nextBack : I → Res (Option A × I)) : Nat → I → Res (Option A × I)
  | 0, s => nextBack s
  | n + 1, s => do
    let (o, s) ← nextBack s
    match o with
    | some _ => dfltNthBack nextBack n s
    | none => .ok (none, s)

/-- `vector_base::Iter`, vector_base.rs:349-425, and `int_vector::Iter`, which forwards every call, int_vector.rs:359-398. -/
def viterOps (c : Cfg) (w : Nat) : IterOps (VIter w) (BitVec w) :=
  { next := VIter.next c, nth := fun n it => VIter.nth c it n, nextBack := VIter.nextBack c,
    nthBack := dfltNthBack (VIter.nextBack c), len := VIter.len c }

/-- `bit_vector::Iter`, bit_vector.rs:253-292. -/
def bitIterOps (c : Cfg) (w : Nat) : IterOps (VIter w) Bool :=
  let item := fun (p : Option (BitVec w) × VIter w) => Res.ok (p.1.map bitItem, p.2)
  let nextBack := fun it => do item (← VIter.nextBack c it)
  { next := fun it => do item (← VIter.next c it)
    nth := fun n it => do item (← VIter.nth c it n)
    nextBack := nextBack
    nthBack := dfltNthBack nextBack
    len := VIter.len c }

/-- `Rev` (std). -/
def revOps (O : IterOps I A) : IterOps I A :=
  { next := O.nextBack, nth := O.nthBack, nextBack := O.next, nthBack := O.nth, len := O.len }

/-- `Skip` (std); the number is what is still to be skipped. -/
def skipOps (c : Cfg) (O : IterOps I A) : IterOps (Nat × I) A :=
  let len := fun (s : Nat × I) => do
    let l ← O.len s.2
    Res.ok (l - s.1)
  { next := fun s =>
      if s.1 > 0 then do
        let (o, it) ← O.nth s.1 s.2
        .ok (o, 0, it)
      else do
        let (o, it) ← O.next s.2
        .ok (o, 0, it)
    nth := fun m s =>
      if s.1 > 0 then
        match checkedAdd c.usz s.1 m with
        | some n => do
          let (o, it) ← O.nth n s.2
          .ok (o, 0, it)
        | none => do
          let (o, it) ← O.nth (s.1 - 1) s.2
          match o with
          | none => .ok (none, 0, it)
          | some _ => do
            let (o, it) ← O.nth m it
            .ok (o, 0, it)
      else do
        let (o, it) ← O.nth m s.2
        .ok (o, 0, it)
    nextBack := fun s => do
      let l ← len s
      if l > 0 then do
        let (o, it) ← O.nextBack s.2
        .ok (o, s.1, it)
      else .ok (none, s)
    nthBack := fun m s => do
      let l ← len s
      if m < l then do
        let (o, it) ← O.nthBack m s.2
        .ok (o, s.1, it)
      else if l > 0 then do
        let (_, it) ← O.nthBack (l - 1) s.2
        .ok (none, s.1, it)
      else .ok (none, s)
    len := len }

/-- `Take` (std); the number is what may still be taken. -/
def takeOps (O : IterOps I A) : IterOps (Nat × I) A :=
  { next := fun s =>
      if s.1 ≠ 0 then do
        let (o, it) ← O.next s.2
        .ok (o, s.1 - 1, it)
      else .ok (none, s)
    nth := fun m s =>
      if s.1 > m then do
        let (o, it) ← O.nth m s.2
        .ok (o, s.1 - (m + 1), it)
      else if s.1 > 0 then do
        let (_, it) ← O.nth (s.1 - 1) s.2
        .ok (none, 0, it)
      else .ok (none, s)
    nextBack := fun s =>
      if s.1 = 0 then .ok (none, s)
      else do
        let l ← O.len s.2
        let (o, it) ← O.nthBack (l - s.1) s.2
        .ok (o, s.1 - 1, it)
    nthBack := fun m s => do
      let l ← O.len s.2
      if s.1 > m then do
        let (o, it) ← O.nthBack (l - s.1 + m) s.2
        .ok (o, s.1 - (m + 1), it)
      else if l > 0 then do
        let (_, it) ← O.nthBack (l - 1) s.2
        .ok (none, s.1, it)
      else .ok (none, s)
    len := fun s =>
      if s.1 = 0 then .ok 0
      else do
        let l ← O.len s.2
        .ok (min l s.1) }

/-- `StepBy` (std): the step less one, whether the first element is still to be taken, and the iterator. -/
structure StepSt (I : Type) where
  stepMinusOne : Nat
  firstTake : Bool
  it : I

/-- `StepBy::next` (std). -/
def stepNext (O : IterOps I A) (s : StepSt I) : Res (Option A × StepSt I) := do
  let (o, it) ← O.nth (if s.firstTake then 0 else s.stepMinusOne) s.it
  .ok (o, ⟨s.stepMinusOne, false, it⟩)

/-- `StepBy::next_back` (std). -/
def stepNextBack (O : IterOps I A) (s : StepSt I) : Res (Option A × StepSt I) := do
  let l ← O.len s.it
  let rem := l % (s.stepMinusOne + 1)
  let n := if s.firstTake then (if rem = 0 then s.stepMinusOne else rem - 1) else rem
  let (o, it) ← O.nthBack n s.it
  .ok (o, ⟨s.stepMinusOne, s.firstTake, it⟩)

/-- The loop of `StepBy::nth` (std), which divides the way when `n * step` does not fit `usize`. -/
def stepNthLoop (c : Cfg) (O : IterOps I A) (n step : Nat) (it : I) : Res (Option A × I) :=
  match checkedMul c.usz n step with
  | some m => O.nth (m - 1) it
  | none => do
    let divN := (2 ^ c.usz - 1) / n
    let divStep := (2 ^ c.usz - 1) / step
    let nthN := divN * n
    let nthStep := divStep * step
    if nthN > nthStep then do
      let (_, it) ← O.nth (nthN - 1) it
      stepNthLoop c O n (step - divN) it
    else do
      let (_, it) ← O.nth (nthStep - 1) it
      stepNthLoop c O (n - divStep) step it
partial_fixpoint

/-- `StepBy::nth` (std) after the first element; `n + 1` need not fit `usize`. -/
def stepNthRest (c : Cfg) (O : IterOps I A) (step n : Nat) (it : I) : Res (Option A × I) :=
  if n = 2 ^ c.usz - 1 then do
    let (_, it) ← O.nth (step - 1) it
    stepNthLoop c O n step it
  else do
    let n ← addN c c.usz n 1
    stepNthLoop c O n step it

/-- `StepBy` (std) with all its methods. -/
def stepOps (c : Cfg) (O : IterOps I A) : IterOps (StepSt I) A :=
  { next := stepNext O
    nth := fun n s => do
      if s.firstTake then do
        let (o, it) ← O.next s.it
        if n = 0 then .ok (o, ⟨s.stepMinusOne, false, it⟩)
        else do
          let (o, it) ← stepNthRest c O (s.stepMinusOne + 1) (n - 1) it
          .ok (o, ⟨s.stepMinusOne, false, it⟩)
      else do
        let (o, it) ← stepNthRest c O (s.stepMinusOne + 1) n s.it
        .ok (o, ⟨s.stepMinusOne, false, it⟩)
    nextBack := stepNextBack O
    nthBack := fun n s => do
      let l ← O.len s.it
      let rem := l % (s.stepMinusOne + 1)
      let i := if s.firstTake then (if rem = 0 then s.stepMinusOne else rem - 1) else rem
      let (o, it) ← O.nthBack (min (min (n * (s.stepMinusOne + 1)) (2 ^ c.usz - 1) + i) (2 ^ c.usz - 1)) s.it
      .ok (o, ⟨s.stepMinusOne, s.firstTake, it⟩)
    len := fun s => do
      let l ← O.len s.it
      if s.firstTake then .ok (if l = 0 then 0 else 1 + (l - 1) / (s.stepMinusOne + 1))
      else .ok (l / (s.stepMinusOne + 1)) }

/-- `collect` with `next` alone. -/
def collectWith (next : I → Res (Option A × I)) (s : I) (acc : List A) : Res (List A × I) := do
  let (o, s) ← next s
  match o with
  | some a => collectWith next s (acc ++ [a])
  | none => .ok (acc, s)
partial_fixpoint

end Succinct
