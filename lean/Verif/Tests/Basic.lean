import Verif.Rust
/-!
The tests of the crate, transcribed into the model. A `#[test]` function becomes a function `Cfg → Res Unit` with
`assert_eq!` as `assertEq`; `passes` runs it in all four build configurations and `panics` (for `#[should_panic]`)
in the two with overflow checks, which is how `cargo test` builds. These are tests of the model against the source's
own expectations, not proofs; functions that the kernel can evaluate are checked by `decide`, the others are run by
`#guard`.
-/
namespace Succinct.Tests

/-- All build configurations. -/
def cfgs : List Cfg := [⟨true, .p64, true⟩, ⟨false, .p64, false⟩, ⟨true, .p32, true⟩, ⟨false, .p32, false⟩]

/-- `assert_eq!` -/
def assertEq [DecidableEq α] (expected actual : α) : Res Unit := assertR (expected = actual)

/-- `.unwrap()` of the `io::Result` of a stream operation, together with the new stream. -/
def unwrap (x : Res (Except IoErr α × σ)) : Res (α × σ) := do
  match ← x with
  | (.ok a, s) => .ok (a, s)
  | (.error _, _) => .panic

/-- A test that is expected to pass. -/
def passes (t : Cfg → Res Unit) : Bool := cfgs.all fun c => decide (t c = .ok ())

/-- A test marked `#[should_panic]`. -/
def panics (t : Cfg → Res α) : Bool :=
  cfgs.all fun c => !c.debug || match t c with | .panic => true | _ => false

end Succinct.Tests
