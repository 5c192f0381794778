import Verif.Model.Stream
/-!
# Model of `src/coding/*.rs`

A `u64` is a `Nat` below 2^64; every operation on it that can overflow is a checked operation of
`Verif.Rust`. A `Vec` used as a stack is a list with the top first.
-/
namespace Succinct

/-- `trait UniversalCode`, coding/traits.rs:7-17. -/
structure Code where
  encode : {σ : Type} → BitWrite σ → Nat → SM σ Unit
  decode : {σ : Type} → BitRead σ → SM σ (Option Nat)

/-- `while let Some(bit) = stack.pop() { try!(sink.write_bit(bit)) }` -/
def popBits (W : BitWrite σ) : List Bool → SM σ Unit
  | [] => pure ()
  | b :: stack => do
    W.writeBit b
    popBits W stack

/-! ### Unary -/
namespace Unary

/-- `Unary::encode`, unary.rs:9-18: the `while` loop counts `value` down to 0. -/
def encode (W : BitWrite σ) : Nat → SM σ Unit
  | 0 => W.writeBit true
  | value + 1 => do
    W.writeBit false
    encode W value

/-- The loop of `Unary::decode`, unary.rs:24-36. -/
def decodeLoop (c : Cfg) (R : BitRead σ) (result : Nat) (consumed : Bool) : SM σ (Option Nat) := do
  match ← R.readBit with
  | some bit =>
    if bit then pure (some result)
    else do
      let result ← SM.lift (addN c 64 result 1)
      decodeLoop c R result true
  | none => if consumed then outOfBits else pure none
partial_fixpoint

/-- `Unary::decode`, unary.rs:20-37. -/
def decode (c : Cfg) (R : BitRead σ) : SM σ (Option Nat) := decodeLoop c R 0 false

end Unary

/-- `impl UniversalCode for Unary`, unary.rs:8-38. -/
def unary (c : Cfg) : Code := ⟨Unary.encode, Unary.decode c⟩

/-! ### Elias -/
namespace Elias

/-- `Elias::encode`, elias.rs:31-37. `WORD_BITS` and `leading_zeros()` are `u32`s. -/
def encode (c : Cfg) (H : Code) (W : BitWrite σ) (value : Nat) : SM σ Unit := do
  SM.lift (assertR (value ≠ 0))
  let a ← SM.lift (subN c 32 64 1)
  let nbits ← SM.lift (subN c 32 a (leadingZeros 64 value))
  H.encode W nbits
  writeInt c false W nbits (BitVec.ofNat 64 value)

/-- `Elias::decode`, elias.rs:39-54. -/
def decode (c : Cfg) (H : Code) (R : BitRead σ) : SM σ (Option Nat) := do
  match ← H.decode R with
  | some nbits => do
    let m ← SM.lift (subN c 64 64 1)
    if nbits > m then tooManyBits
    else do
      match ← readInt c R 64 (asUsize c nbits) with
      | some lowBits => do
        let hi ← SM.lift (shlN c 64 1 nbits)
        pure (some (lowBits.toNat ||| hi))
      | none => outOfBits
  | none => pure none

end Elias

/-- `impl UniversalCode for Elias<Header>`, elias.rs:30-55. -/
def elias (c : Cfg) (H : Code) : Code := ⟨Elias.encode c H, Elias.decode c H⟩

/-! ### Lift0 -/
namespace Lift0

/-- `Lift0::encode`, trans.rs:12-18. -/
def encode (K : Code) (W : BitWrite σ) (value : Nat) : SM σ Unit :=
  match checkedAdd 64 value 1 with
  | some value => K.encode W value
  | none => tooManyBits

/-- `Lift0::decode`, trans.rs:20-25. -/
def decode (c : Cfg) (K : Code) (R : BitRead σ) : SM σ (Option Nat) := do
  match ← K.decode R with
  | some n => do
    let m ← SM.lift (subN c 64 n 1)
    pure (some m)
  | none => pure none

end Lift0

/-- `impl UniversalCode for Lift0<Code>`, trans.rs:11-26. -/
def lift0 (c : Cfg) (K : Code) : Code := ⟨Lift0.encode K, Lift0.decode c K⟩

/-- `GAMMA`, elias.rs:14-17. -/
def gamma (c : Cfg) : Code := elias c (unary c)
/-- `DELTA`, elias.rs:20-23. -/
def delta (c : Cfg) : Code := elias c (lift0 c (gamma c))

/-! ### Omega -/
namespace Omega

/-- The first loop of `Omega::encode`, elias.rs:61-65. -/
def push (c : Cfg) (stack : List (Nat × Nat)) (value : Nat) : Res (List (Nat × Nat)) :=
  if value > 1 then do
    let nbits ← subN c 32 64 (leadingZeros 64 value)
    let v ← subN c 64 nbits 1
    push c ((nbits, value) :: stack) v
  else .ok stack
partial_fixpoint

/-- The second loop, elias.rs:67-69. -/
def pop (c : Cfg) (W : BitWrite σ) : List (Nat × Nat) → SM σ Unit
  | [] => pure ()
  | (nbits, value) :: stack => do
    writeIntBe c false W nbits (BitVec.ofNat 64 value)
    pop c W stack

/-- `Omega::encode`, elias.rs:58-73. -/
def encode (c : Cfg) (W : BitWrite σ) (value : Nat) : SM σ Unit := do
  let stack ← SM.lift (push c [] value)
  pop c W stack
  W.writeBit false

/-- The loop of `Omega::decode`, elias.rs:78-93. `1 << result as u32` is `1 << (result as u32)`. -/
def decodeLoop (c : Cfg) (R : BitRead σ) (result : Nat) : SM σ (Option Nat) := do
  match ← R.readBit with
  | some bit =>
    if !bit then pure (some result)
    else do
      match ← readIntBe c R 64 (asUsize c result) with
      | some next => do
        let hi ← SM.lift (shlN c 64 1 (result % 2 ^ 32))
        decodeLoop c R (next.toNat ||| hi)
      | none => outOfBits
  | none => if result = 1 then pure none else outOfBits
partial_fixpoint

/-- `Omega::decode`, elias.rs:75-94. -/
def decode (c : Cfg) (R : BitRead σ) : SM σ (Option Nat) := decodeLoop c R 1

end Omega

/-- `impl UniversalCode for Omega`, elias.rs:57-95. -/
def omegaCode (c : Cfg) : Code := ⟨Omega.encode c, Omega.decode c⟩

/-! ### Comma -/
namespace Comma

/-- `(1 << self.0) - 1`, comma.rs:13 and 31. -/
def base (c : Cfg) (n : Nat) : Res Nat := do
  let a ← shlN c 64 1 n
  subN c 64 a 1

/-- The first loop of `Comma::encode`, comma.rs:16-19. -/
def push (base : Nat) (stack : List Nat) (value : Nat) : Res (List Nat) :=
  if value > 0 then do
    let d ← remN value base
    let v ← divN value base
    push base (d :: stack) v
  else .ok stack
partial_fixpoint

/-- The second loop, comma.rs:21-23. -/
def pop (c : Cfg) (W : BitWrite σ) (n : Nat) : List Nat → SM σ Unit
  | [] => pure ()
  | digit :: stack => do
    writeInt c false W n (BitVec.ofNat 64 digit)
    pop c W n stack

/-- `Comma::encode`, comma.rs:12-28; `n` is `self.0`, a `u8`. -/
def encode (c : Cfg) (n : Nat) (W : BitWrite σ) (value : Nat) : SM σ Unit := do
  let b ← SM.lift (base c n)
  let stack ← SM.lift (push b [] value)
  pop c W n stack
  writeInt c false W n (BitVec.ofNat 64 b)

/-- The loop of `Comma::decode`, comma.rs:35-46. -/
def decodeLoop (c : Cfg) (n base : Nat) (R : BitRead σ) (result : Nat) (consumed : Bool) : SM σ (Option Nat) := do
  match ← readInt c R 64 n with
  | some digit =>
    if digit.toNat = base then pure (some result)
    else do
      let a ← SM.lift (mulN c 64 result base)
      let result ← SM.lift (addN c 64 a digit.toNat)
      decodeLoop c n base R result true
  | none => if consumed then outOfBits else pure none
partial_fixpoint

/-- `Comma::decode`, comma.rs:30-47. -/
def decode (c : Cfg) (n : Nat) (R : BitRead σ) : SM σ (Option Nat) := do
  let b ← SM.lift (base c n)
  decodeLoop c n b R 0 false

end Comma

/-- `impl UniversalCode for Comma`, comma.rs:11-48. -/
def comma (c : Cfg) (n : Nat) : Code := ⟨Comma.encode c n, Comma.decode c n⟩

/-! ### Fibonacci -/

/-- `struct Fib`, fib.rs:10-13. -/
structure Fib where
  i1 : Nat
  i : Nat
deriving DecidableEq, Repr

namespace Fib

/-- `Fib::new`, fib.rs:16-21. -/
def new : Fib := ⟨1, 1⟩

/-- `Fib::next`, fib.rs:23-31. `none` is the `Err` of `too_many_bits`. -/
def next (f : Fib) : Option Fib :=
  match checkedAdd 64 f.i1 f.i with
  | some next => some ⟨f.i, next⟩
  | none => none

/-- `Fib::prev`, fib.rs:33-36. -/
def prev (c : Cfg) (f : Fib) : Res Fib := do
  let i ← subN c 64 f.i f.i1
  .ok ⟨i, f.i1⟩

end Fib

namespace Fibonacci

/-- `try!(fib.next())` -/
def tryNext (f : Fib) : SM σ Fib :=
  match f.next with
  | some f => pure f
  | none => tooManyBits

/-- The first loop of `Fibonacci::encode`, fib.rs:46-48. -/
def climb (value : Nat) (f : Fib) : SM σ Fib :=
  if f.i ≤ value then do
    let f ← tryNext f
    climb value f
  else pure f
partial_fixpoint

/-- The second loop, fib.rs:53-62. -/
def descend (c : Cfg) (f : Fib) (value : Nat) (stack : List Bool) : Res (List Bool) :=
  if f.i > 1 then do
    let (value, stack) ← (if f.i1 ≤ value then do
        let v ← subN c 64 value f.i1
        .ok (v, true :: stack)
      else .ok (value, false :: stack))
    let f ← f.prev c
    descend c f value stack
  else .ok stack
partial_fixpoint

/-- `Fibonacci::encode`, fib.rs:40-69. -/
def encode (c : Cfg) (W : BitWrite σ) (value : Nat) : SM σ Unit := do
  SM.lift (assertR (value ≠ 0))
  let f ← climb value Fib.new
  let stack ← SM.lift (descend c f value [true])
  popBits W stack

/-- The loop of `Fibonacci::decode`, fib.rs:76-93. -/
def decodeLoop (c : Cfg) (R : BitRead σ) (result : Nat) (f : Fib) (previous : Bool) : SM σ (Option Nat) := do
  match ← R.readBit with
  | some bit =>
    if bit && previous then pure (some result)
    else do
      let result ← SM.lift (if bit then addN c 64 result f.i else .ok result)
      let f ← tryNext f
      decodeLoop c R result f bit
  | none => if result = 0 then pure none else outOfBits
partial_fixpoint

/-- `Fibonacci::decode`, fib.rs:71-94. -/
def decode (c : Cfg) (R : BitRead σ) : SM σ (Option Nat) := decodeLoop c R 0 Fib.new false

end Fibonacci

/-- `impl UniversalCode for Fibonacci`, fib.rs:39-95. -/
def fibonacci (c : Cfg) : Code := ⟨Fibonacci.encode c, Fibonacci.decode c⟩

end Succinct
