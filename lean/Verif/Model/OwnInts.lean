import Verif.Model.Coding
/-!
# Model of the coders over streams with integer methods of their own

`read_int`, `read_int_be`, `write_int` and `write_int_be` are default methods (stream/traits.rs:14-61 and
69-90), so an implementation of `BitRead` or `BitWrite` outside the crate may replace them; `Verif.Model.Coding`
fixes them to the defaults. Here they are entries of the dictionary, and the coders of `src/coding/*.rs` that
call them are modelled a second time. The methods are generic in the integer type; the coders call them at `u64`
only, so the entries are at `u64`.
-/
namespace Succinct

/-- `trait BitRead` with all its methods, stream/traits.rs:8-62. -/
structure BitReadI (σ : Type) extends BitRead σ where
  readInt : Nat → SM σ (Option (BitVec 64))
  readIntBe : Nat → SM σ (Option (BitVec 64))

/-- `trait BitWrite` with all its methods, stream/traits.rs:65-91. -/
structure BitWriteI (σ : Type) extends BitWrite σ where
  writeInt : Nat → BitVec 64 → SM σ Unit
  writeIntBe : Nat → BitVec 64 → SM σ Unit

/-- An implementation that defines `read_bit` only. -/
def BitRead.dflt (c : Cfg) (R : BitRead σ) : BitReadI σ :=
  { R with readInt := Succinct.readInt c R 64, readIntBe := Succinct.readIntBe c R 64 }

/-- An implementation that defines `write_bit` only. -/
def BitWrite.dflt (c : Cfg) (W : BitWrite σ) : BitWriteI σ :=
  { W with writeInt := Succinct.writeInt c false W, writeIntBe := Succinct.writeIntBe c false W }

/-- `trait UniversalCode`, coding/traits.rs:7-17. -/
structure CodeI where
  encode : {σ : Type} → BitWriteI σ → Nat → SM σ Unit
  decode : {σ : Type} → BitReadI σ → SM σ (Option Nat)

namespace OwnInts

/-- A coder that calls none of the four methods: `Unary` and `Fibonacci`. -/
def plain (K : Code) : CodeI := ⟨fun W => K.encode W.toBitWrite, fun R => K.decode R.toBitRead⟩

/-- `Elias::encode`, elias.rs:31-37. -/
def Elias.encode (c : Cfg) (H : CodeI) (W : BitWriteI σ) (value : Nat) : SM σ Unit := do
  SM.lift (assertR (value ≠ 0))
  let a ← SM.lift (subN c 32 64 1)
  let nbits ← SM.lift (subN c 32 a (leadingZeros 64 value))
  H.encode W nbits
  W.writeInt nbits (BitVec.ofNat 64 value)

/-- `Elias::decode`, elias.rs:39-54. -/
def Elias.decode (c : Cfg) (H : CodeI) (R : BitReadI σ) : SM σ (Option Nat) := do
  match ← H.decode R with
  | some nbits => do
    let m ← SM.lift (subN c 64 64 1)
    if nbits > m then tooManyBits
    else do
      match ← R.readInt (asUsize c nbits) with
      | some lowBits => do
        let hi ← SM.lift (shlN c 64 1 nbits)
        pure (some (lowBits.toNat ||| hi))
      | none => outOfBits
  | none => pure none

/-- `Lift0::encode`, trans.rs:12-18. -/
def Lift0.encode (K : CodeI) (W : BitWriteI σ) (value : Nat) : SM σ Unit :=
  match checkedAdd 64 value 1 with
  | some value => K.encode W value
  | none => tooManyBits

/-- `Lift0::decode`, trans.rs:20-25. -/
def Lift0.decode (c : Cfg) (K : CodeI) (R : BitReadI σ) : SM σ (Option Nat) := do
  match ← K.decode R with
  | some n => do
    let m ← SM.lift (subN c 64 n 1)
    pure (some m)
  | none => pure none

/-- The second loop of `Omega::encode`, elias.rs:67-69. -/
def Omega.pop (W : BitWriteI σ) : List (Nat × Nat) → SM σ Unit
  | [] => pure ()
  | (nbits, value) :: stack => do
    W.writeIntBe nbits (BitVec.ofNat 64 value)
    Omega.pop W stack

/-- `Omega::encode`, elias.rs:58-73. -/
def Omega.encode (c : Cfg) (W : BitWriteI σ) (value : Nat) : SM σ Unit := do
  let stack ← SM.lift (Succinct.Omega.push c [] value)
  Omega.pop W stack
  W.writeBit false

/-- The loop of `Omega::decode`, elias.rs:78-93. -/
def Omega.decodeLoop (c : Cfg) (R : BitReadI σ) (result : Nat) : SM σ (Option Nat) := do
  match ← R.readBit with
  | some bit =>
    if !bit then pure (some result)
    else do
      match ← R.readIntBe (asUsize c result) with
      | some next => do
        let hi ← SM.lift (shlN c 64 1 (result % 2 ^ 32))
        Omega.decodeLoop c R (next.toNat ||| hi)
      | none => outOfBits
  | none => if result = 1 then pure none else outOfBits
partial_fixpoint

/-- The second loop of `Comma::encode`, comma.rs:21-23. -/
def Comma.pop (W : BitWriteI σ) (n : Nat) : List Nat → SM σ Unit
  | [] => pure ()
  | digit :: stack => do
    W.writeInt n (BitVec.ofNat 64 digit)
    Comma.pop W n stack

/-- `Comma::encode`, comma.rs:12-28. -/
def Comma.encode (c : Cfg) (n : Nat) (W : BitWriteI σ) (value : Nat) : SM σ Unit := do
  let b ← SM.lift (Succinct.Comma.base c n)
  let stack ← SM.lift (Succinct.Comma.push b [] value)
  Comma.pop W n stack
  W.writeInt n (BitVec.ofNat 64 b)

/-- The loop of `Comma::decode`, comma.rs:35-46. -/
def Comma.decodeLoop (c : Cfg) (n base : Nat) (R : BitReadI σ) (result : Nat) (consumed : Bool) : SM σ (Option Nat) := do
  match ← R.readInt n with
  | some digit =>
    if digit.toNat = base then pure (some result)
    else do
      let a ← SM.lift (mulN c 64 result base)
      let result ← SM.lift (addN c 64 a digit.toNat)
      Comma.decodeLoop c n base R result true
  | none => if consumed then outOfBits else pure none
partial_fixpoint

/-- `Comma::decode`, comma.rs:30-47. -/
def Comma.decode (c : Cfg) (n : Nat) (R : BitReadI σ) : SM σ (Option Nat) := do
  let b ← SM.lift (Succinct.Comma.base c n)
  Comma.decodeLoop c n b R 0 false

/-- `impl UniversalCode for Unary`, unary.rs:8-38. -/
def unary (c : Cfg) : CodeI := plain (Succinct.unary c)
/-- `impl UniversalCode for Fibonacci`, fib.rs:39-95. -/
def fibonacci (c : Cfg) : CodeI := plain (Succinct.fibonacci c)
/-- `impl UniversalCode for Elias<Header>`, elias.rs:30-55. -/
def elias (c : Cfg) (H : CodeI) : CodeI := ⟨Elias.encode c H, Elias.decode c H⟩
/-- `impl UniversalCode for Lift0<Code>`, trans.rs:11-26. -/
def lift0 (c : Cfg) (K : CodeI) : CodeI := ⟨Lift0.encode K, Lift0.decode c K⟩
/-- `GAMMA`, elias.rs:14-17. -/
def gamma (c : Cfg) : CodeI := elias c (unary c)
/-- `DELTA`, elias.rs:20-23. -/
def delta (c : Cfg) : CodeI := elias c (lift0 c (gamma c))
/-- `impl UniversalCode for Omega`, elias.rs:57-95. -/
def omegaCode (c : Cfg) : CodeI := ⟨Omega.encode c, fun R => Omega.decodeLoop c R 1⟩
/-- `impl UniversalCode for Comma`, comma.rs:11-48. -/
def comma (c : Cfg) (n : Nat) : CodeI := ⟨Comma.encode c n, Comma.decode c n⟩

end OwnInts
end Succinct
