import Verif.Spec.Codes
/-! # The codes that can be built, by name -/
namespace Succinct.Spec

/-- the codes of the crate; `GAMMA` is `elias unary`, `DELTA` is `elias (lift0 (elias unary))` -/
inductive CodeName where
  | unary
  | omega
  | comma (n : Nat)
  | fibonacci
  | elias (header : CodeName)
  | lift0 (code : CodeName)
deriving DecidableEq, Repr

/-- the values a code can represent -/
def CodeName.Dom : CodeName → Nat → Prop
  | .unary, v => v < 2 ^ 64
  | .omega, v => 1 ≤ v ∧ v < 2 ^ 64
  | .comma _, v => v < 2 ^ 64
  | .fibonacci, v => 1 ≤ v ∧ v < fib 93
  | .elias _, v => 1 ≤ v ∧ v < 2 ^ 64
  | .lift0 k, v => k.Dom (v + 1) ∧ v + 1 < 2 ^ 64

/-- `l` is the codeword of `v` -/
def CodeName.IsWord : CodeName → Nat → List Bool → Prop
  | .unary, v, l => l = unaryWord v
  | .omega, v, l => l = omegaWord v
  | .comma n, v, l => l = commaWord n v
  | .fibonacci, v, l => IsFibWord v l
  | .elias k, v, l => ∃ h, k.IsWord v.log2 h ∧ l = h ++ natBits v.log2 v
  | .lift0 k, v, l => k.IsWord (v + 1) l

/-- digits of 2 to 63 bits; a header that can represent 0 to 63 -/
def CodeName.Valid : CodeName → Prop
  | .comma n => 2 ≤ n ∧ n ≤ 63
  | .elias k => k.Valid ∧ ∀ n < 64, k.Dom n
  | .lift0 k => k.Valid
  | _ => True

end Succinct.Spec
