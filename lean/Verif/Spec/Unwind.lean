import Verif.Spec.BitVector
import Verif.Spec.IntVector
/-!
# Sequences of calls in which every panic is caught

A call that must panic returns nothing and changes nothing; the sequence goes on.
-/
namespace Succinct.Spec

/-- the outputs (`none`: the call panicked) and the final value -/
def catchRun (step : A → Op → Option (Out × A)) (a : A) : List Op → List (Option Out) × A
  | [] => ([], a)
  | op :: ops =>
    match step a op with
    | some (o, a') => (some o :: (catchRun step a' ops).1, (catchRun step a' ops).2)
    | none => (none :: (catchRun step a ops).1, (catchRun step a ops).2)

/-- every call of the sequence is allowed where it is made -/
def catchOk (step : A → Op → Option (Out × A)) (ok : A → Op → Prop) (a : A) : List Op → Prop
  | [] => True
  | op :: ops => ok a op ∧ catchOk step ok (match step a op with | some (_, a') => a' | none => a) ops

end Succinct.Spec
