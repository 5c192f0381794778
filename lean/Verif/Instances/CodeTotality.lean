import Verif.Instances.Data
import Verif.Props.CodeTotality
/-! `Verif.Props.CodeTotality`: each theorem applied to concrete data, see `Verif.Instances.Data`. -/
namespace Succinct.Ex
open Succinct Spec

example := C96_decode_ends cfg (K := delta cfg) (.elias (.lift0 (.elias .unary))) exhausts_deque bits
example := C96_encode_hangs_iff cfg (.elias (.comma 1)) (W := dequeWrite) (fun b s h => by cases h) (v := 5) (by decide) bits
example := C96_fibonacci_always_ends cfg (R := dequeRead) (fun s => (exhausts_deque.choose_spec s).1) bits
example := C96_unary_endless rel rfl (σ := Unit) (R := ⟨fun s => .ok (.ok (some false), s)⟩) (fun _ => rfl) ()

end Succinct.Ex
