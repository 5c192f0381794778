import Verif.Instances.Data
import Verif.Props.OwnInts
/-! `Verif.Props.OwnInts`: each theorem applied to concrete data, see `Verif.Instances.Data`. -/
namespace Succinct.Ex
open Succinct Spec

example := C151_decode cfg (OwnCode.delta cfg) (C151_sources (fieldRead_own _ _) (C151_source_default cfg deque_source _ _) true)
example := C151_default cfg (OwnCode.delta cfg)
/-- The same sink with different counts of calls. -/
example := C151_encode cfg (OwnCode.delta cfg) (p := true) (R := fun s t : List Bool × Nat => s.1 = t.1) (D := fieldWrite) (D' := fieldWrite)
    ⟨fun b _ _ h => ⟨_, rfl, congrArg (· ++ [b]) h⟩, fun n v _ _ _ h => ⟨_, rfl, congrArg (· ++ natBits n v.toNat) h⟩,
      fun n v _ _ _ h => ⟨_, rfl, congrArg (· ++ (natBits n v.toNat).reverse) h⟩⟩ (v := 38) (by decide)
example := C151_omega_words cfg (fieldRead_own (fun _ => True) (fun _ => True)) (fun _ _ => trivial) (v := 100000) (by decide) (by decide) (s := omegaWord 100000 ++ bits) (rest := bits) rfl
example := C151_roundtrip cfg (OwnCode.delta cfg) (C62_all cfg false (C62_gamma_delta cfg false).2) (fun _ h => h) (fun _ _ => trivial)
    (fieldWrite_own _ _) (fieldRead_own _ _) (s := (bits, 3)) rfl (v := 38) (by decide) (by decide) trivial
example := C151_sink cfg (OwnCode.delta cfg) (C62_all cfg false (C62_gamma_delta cfg false).2) (fun _ h => h) (fun _ _ => trivial)
    (fieldWrite_own _ _) (s := (bits, 3)) rfl (v := 38) (by decide) (by decide) trivial
example := C151_sink_default cfg deque_sink (fun _ _ => trivial) (fun n => n < 9) (B' := fun n => 2 ≤ n ∧ n ≤ 64) (fun n h => by omega)
example := C151_source cfg (OwnCode.delta cfg) (fieldRead_own _ _) (bits := bits) rfl
example := C151_source_default cfg deque_source (fun n => n < 9) (fun n => n < 9)
example := C151_sources (fieldRead_own (fun n => n < 9) (fun n => n < 9)) (C151_source_default cfg deque_source _ _) true

end Succinct.Ex
