import Verif.Instances.Data
import Verif.Props.ProgramCatch
import Verif.Instances.Program
/-! `Verif.Props.ProgramCatch`: each theorem applied to concrete data, see `Verif.Instances.Data`. -/
namespace Succinct.Ex
open Succinct Spec

example := C122_programs cfg [.onBits 0 (fun _ => .setBit 10 false), .onBits 0 (fun _ => .popBit)] st_bits
  (catch_none (os := [some (.bits 8 (.optBit (some true)))]) (sf := [.bits 8 (bits.dropLast)]) (by intro w l h; cases h; exact (by decide : 10 < 2 ^ 64)) rfl
    (catch_some (by intro w l h; cases h; exact trivial) rfl (ss' := [.bits 8 bits.dropLast]) (cmds := []) ⟨trivial, rfl⟩)).1

/-- A call that panics after it has written a bit is not one that leaves the sink as it was. -/
example : ¬ PanicsUnwritten (α := Unit) (fun W s => (W.writeBit true s).bind fun _ => .panic) dequeWrite [] := nofun
example : PanicsUnwritten (α := Unit) (fun _ _ => .panic) dequeWrite [] := rfl

end Succinct.Ex
