import Verif.Spec.Program
/-!
# Programs that use many objects and catch panics

What the objects of a program hold after a command that has panicked, and programs that go on after panics.
-/
namespace Succinct.Spec

/-- how many bits of a stream are consumed by a decoder that panics: as few as it takes to panic -/
def panicAfter (c : Cfg) (k : CodeName) (bits : List Bool) : Nat :=
  ((List.range (bits.length + 1)).find? fun n => k.decOut c (bits.take n) == .panics).getD 0

/-- The objects after a panic. A decoder leaves its source where it has stopped reading, and a vector that was given away to be
indexed is gone; nothing else changes. -/
def leftSpec (c : Cfg) (st : List SObj) : Cmd → List SObj
  | .decode i k =>
    match st[i]? with
    | some (.file w f) => st.set i (.file w ⟨f.bits, f.pos + panicAfter c k (f.bits.drop f.pos)⟩)
    | _ => st
  | .toJacobson i =>
    match st[i]? with
    | some (.bits _ _) => st.set i .gone
    | _ => st
  | _ => st

/-- A program that catches the panics of its commands and goes on. -/
noncomputable def catchProgSpec (c : Cfg) (st : List SObj) : List Cmd → List (Option Out) × List SObj
  | [] => ([], st)
  | cmd :: cmds =>
    match cmdSpec c st cmd with
    | some (o, st') => let r := catchProgSpec c st' cmds; (some o :: r.1, r.2)
    | none => let r := catchProgSpec c (leftSpec c st cmd) cmds; (none :: r.1, r.2)

/-- Every command of the program is `Ok` where it is executed. -/
def catchProgOk (c : Cfg) (st : List SObj) : List Cmd → Prop
  | [] => True
  | cmd :: cmds => cmd.Ok c st ∧ (∀ r, cmdSpec c st cmd = some r → catchProgOk c r.2 cmds) ∧
      (cmdSpec c st cmd = none → catchProgOk c (leftSpec c st cmd) cmds)

end Succinct.Spec
