import Verif.Spec.Program
/-!
# Programs that differ in the kind of index only

The one program makes a `Rank9` where the other makes a `JacobsonRank`. Nothing here refers to the model of the code.
-/
namespace Succinct.Spec

/-- the same command, or `Rank9::new` in the one program and `JacobsonRank::new` in the other -/
inductive Cmd.Index : Cmd → Cmd → Prop
  | same (cmd) : Index cmd cmd
  | swap (i) : Index (.toRank9 i) (.toJacobson i)

inductive progIndex : List Cmd → List Cmd → Prop
  | nil : progIndex [] []
  | cons {cmd cmd' cmds cmds'} (h : Cmd.Index cmd cmd') (t : progIndex cmds cmds') : progIndex (cmd :: cmds) (cmd' :: cmds')

/-- the same object, or indices of the same bits -/
inductive SObj.Index : SObj → SObj → Prop
  | same (o) : Index o o
  | swap (l) : Index (.rank9 l) (.jacobson 64 l)

def stIndex (st st' : List SObj) : Prop :=
  st.length = st'.length ∧ ∀ (i : Nat) o o', st[i]? = some o → st'[i]? = some o' → SObj.Index o o'

end Succinct.Spec
