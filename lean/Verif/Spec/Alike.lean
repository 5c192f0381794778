import Verif.Spec.Program
/-!
# Programs that differ in the block types only

Two programs are alike if they make the same calls on vectors that may have blocks of other widths. Calls that name blocks (such as
`push_block`, `block_len` or `block_resize`) are not allowed, nor is `cmp`, whose answer depends on the blocks. Nothing here refers
to the model of the code.
-/
namespace Succinct.Spec

/-- the same call on vectors with blocks of `w` and of `w'` bits; of a bit field only the bits that are written count -/
inductive BvOp.Alike {w w' : Nat} : BvOp w → BvOp w' → Prop
  | pushBit (b) : Alike (.pushBit b) (.pushBit b)
  | popBit : Alike .popBit .popBit
  | setBit (i b) : Alike (.setBit i b) (.setBit i b)
  | setBits (p n) {x x'} (h : natBits n x.toNat = natBits n x'.toNat) : Alike (.setBits p n x) (.setBits p n x')
  | resize (n b) : Alike (.resize n b) (.resize n b)
  | truncate (n) : Alike (.truncate n) (.truncate n)
  | clear : Alike .clear .clear
  | bitLen : Alike .bitLen .bitLen
  | getBit (i) : Alike (.getBit i) (.getBit i)
  | getBits (p n) : Alike (.getBits p n) (.getBits p n)

inductive BvInit.Alike {w w' : Nat} : BvInit w → BvInit w' → Prop
  | new : Alike .new .new
  | withCapacity (n n') : Alike (.withCapacity n) (.withCapacity n')
  | withFill (n b) : Alike (.withFill n b) (.withFill n b)

inductive IvOp.Alike {w w' : Nat} : IvOp w → IvOp w' → Prop
  | push {x x'} (h : x.toNat = x'.toNat) : Alike (.push x) (.push x')
  | pop : Alike .pop .pop
  | set (i) {x x'} (h : x.toNat = x'.toNat) : Alike (.set i x) (.set i x')
  | setRandom (off n i) {x x'} (h : x.toNat = x'.toNat) : Alike (.setRandom off n i x) (.setRandom off n i x')
  | truncate (n) : Alike (.truncate n) (.truncate n)
  | resize (n) {x x'} (h : x.toNat = x'.toNat) : Alike (.resize n x) (.resize n x')
  | clear : Alike .clear .clear
  | len : Alike .len .len
  | isEmpty : Alike .isEmpty .isEmpty
  | get (i) : Alike (.get i) (.get i)
  | getRandom (off n i) : Alike (.getRandom off n i) (.getRandom off n i)

inductive IvInit.Alike {w w' : Nat} : IvInit w → IvInit w' → Prop
  | new : Alike .new .new
  | withCapacity (n n') : Alike (.withCapacity n) (.withCapacity n')
  | blockWithCapacity (n n') : Alike (.blockWithCapacity n) (.blockWithCapacity n')
  | withFill (n) {x x'} (h : x.toNat = x'.toNat) : Alike (.withFill n x) (.withFill n x')

inductive WrOp.Alike {w w' : Nat} : WrOp w → WrOp w' → Prop
  | bit (i b) : Alike (.bit i b) (.bit i b)
  | bits (p n) {x x'} (h : natBits n x.toNat = natBits n x'.toNat) : Alike (.bits p n x) (.bits p n x')

/-- the same command; `R` says which block widths of the one program correspond to which of the other -/
inductive Cmd.Alike (R : Nat → Nat → Prop) : Cmd → Cmd → Prop
  | newBits {w w' i i'} (h : R w w') (hi : BvInit.Alike i i') : Alike R (.newBits w i) (.newBits w' i')
  | newInts {w w' i i'} (k) (h : R w w') (hi : IvInit.Alike i i') : Alike R (.newInts w k i) (.newInts w' k i')
  | onBits (i) {op op'} (h : ∀ w w', R w w' → BvOp.Alike (op w) (op' w')) : Alike R (.onBits i op) (.onBits i op')
  | onInts (i) {op op'} (h : ∀ w w', R w w' → IvOp.Alike (op w) (op' w')) : Alike R (.onInts i op) (.onInts i op')
  | edit (i rs) {op op'} (h : ∀ w w', R w w' → WrOp.Alike (op w) (op' w')) : Alike R (.edit i rs op) (.edit i rs op')
  /-- `Rank9` is for blocks of 64 bits only -/
  | toRank9 (i) (h : R 64 64) : Alike R (.toRank9 i) (.toRank9 i)
  | clone (i) : Alike R (.clone i) (.clone i)
  | onBuf (i op) : Alike R (.onBuf i op) (.onBuf i op)
  | toBuf (i e) : Alike R (.toBuf i e) (.toBuf i e)
  | toJacobson (i) : Alike R (.toJacobson i) (.toJacobson i)
  | intoInner (i) : Alike R (.intoInner i) (.intoInner i)
  | rank (i p b) : Alike R (.rank i p b) (.rank i p b)
  | select (i k b) : Alike R (.select i k b) (.select i k b)
  | encode (i k v) : Alike R (.encode i k v) (.encode i k v)
  | decode (i k) : Alike R (.decode i k) (.decode i k)
  | eq (i j) : Alike R (.eq i j) (.eq i j)
  | fmt (i) : Alike R (.fmt i) (.fmt i)
  | iter (i ops) : Alike R (.iter i ops) (.iter i ops)
  | view (i rs op) : Alike R (.view i rs op) (.view i rs op)
  | readInt (i W n be) : Alike R (.readInt i W n be) (.readInt i W n be)
  | writeInt (i n sg be W x) : Alike R (.writeInt i n sg be W x) (.writeInt i n sg be W x)

inductive progAlike (R : Nat → Nat → Prop) : List Cmd → List Cmd → Prop
  | nil : progAlike R [] []
  | cons {cmd cmd' cmds cmds'} (h : Cmd.Alike R cmd cmd') (t : progAlike R cmds cmds') : progAlike R (cmd :: cmds) (cmd' :: cmds')

/-- No two widths of the one program are identified in the other, for `==` is there for vectors of the same type only. -/
def OneToOne (R : Nat → Nat → Prop) : Prop := ∀ w w' v v', R w w' → R v v' → (w = v ↔ w' = v')

/-- what a command returns, blocks being read as numbers -/
def Out.plain : Out → Out
  | .bits _ .unit => .unit
  | .bits _ (.bit b) => .flag b
  | .bits _ (.optBit o) => .optNum (o.map Bool.toNat)
  | .bits _ (.num n) => .num n
  | .bits _ (.block x) => .num x.toNat
  | o => o

/-- the same contents -/
inductive SObj.Alike (R : Nat → Nat → Prop) : SObj → SObj → Prop
  | bits {w w'} (h : R w w') (l) : Alike R (.bits w l) (.bits w' l)
  | ints {w w'} (h : R w w') (k xs) : Alike R (.ints w k xs) (.ints w' k xs)
  | file {w w'} (h : R w w') (f) : Alike R (.file w f) (.file w' f)
  | rank9 (h : R 64 64) (l) : Alike R (.rank9 l) (.rank9 l)
  | jacobson {w w'} (h : R w w') (l) : Alike R (.jacobson w l) (.jacobson w' l)
  | gone : Alike R .gone .gone

def stAlike (R : Nat → Nat → Prop) (st st' : List SObj) : Prop :=
  st.length = st'.length ∧ ∀ (i : Nat) o o', st[i]? = some o → st'[i]? = some o' → SObj.Alike R o o'

end Succinct.Spec
