import Verif.Spec.BitVector
import Verif.Spec.IntVector
import Verif.Spec.Buffer
import Verif.Spec.CodeOutcome
import Verif.Spec.Deque
import Verif.Spec.View
/-!
# Programs that use many objects at once

A little language of programs that create, copy, convert, change and query any number of vectors, buffers and rank
structures, and what such programs do to plain lists. `none` means the command must panic. Nothing here refers to the model
of the code.
-/
namespace Succinct.Spec

/-- the contents of an object; `w` is the width of its blocks, `k` that of its elements -/
inductive SObj where
  | bits (w : Nat) (l : List Bool)
  | ints (w k : Nat) (xs : List Nat)
  | file (w : Nat) (f : BitFile)
  | rank9 (l : List Bool)
  | jacobson (w : Nat) (l : List Bool)
  /-- an object that was given away and lost -/
  | gone

/-- a command; objects are numbered in the order of creation, and `i`, `j` are such numbers. Calls with a block as argument
may give it in dependence of the block width. -/
inductive Cmd where
  | newBits (w : Nat) (init : BvInit w)
  | newInts (w k : Nat) (init : IvInit w)
  /-- copy -/
  | clone (i : Nat)
  | onBits (i : Nat) (op : (w : Nat) → BvOp w)
  | onInts (i : Nat) (op : (w : Nat) → IvOp w)
  | onBuf (i : Nat) (op : BufOp)
  /-- turn a bit vector into a bit buffer with its cursor at the beginning or at the end -/
  | toBuf (i : Nat) (atEnd : Bool)
  /-- turn a bit vector into an index for rank and select -/
  | toRank9 (i : Nat)
  | toJacobson (i : Nat)
  /-- turn a buffer or an index back into its bit vector -/
  | intoInner (i : Nat)
  | rank (i p : Nat) (b : Bool)
  | select (i k : Nat) (b : Bool)
  | encode (i : Nat) (k : CodeName) (v : Nat)
  | decode (i : Nat) (k : CodeName)
  /-- `==` of two bit vectors or two integer vectors -/
  | eq (i j : Nat)
  /-- `cmp` of two bit vectors or two integer vectors -/
  | cmp (i j : Nat)
  /-- `{:b}` of a bit vector, `{:?}` of an integer vector -/
  | fmt (i : Nat)
  /-- make an iterator and call it -/
  | iter (i : Nat) (ops : List ItOp)
  /-- read bits of an object of any kind, directly or through slices of slices -/
  | view (i : Nat) (rs : List Rng) (op : RdOp)
  /-- write bits of a vector or buffer, directly or through slices of slices -/
  | edit (i : Nat) (rs : List Rng) (op : (w : Nat) → WrOp w)
  /-- read a number of `n` bits into an integer type of width `W`, least or most significant bit first -/
  | readInt (i W n : Nat) (be : Bool)
  /-- write `n` bits of a signed or unsigned number -/
  | writeInt (i n : Nat) (sg be : Bool) (W : Nat) (x : BitVec W)

/-- what a command returns -/
inductive Out where
  | unit
  | bits (w : Nat) (o : BvOut w)
  | ints (o : IvOut)
  | buf (o : BufOut)
  | num (n : Nat)
  | optNum (n : Option Nat)
  | flag (b : Bool)
  | err (e : IoErr)
  | order (o : Ordering)
  | text (t : String)
  | items (l : List (Option Nat))

/-- the position of the `k`-th occurrence -/
def selectPos (v : Bool) (l : List Bool) (k : Nat) : Option Nat :=
  (List.range l.length).find? fun p => l[p]? == some v && occ v l p == k

/-- the bits in blocks, as numbers -/
def blockVals (w : Nat) (l : List Bool) : List Nat :=
  (List.range (blocksFor w l.length)).map fun i => bitsVal ((l.drop (i * w)).take w)

/-- Bit sequences are ordered by their lengths first, then by the first block that differs. -/
def bitsOrder (w : Nat) (l l' : List Bool) : Ordering :=
  (compare l.length l'.length).then (List.compareLex compare (blockVals w l) (blockVals w l'))

/-- every object as a sequence of bits, in blocks of some width -/
def SObj.width : SObj → Nat
  | .bits w _ => w
  | .ints w _ _ => w
  | .file w _ => w
  | .rank9 _ => 64
  | .jacobson w _ => w
  | .gone => 0
def SObj.list : SObj → List Bool
  | .bits _ l => l
  | .ints _ k xs => packBits k xs
  | .file _ f => f.bits
  | .rank9 l => l
  | .jacobson _ l => l
  | .gone => []

/-- the same object with other bits; indices cannot be written to -/
def SObj.withBits : SObj → List Bool → Option SObj
  | .bits w _, l => some (.bits w l)
  | .ints w k _, l => some (.ints w k (unpack k l))
  | .file w f, l => some (.file w ⟨l, f.pos⟩)
  | .rank9 _, _ => none
  | .jacobson _ _, _ => none
  | .gone, _ => none

/-- the bits `write_int` writes: two's complement, least or most significant first -/
def intBits (n : Nat) (sg be : Bool) (x : BitVec W) : List Bool :=
  if be then (natBits n x.toNat).reverse else natBits n (((if sg then x.toInt else x.toNat) % 2 ^ n).toNat)

/-- the effect of a command; `c` matters for streams that are no codewords only -/
noncomputable def cmdSpec (c : Cfg) (st : List SObj) : Cmd → Option (Out × List SObj)
  | .newBits w i => some (.unit, st ++ [.bits w i.bits])
  | .newInts w k i => some (.unit, st ++ [.ints w k (i.elems k)])
  | .clone i =>
    match st[i]? with
    | none | some .gone => none
    | some o => some (.unit, st ++ [o])
  | .onBits i op =>
    match st[i]? with
    | some (.bits w l) => (bvSpec w l (op w)).map fun r => (.bits w r.1, st.set i (.bits w r.2))
    | _ => none
  | .onInts i op =>
    match st[i]? with
    | some (.ints w k xs) => (ivSpec w k xs (op w)).map fun r => (.ints r.1, st.set i (.ints w k r.2))
    | _ => none
  | .onBuf i op =>
    match st[i]? with
    | some (.file w f) => (bufSpec f op).map fun r => (.buf r.1, st.set i (.file w r.2))
    | _ => none
  | .toBuf i e =>
    match st[i]? with
    | some (.bits w l) => some (.unit, st.set i (.file w ⟨l, if e then l.length else 0⟩))
    | _ => none
  | .toRank9 i =>
    match st[i]? with
    | some (.bits 64 l) => some (.unit, st.set i (.rank9 l))
    | _ => none
  | .toJacobson i =>
    match st[i]? with
    | some (.bits w l) => if 2 ≤ l.length then some (.unit, st.set i (.jacobson w l)) else none
    | _ => none
  | .intoInner i =>
    match st[i]? with
    | some (.file w f) => some (.unit, st.set i (.bits w f.bits))
    | some (.rank9 l) => some (.unit, st.set i (.bits 64 l))
    | some (.jacobson w l) => some (.unit, st.set i (.bits w l))
    | _ => none
  | .rank i p b =>
    match st[i]? with
    | some (.rank9 l) => some (.num (occ b l (p + 1)), st)
    | some (.jacobson _ l) => some (.num (occ b l (p + 1)), st)
    | _ => none
  | .select i k b =>
    match st[i]? with
    | some (.rank9 l) => some (.optNum (selectPos b l k), st)
    | some (.jacobson _ l) => some (.optNum (selectPos b l k), st)
    | _ => none
  | .encode i k v =>
    match st[i]? with
    | some (.file w f) =>
      match k.encOut c.debug v with
      | .word l => some (.unit, st.set i (.file w ⟨overwrite f.bits f.pos l, f.pos + l.length⟩))
      | .invalid => some (.err .invalidData, st)
      | _ => none
    | _ => none
  | .decode i k =>
    match st[i]? with
    | some (.file w f) =>
      match k.decOut c (f.bits.drop f.pos) with
      | .value v rest => some (.optNum (some v), st.set i (.file w ⟨f.bits, f.bits.length - rest.length⟩))
      | .nothing => some (.optNum none, st.set i (.file w ⟨f.bits, f.bits.length⟩))
      | .eof => some (.err .unexpectedEof, st.set i (.file w ⟨f.bits, f.bits.length⟩))
      | .invalid rest => some (.err .invalidData, st.set i (.file w ⟨f.bits, f.bits.length - rest.length⟩))
      | .panics => none
    | _ => none
  | .eq i j =>
    match st[i]?, st[j]? with
    | some (.bits w l), some (.bits w' l') => if w = w' then some (.flag (l == l'), st) else none
    | some (.ints w k xs), some (.ints w' k' ys) => if w = w' then some (.flag (k == k' && xs == ys), st) else none
    | _, _ => none
  | .cmp i j =>
    match st[i]?, st[j]? with
    | some (.bits w l), some (.bits w' l') => if w = w' then some (.order (bitsOrder w l l'), st) else none
    | some (.ints w k xs), some (.ints w' k' ys) =>
      if w = w' then some (.order ((compare k k').then ((compare xs.length ys.length).then
        (List.compareLex compare (blockVals w (packBits k xs)) (blockVals w (packBits k' ys))))), st) else none
    | _, _ => none
  | .fmt i =>
    match st[i]? with
    | some (.bits _ l) => some (.text (String.ofList (l.map fun b => if b then '1' else '0')), st)
    | some (.ints _ k xs) => some (.text ("IntVector { element_bits: " ++ Nat.repr k ++ ", elements: { " ++
        String.join (xs.map fun x => Nat.repr x ++ ", ") ++ "} }"), st)
    | _ => none
  | .iter i ops =>
    match st[i]? with
    | some (.bits _ l) => some (.items ((dequeRun l ops).1.map (Option.map Bool.toNat)), st)
    | some (.ints _ _ xs) => some (.items (dequeRun xs ops).1, st)
    | _ => none
  | .view i rs op =>
    match st[i]? with
    | none | some .gone => none
    | some o => (readSpec o.width o.list rs op).map fun r => (.bits o.width r, st)
  | .edit i rs op =>
    match st[i]? with
    | some o => do
      let l ← writeSpec o.list rs (op o.width)
      let o ← o.withBits l
      some (.unit, st.set i o)
    | none => none
  | .readInt i W n be =>
    match st[i]? with
    | some (.file w f) =>
      let l := f.bits.drop f.pos
      if n ≤ l.length then
        some (.optNum (some (bitsVal (if be then (l.take n).reverse else l.take n) % 2 ^ W)), st.set i (.file w ⟨f.bits, f.pos + n⟩))
      else some (if l = [] then .optNum none else .err .unexpectedEof, st.set i (.file w ⟨f.bits, f.bits.length⟩))
    | _ => none
  | .writeInt i n sg be _ x =>
    match st[i]? with
    | some (.file w f) => some (.unit, st.set i (.file w ⟨overwrite f.bits f.pos (intBits n sg be x), f.pos + n⟩))
    | _ => none

/-- Arguments are as the single calls want them; see `BvOp.Ok`, `IvOp.Ok` and `BufOp.Ok`. A rank query is within the vector,
select is not asked for occurrence 2^64 - 1, encoding does not go into an endless loop, and what is written fits. Ranges are not
reversed; a number is written most significant bit first only with 1 bit at least and at most as many as its type has, less one if
the type is signed. -/
def Cmd.Ok (c : Cfg) (st : List SObj) : Cmd → Prop
  | .newBits w i => (∃ e, e < 17 ∧ 3 ≤ e ∧ w = 2 ^ e) ∧ i.Ok c.usz
  | .newInts w k i => (∃ e, e < 17 ∧ 3 ≤ e ∧ w = 2 ^ e) ∧ 1 ≤ k ∧ k ≤ w ∧ i.Ok c.usz k
  | .onBits i op => ∀ w l, st[i]? = some (.bits w l) → (op w).Ok c.usz w l
  | .onInts i op => ∀ w k xs, st[i]? = some (.ints w k xs) → (op w).Ok c.usz w k xs
  | .onBuf i op => ∀ w f, st[i]? = some (.file w f) → op.Ok (Fits c.usz w) f
  | .toRank9 i => ∀ l, st[i]? = some (.bits 64 l) → InMemory c.usz l.length
  | .toJacobson i => ∀ w l, st[i]? = some (.bits w l) → InMemory c.usz l.length
  | .rank i p _ => ∀ w l, st[i]? = some (.rank9 l) ∨ st[i]? = some (.jacobson w l) → p < l.length
  | .select _ k _ => k + 1 < 2 ^ 64
  | .encode i k v => v < 2 ^ 64 ∧ k.encOut c.debug v ≠ .hangs ∧
      ∀ w f, st[i]? = some (.file w f) → ∀ l, k.encOut c.debug v = .word l → Fits c.usz w (max f.bits.length (f.pos + l.length))
  | .view i rs op => ∀ o, st[i]? = some o → cutOk o.list.length rs ∧ op.Ok o.width
  | .edit i rs op => ∀ o, st[i]? = some o → cutOk o.list.length rs ∧ (op o.width).Ok
  | .readInt _ W _ _ => W = 8 ∨ W = 16 ∨ W = 32 ∨ W = 64
  | .writeInt i n sg be W _ => (W = 8 ∨ W = 16 ∨ W = 32 ∨ W = 64) ∧ (be = true → 1 ≤ n ∧ n ≤ W ∧ (sg = true → n < W)) ∧
      ∀ w f, st[i]? = some (.file w f) → Fits c.usz w (max f.bits.length (f.pos + n))
  | _ => True

/-- A program; stops at the first panic. -/
noncomputable def progSpec (c : Cfg) (st : List SObj) : List Cmd → Option (List Out × List SObj)
  | [] => some ([], st)
  | cmd :: cmds => do
    let (o, st) ← cmdSpec c st cmd
    let (os, st) ← progSpec c st cmds
    some (o :: os, st)

/-- Every command of the program is `Ok` where it is executed. -/
def progOk (c : Cfg) (st : List SObj) : List Cmd → Prop
  | [] => True
  | cmd :: cmds => cmd.Ok c st ∧ ∀ r, cmdSpec c st cmd = some r → progOk c r.2 cmds

end Succinct.Spec
