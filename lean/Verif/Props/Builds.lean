import Verif.Lemmas.Builds
import Verif.Lemmas.BitVector
import Verif.Lemmas.IntVector
import Verif.Lemmas.BitBuffer
import Verif.Lemmas.Iter
/-! Property C107: overflow checks and debug assertions only add panics. -/
namespace Succinct
open Spec

/-- What a call does with overflow checks and debug assertions (`x`) and without (`y`): the former panics, or they do
the same: return the same, panic, or both fail to return. -/
def Builds (x y : Res α) : Prop := x = .panic ∨ x = y

theorem Builds.of {x y : Res α} (h : ∀ d e, Agree d e x y) : Builds x y := (h false false).cases

theorem Builds.agree {x y : Res α} (h : Builds x y) (d e : Bool) : Agree d e x y := ⟨.inr (.inr h)⟩

/-- In other words. -/
theorem builds_iff {x y : Res α} :
    Builds x y ↔ (∀ a, x = .ok a → y = .ok a) ∧ (y = .panic → x = .panic) ∧ (x = .diverge → y = .diverge) ∧
      (y = .diverge → x = .panic ∨ x = .diverge) ∧ (∀ a, y = .ok a → x = .panic ∨ x = .ok a) := by
  constructor
  · rintro (rfl | rfl)
    · exact ⟨nofun, fun _ => rfl, nofun, fun _ => .inl rfl, fun _ _ => .inl rfl⟩
    · exact ⟨fun _ h => h, id, id, .inr, fun _ h => .inr h⟩
  · rintro ⟨h1, -, h3, -, -⟩
    cases x with
    | ok a => exact .inr (h1 a rfl).symm
    | panic => exact .inl rfl
    | diverge => exact .inr (h3 rfl).symm

/-- The builds with fewer checks: any of the same target in which no check is on that was off. -/
theorem fewer_iff {c c' : Cfg} : (∃ kp, c' = c.fewer kp) ↔
    c'.ptr = c.ptr ∧ (c'.debug = true → c.debug = true) ∧ (c'.asserts = true → c.asserts = true) := by
  constructor
  · rintro ⟨kp, rfl⟩
    refine ⟨rfl, ?_, ?_⟩ <;> simp +contextual [Cfg.fewer]
  · rintro ⟨h1, h2, h3⟩
    refine ⟨⟨c'.debug, c'.asserts⟩, ?_⟩
    obtain ⟨d, p, a⟩ := c
    obtain ⟨d', p', a'⟩ := c'
    cases d' <;> cases a' <;> simp_all [Cfg.fewer]

/-! ### Bit vectors -/

/-- The methods of a type in the two builds, method by method. -/
structure BuildsRead (o o' : BitVecOps w S) : Prop where
  bitLen : ∀ s, Builds (o.bitLen s) (o'.bitLen s)
  blockLen : ∀ s, Builds (o.blockLen s) (o'.blockLen s)
  getBit : ∀ s i, Builds (o.getBit s i) (o'.getBit s i)
  getBlock : ∀ s i, Builds (o.getBlock s i) (o'.getBlock s i)
  getBits : ∀ s i n, Builds (o.getBits s i n) (o'.getBits s i n)

structure BuildsMut (o o' : BitVecMutOps w S) : Prop where
  read : BuildsRead o.toBitVecOps o'.toBitVecOps
  setBit : ∀ s i b, Builds (o.setBit s i b) (o'.setBit s i b)
  setBlock : ∀ s i x, Builds (o.setBlock s i x) (o'.setBlock s i x)
  setBits : ∀ s i n x, Builds (o.setBits s i n x) (o'.setBits s i n x)

structure BuildsPush (o o' : BitVecPushOps w S) : Prop where
  write : BuildsMut o.toBitVecMutOps o'.toBitVecMutOps
  pushBit : ∀ s b, Builds (o.pushBit s b) (o'.pushBit s b)
  popBit : ∀ s, Builds (o.popBit s) (o'.popBit s)
  alignBlock : ∀ s b, Builds (o.alignBlock s b) (o'.alignBlock s b)
  pushBlock : ∀ s x, Builds (o.pushBlock s x) (o'.pushBlock s x)

theorem BuildsRead.of {o o' : BitVecOps w S} (h : AgreeBV o o') : BuildsRead o o' :=
  ⟨fun _ => .of fun _ _ => h.bitLen _ _ _, fun _ => .of fun _ _ => h.blockLen _ _ _, fun _ _ => .of fun _ _ => h.getBit _ _ _ _,
    fun _ _ => .of fun _ _ => h.getBlock _ _ _ _, fun _ _ _ => .of fun _ _ => h.getBits _ _ _ _ _⟩

theorem BuildsRead.agree {o o' : BitVecOps w S} (h : BuildsRead o o') : AgreeBV o o' :=
  ⟨fun _ _ s => (h.bitLen s).agree _ _, fun _ _ s => (h.blockLen s).agree _ _, fun _ _ s i => (h.getBit s i).agree _ _,
    fun _ _ s i => (h.getBlock s i).agree _ _, fun _ _ s i n => (h.getBits s i n).agree _ _⟩

theorem BuildsMut.of {o o' : BitVecMutOps w S} (h : AgreeBVM o o') : BuildsMut o o' :=
  ⟨.of h.base, fun _ _ _ => .of fun _ _ => h.setBit _ _ _ _ _, fun _ _ _ => .of fun _ _ => h.setBlock _ _ _ _ _,
    fun _ _ _ _ => .of fun _ _ => h.setBits _ _ _ _ _ _⟩

theorem BuildsMut.agree {o o' : BitVecMutOps w S} (h : BuildsMut o o') : AgreeBVM o o' :=
  ⟨h.read.agree, fun _ _ s i b => (h.setBit s i b).agree _ _, fun _ _ s i x => (h.setBlock s i x).agree _ _,
    fun _ _ s i n x => (h.setBits s i n x).agree _ _⟩

theorem BuildsPush.of {o o' : BitVecPushOps w S} (h : AgreeBVP o o') : BuildsPush o o' :=
  ⟨.of h.base, fun _ _ => .of fun _ _ => h.pushBit _ _ _ _, fun _ => .of fun _ _ => h.popBit _ _ _,
    fun _ _ => .of fun _ _ => h.alignBlock _ _ _ _, fun _ _ => .of fun _ _ => h.pushBlock _ _ _ _⟩

theorem BuildsPush.agree {o o' : BitVecPushOps w S} (h : BuildsPush o o') : AgreeBVP o o' :=
  ⟨h.write.agree, fun _ _ s b => (h.pushBit s b).agree _ _, fun _ _ s => (h.popBit s).agree _ _,
    fun _ _ s b => (h.alignBlock s b).agree _ _, fun _ _ s x => (h.pushBlock s x).agree _ _⟩

theorem C107_bitvec (c : Cfg) (kp : Kept) (w : Nat) :
    BuildsPush (bvBitVecPush c w) (bvBitVecPush (c.fewer kp) w) ∧ BuildsPush (boolVecBitVecPush c) (boolVecBitVecPush (c.fewer kp)) ∧
    BuildsMut (ivBitVecMut c w) (ivBitVecMut (c.fewer kp) w) ∧ BuildsMut (vecBitVecMut c w) (vecBitVecMut (c.fewer kp) w) ∧
    BuildsMut (primBitVecMut c w) (primBitVecMut (c.fewer kp) w) :=
  ⟨.of inferInstance, .of inferInstance, .of inferInstance, .of inferInstance, .of inferInstance⟩

/-- The wrappers, over any bit vector: slices, the adapter macros, buffers. -/
theorem C107_wrappers (c : Cfg) (kp : Kept) :
    (∀ (w : Nat) (S T : Type) (o o' : BitVecOps w S), BuildsRead o o' →
      BuildsRead (sliceBitVec c o) (sliceBitVec (c.fewer kp) o') ∧ BuildsRead (BitBuf.bitVec c o) (BitBuf.bitVec (c.fewer kp) o') ∧
      (∀ s r, Builds (Slice.new o s r) (Slice.new o' s r)) ∧
      ∀ field : T → S, BuildsRead (adaptBitVec field o) (adaptBitVec field o')) ∧
    (∀ (w : Nat) (S : Type) (o o' : BitVecMutOps w S), BuildsMut o o' →
      BuildsMut (sliceBitVecMut c o) (sliceBitVecMut (c.fewer kp) o') ∧ BuildsMut (BitBuf.bitVecMut c o) (BitBuf.bitVecMut (c.fewer kp) o')) ∧
    (∀ (S : Type) (s : Slice S) r, Builds (Slice.slice c s r) (Slice.slice (c.fewer kp) s r)) := by
  refine ⟨fun w S T o o' h => ?_, fun w S o o' h => ?_, fun S s r => .of fun _ _ => inferInstance⟩
  · have := h.agree
    exact ⟨.of inferInstance, .of inferInstance, fun s r => .of fun _ _ => inferInstance, fun f => .of inferInstance⟩
  · have := h.agree
    exact ⟨.of inferInstance, .of inferInstance⟩

/-! ### Sequences of calls -/

instance bvStep_agree (c : Cfg) (s : VB w) (op : BvOp w) : Agree d e (bvStep c s op) (bvStep (c.fewer kp) s op) := by
  have hm := (bv_agree (kp := kp) c w).base
  have hr := hm.base
  cases op <;> unfold bvStep
  case setBit => exact Agree.bind' (hm.setBit _ _ _ _ _) fun _ => Agree.refl _
  case setBlock => exact Agree.bind' (hm.setBlock _ _ _ _ _) fun _ => Agree.refl _
  case setBits => exact Agree.bind' (hm.setBits _ _ _ _ _ _) fun _ => Agree.refl _
  case bitLen => exact Agree.bind' (hr.bitLen _ _ _) fun _ => Agree.refl _
  case blockLen => exact Agree.bind' (hr.blockLen _ _ _) fun _ => Agree.refl _
  case getBit => exact Agree.bind' (hr.getBit _ _ _ _) fun _ => Agree.refl _
  case getBlock => exact Agree.bind' (hr.getBlock _ _ _ _) fun _ => Agree.refl _
  case getBits => exact Agree.bind' (hr.getBits _ _ _ _ _) fun _ => Agree.refl _
  all_goals agree

instance bvRun_agree (c : Cfg) (s : VB w) (ops : List (BvOp w)) : Agree d e (bvRun c s ops) (bvRun (c.fewer kp) s ops) := by
  induction ops generalizing s with
  | nil => exact Agree.refl _
  | cons op ops ih => unfold bvRun; agree

instance ivStep_agree (c : Cfg) (s : IV w) (op : IvOp w) : Agree d e (ivStep c s op) (ivStep (c.fewer kp) s op) := by
  cases op <;> unfold ivStep <;> agree

instance ivRun_agree (c : Cfg) (s : IV w) (ops : List (IvOp w)) : Agree d e (ivRun c s ops) (ivRun (c.fewer kp) s ops) := by
  induction ops generalizing s with
  | nil => exact Agree.refl _
  | cons op ops ih => unfold ivRun; agree

instance itRun_agree (c : Cfg) (it : VIter w) (ops : List ItOp) : Agree d e (itRun c it ops) (itRun (c.fewer kp) it ops) := by
  induction ops generalizing it with
  | nil => exact Agree.refl _
  | cons op ops ih => cases op <;> unfold itRun itStep <;> agree

instance bufStep_agree (c : Cfg) {o o' : BitVecPushOps w S} [AgreeBVP o o'] (s : BitBuf S) (op : BufOp) :
    Agree d e (bufStep c o s op) (bufStep (c.fewer kp) o' s op) := by
  cases op <;> unfold bufStep
  case write b => exact Agree.bind' (((BitBuf.agree_write c).writeBit _ _ b).out s) fun _ => Agree.refl _
  case read => exact Agree.bind' (((BitBuf.agree_read c).readBit _ _).out s) fun _ => Agree.refl _
  case seek p =>
    exact Agree.bind' ((inferInstance : AgreeS d e (BitBuf.seek o.toBitVecOps p) (BitBuf.seek o'.toBitVecOps p)).out s)
      fun _ => Agree.refl _
  all_goals agree

instance bufRun_agree (c : Cfg) {o o' : BitVecPushOps w S} [AgreeBVP o o'] (s : BitBuf S) (ops : List BufOp) :
    Agree d e (bufRun c o s ops) (bufRun (c.fewer kp) o' s ops) := by
  induction ops generalizing s with
  | nil => exact Agree.refl _
  | cons op ops ih => unfold bufRun; agree

/-- Any sequence of calls on a `BitVector`, an `IntVector`, an iterator, or a `BitBuffer` over any vector. -/
theorem C107_sequences (c : Cfg) (kp : Kept) :
    (∀ w (s : VB w) ops, Builds (bvRun c s ops) (bvRun (c.fewer kp) s ops)) ∧
    (∀ w (s : IV w) ops, Builds (ivRun c s ops) (ivRun (c.fewer kp) s ops)) ∧
    (∀ w (it : VIter w) ops, Builds (itRun c it ops) (itRun (c.fewer kp) it ops)) ∧
    (∀ w S (o o' : BitVecPushOps w S), BuildsPush o o' → ∀ s ops, Builds (bufRun c o s ops) (bufRun (c.fewer kp) o' s ops)) ∧
    (∀ w A (s : CVB w) ops, Builds (capCalls c A 1 (bvStep c) ops s) (capCalls (c.fewer kp) A 1 (bvStep (c.fewer kp)) ops s)) := by
  refine ⟨fun _ _ _ => .of fun _ _ => inferInstance, fun _ _ _ => .of fun _ _ => inferInstance,
    fun _ _ _ => .of fun _ _ => inferInstance, fun _ _ _ _ h _ _ => ?_, fun _ _ _ _ => .of fun _ _ => inferInstance⟩
  have := h.agree
  exact .of fun _ _ => inferInstance

/-- The constructors and the remaining methods of the vectors, their iterators and formatting. -/
theorem C107_vectors (c : Cfg) (kp : Kept) (w eb n : Nat) (b : Bool) (x : BitVec w) (s : VB w) (t : IV w) (it : VIter w) :
    Builds (BV.withCapacity c w n) (BV.withCapacity (c.fewer kp) w n) ∧ Builds (BV.withFill c w n b) (BV.withFill (c.fewer kp) w n b) ∧
    Builds (BV.blockWithFill c n x) (BV.blockWithFill (c.fewer kp) n x) ∧
    Builds (IV.withCapacity c w eb n) (IV.withCapacity (c.fewer kp) w eb n) ∧
    Builds (IV.withFill c eb n x) (IV.withFill (c.fewer kp) eb n x) ∧
    Builds (IV.blockWithFill c eb n x) (IV.blockWithFill (c.fewer kp) eb n x) ∧
    Builds (BitBuf.withCapacity c w n) (BitBuf.withCapacity (c.fewer kp) w n) ∧
    Builds (VB.popBlock c s eb) (VB.popBlock (c.fewer kp) s eb) ∧
    Builds (it.len c) (it.len (c.fewer kp)) ∧ Builds (it.sizeHint c) (it.sizeHint (c.fewer kp)) ∧
    Builds (it.count c) (it.count (c.fewer kp)) ∧ Builds (it.last c) (it.last (c.fewer kp)) ∧
    Builds (BV.fmtBinary c s) (BV.fmtBinary (c.fewer kp) s) ∧ Builds (IV.fmtDebug c t) (IV.fmtDebug (c.fewer kp) t) := by
  refine ⟨?_, ?_, ?_, ?_, ?_, ?_, ?_, ?_, ?_, ?_, ?_, ?_, ?_, ?_⟩ <;> exact .of fun _ _ => inferInstance

/-! ### Rank and select -/

structure BuildsRank (r r' : RankOps S) : Prop where
  rank : ∀ s p v, Builds (r.rank s p v) (r'.rank s p v)
  limit : ∀ s, Builds (r.limit s) (r'.limit s)
  rank1 : ∀ s p, Builds (r.rank1 s p) (r'.rank1 s p)
  rank0 : ∀ s p, Builds (r.rank0 s p) (r'.rank0 s p)

structure BuildsSelect (r r' : SelectOps S) : Prop where
  select1 : ∀ s k, Builds (r.select1 s k) (r'.select1 s k)
  select0 : ∀ s k, Builds (r.select0 s k) (r'.select0 s k)
  select : ∀ s k v, Builds (r.select s k v) (r'.select s k v)

theorem BuildsRank.of {r r' : RankOps S} (h : AgreeRank r r') : BuildsRank r r' :=
  ⟨fun _ _ _ => .of fun _ _ => h.rank _ _ _ _ _, fun _ => .of fun _ _ => h.limit _ _ _,
    fun _ _ => .of fun _ _ => h.rank1 _ _ _ _, fun _ _ => .of fun _ _ => h.rank0 _ _ _ _⟩

theorem BuildsRank.agree {r r' : RankOps S} (h : BuildsRank r r') : AgreeRank r r' :=
  ⟨fun _ _ s p v => (h.rank s p v).agree _ _, fun _ _ s => (h.limit s).agree _ _, fun _ _ s p => (h.rank1 s p).agree _ _,
    fun _ _ s p => (h.rank0 s p).agree _ _⟩

theorem BuildsSelect.of {r r' : SelectOps S} (h : AgreeSelect r r') : BuildsSelect r r' :=
  ⟨fun _ _ => .of fun _ _ => h.select1 _ _ _ _, fun _ _ => .of fun _ _ => h.select0 _ _ _ _,
    fun _ _ _ => .of fun _ _ => h.select _ _ _ _ _⟩

/-- Rank structures over any store, built and queried; words; `Broadword`; select over any rank structure; and binary
search over any function. -/
theorem C107_rank_select (c : Cfg) (kp : Kept) :
    (∀ (w : Nat) (S : Type) (o o' : BitVecOps w S), BuildsRead o o' →
      (∀ s, Builds (Jacobson.new c o s) (Jacobson.new (c.fewer kp) o' s)) ∧ BuildsRank (Jacobson.ops c o) (Jacobson.ops (c.fewer kp) o')) ∧
    (∀ (S : Type) (o o' : BitVecOps 64 S), BuildsRead o o' →
      (∀ s, Builds (Rank9.new c o s) (Rank9.new (c.fewer kp) o' s)) ∧ BuildsRank (Rank9.ops c o) (Rank9.ops (c.fewer kp) o')) ∧
    (∀ w, BuildsRank (primRank c w) (primRank (c.fewer kp) w)) ∧ BuildsRank (bwRank c) (bwRank (c.fewer kp)) ∧
    (∀ x k, Builds (bwSelectSupport c x k) (bwSelectSupport (c.fewer kp) x k)) ∧
    (∀ (S : Type) (r r' : RankOps S), BuildsRank r r' →
      BuildsRank (BinSearchSelect.rankOps r) (BinSearchSelect.rankOps r') ∧
      BuildsSelect (BinSearchSelect.ops c r) (BinSearchSelect.ops (c.fewer kp) r')) ∧
    (∀ (f f' : Nat → Res Nat), (∀ i, Builds (f i) (f' i)) → ∀ bits start limit value,
      Builds (binarySearch c bits start limit value f) (binarySearch (c.fewer kp) bits start limit value f')) := by
  refine ⟨fun w S o o' h => ?_, fun S o o' h => ?_, fun w => .of inferInstance, .of inferInstance,
    fun x k => .of fun _ _ => inferInstance, fun S r r' h => ?_, fun f f' h bits a b v => ?_⟩
  · have := h.agree
    exact ⟨fun _ => .of fun _ _ => inferInstance, .of inferInstance⟩
  · have := h.agree
    exact ⟨fun _ => .of fun _ _ => inferInstance, .of inferInstance⟩
  · have := h.agree
    exact ⟨.of inferInstance, .of inferInstance⟩
  · exact .of fun _ _ => binarySearch_agree (h := fun d e i => (h i).agree d e) c bits a b v

/-- The broadword operations. -/
theorem C107_broadword (c : Cfg) (kp : Kept) (x y : BitVec 64) (r : Nat) :
    Builds (bwCountOnes c x) (bwCountOnes (c.fewer kp) x) ∧ Builds (select1Raw c r x) (select1Raw (c.fewer kp) r x) ∧
    Builds (bwSelect1 c r x) (bwSelect1 (c.fewer kp) r x) ∧ Builds (uLe8 c x y) (uLe8 (c.fewer kp) x y) ∧
    Builds (le8 c x y) (le8 (c.fewer kp) x y) ∧ Builds (uNz8 c x) (uNz8 (c.fewer kp) x) := by
  refine ⟨?_, ?_, ?_, ?_, ?_, ?_⟩ <;> exact .of fun _ _ => inferInstance

/-! ### Streams and codes -/

/-- A source or sink of bits in the two builds. -/
def BuildsSource (R R' : BitRead σ) : Prop := ∀ s, Builds (R.readBit s) (R'.readBit s)
def BuildsSink (W W' : BitWrite σ) : Prop := ∀ b s, Builds (W.writeBit b s) (W'.writeBit b s)

theorem BuildsSource.agree {R R' : BitRead σ} (h : BuildsSource R R') : AgreeRd R R' := ⟨fun _ _ => ⟨fun s => (h s).agree _ _⟩⟩
theorem BuildsSink.agree {W W' : BitWrite σ} (h : BuildsSink W W') : AgreeWr W W' := ⟨fun _ _ b => ⟨fun s => (h b s).agree _ _⟩⟩

/-- A code in the two builds. -/
inductive BuildsCode (c : Cfg) (kp : Kept) : Code → Code → Prop
  | unary : BuildsCode c kp (unary c) (unary (c.fewer kp))
  | omega : BuildsCode c kp (omegaCode c) (omegaCode (c.fewer kp))
  | comma (n : Nat) : BuildsCode c kp (comma c n) (comma (c.fewer kp) n)
  | fibonacci : BuildsCode c kp (fibonacci c) (fibonacci (c.fewer kp))
  | elias : BuildsCode c kp H H' → BuildsCode c kp (elias c H) (elias (c.fewer kp) H')
  | lift0 : BuildsCode c kp K K' → BuildsCode c kp (lift0 c K) (lift0 (c.fewer kp) K')

theorem BuildsCode.agree (h : BuildsCode c kp K K') : AgreeCode K K' := by
  induction h with
  | unary => exact inferInstance
  | omega => exact inferInstance
  | comma n => exact inferInstance
  | fibonacci => exact inferInstance
  | elias _ ih => exact inferInstance
  | lift0 _ ih => exact inferInstance

/-- Every code, over any source and sink. -/
theorem C107_codes (c : Cfg) (kp : Kept) (h : BuildsCode c kp K K') :
    (∀ (σ : Type) (W W' : BitWrite σ), BuildsSink W W' → ∀ v s, Builds (K.encode W v s) (K'.encode W' v s)) ∧
    (∀ (σ : Type) (R R' : BitRead σ), BuildsSource R R' → ∀ s, Builds (K.decode R s) (K'.decode R' s)) := by
  have hK := h.agree
  refine ⟨fun σ W W' hW v s => ?_, fun σ R R' hR s => ?_⟩
  · have := hW.agree
    exact .of fun _ _ => (hK.encode W W' _ _ v).out s
  · have := hR.agree
    exact .of fun _ _ => (hK.decode R R' _ _).out s

/-- Reading and writing integers, and the buffer as a source and a sink. -/
theorem C107_streams (c : Cfg) (kp : Kept) :
    (∀ (w : Nat) (S : Type) (o o' : BitVecOps w S), BuildsRead o o' → BuildsSource (BitBuf.read c o) (BitBuf.read (c.fewer kp) o')) ∧
    (∀ (w : Nat) (S : Type) (o o' : BitVecPushOps w S), BuildsPush o o' →
      BuildsSink (BitBuf.write c o) (BitBuf.write (c.fewer kp) o')) ∧
    (∀ (σ : Type) (R R' : BitRead σ), BuildsSource R R' → ∀ w n s, Builds (readInt c R w n s) (readInt (c.fewer kp) R' w n s) ∧
      Builds (readIntBe c R w n s) (readIntBe (c.fewer kp) R' w n s)) ∧
    (∀ (σ : Type) (W W' : BitWrite σ), BuildsSink W W' → ∀ sg w n (x : BitVec w) s,
      Builds (writeInt c sg W n x s) (writeInt (c.fewer kp) sg W' n x s) ∧
      Builds (writeIntBe c sg W n x s) (writeIntBe (c.fewer kp) sg W' n x s)) := by
  refine ⟨fun w S o o' h s => ?_, fun w S o o' h b s => ?_, fun σ R R' h w n s => ?_, fun σ W W' h sg w n x s => ?_⟩
  · have := h.agree
    exact .of fun _ _ => ((BitBuf.agree_read c).readBit _ _).out s
  · have := h.agree
    exact .of fun _ _ => ((BitBuf.agree_write c).writeBit _ _ b).out s
  · have := h.agree
    exact ⟨.of fun _ _ => AgreeS.run inferInstance s, .of fun _ _ => AgreeS.run inferInstance s⟩
  · have := h.agree
    exact ⟨.of fun _ _ => AgreeS.run inferInstance s, .of fun _ _ => AgreeS.run inferInstance s⟩

/-! ### Capacities and space usage -/

theorem C107_space (c : Cfg) (kp : Kept) (A : Alloc) :
    (∀ w eb n, Builds (CVB.withCapacity c A w eb n) (CVB.withCapacity (c.fewer kp) A w eb n)) ∧
    (∀ w eb (s : CVB w), Builds (s.capacity c eb) (s.capacity (c.fewer kp) eb)) ∧
    (∀ w eb (s : CVB w) ops, Builds (capRun c A eb ops s) (capRun (c.fewer kp) A eb ops s)) ∧
    (∀ (S : Type) (o o' : BitVecOps 64 S), BuildsRead o o' → ∀ s, Builds (Rank9.newC c A o s) (Rank9.newC (c.fewer kp) A o' s)) ∧
    (∀ (w : Nat) (S : Type) (o o' : BitVecOps w S), BuildsRead o o' →
      ∀ s, Builds (Jacobson.newC c A o s) (Jacobson.newC (c.fewer kp) A o' s)) ∧
    (∀ (α : Type) (S : SpaceOps α) a, Builds (S.totalBytes c a) (S.totalBytes (c.fewer kp) a)) ∧
    (∀ (α : Type) (S : SpaceOps α) n a, Builds ((SpaceOps.vec c n S).heapBytes a) ((SpaceOps.vec (c.fewer kp) n S).heapBytes a)) ∧
    (∀ ts (a : SpaceOps.Tuple ts), Builds (SpaceOps.tupleHeapBytes c a) (SpaceOps.tupleHeapBytes (c.fewer kp) a)) := by
  refine ⟨fun _ _ _ => ?_, fun _ _ _ => ?_, fun _ _ _ _ => ?_, fun S o o' h s => ?_, fun w S o o' h s => ?_, fun α S a => ?_,
    fun α S n a => ?_, fun ts a => ?_⟩
  · exact .of fun _ _ => inferInstance
  · exact .of fun _ _ => inferInstance
  · exact .of fun _ _ => inferInstance
  · have := h.agree
    exact .of fun _ _ => inferInstance
  · have := h.agree
    exact .of fun _ _ => inferInstance
  · exact .of fun _ _ => inferInstance
  · exact .of fun _ _ => (SpaceOps.vec_agree c n).heapBytes _ _ a
  · exact .of fun _ _ => SpaceOps.tupleSum_agree c a 0

/-! ### The panics that are added -/

/-- Both sides of the alternative occur: a rank query past the end of a word, the length of an exhausted iterator, a
slice whose start wraps around. -/
theorem C107_added_panics :
    (bwRank1 ⟨true, .p64, true⟩ 0xFF 130 = .panic ∧ bwRank1 ⟨false, .p64, false⟩ 0xFF 130 = .ok 3) ∧
    ((⟨5, 3, 1, ⟨3, [7]⟩⟩ : VIter 8).len ⟨true, .p64, true⟩ = .panic ∧ (⟨5, 3, 1, ⟨3, [7]⟩⟩ : VIter 8).len ⟨false, .p64, false⟩ = .ok (2 ^ 64 - 2)) ∧
    (Slice.slice ⟨true, .p64, true⟩ (⟨(0xFF : BitVec 8), 2 ^ 64 - 1, 0⟩ : Slice (BitVec 8)) (.range 1 0) = .panic ∧
      Slice.slice ⟨false, .p64, false⟩ (⟨(0xFF : BitVec 8), 2 ^ 64 - 1, 0⟩ : Slice (BitVec 8)) (.range 1 0) = .ok ⟨0xFF, 0, 0⟩) := by
  decide +kernel

example : (⟨true, .p32, true⟩ : Cfg).fewer ⟨false, false⟩ = ⟨false, .p32, false⟩ ∧
    (⟨true, .p32, true⟩ : Cfg).fewer ⟨true, false⟩ = ⟨true, .p32, false⟩ ∧
    (⟨false, .p64, true⟩ : Cfg).fewer ⟨true, false⟩ = ⟨false, .p64, false⟩ := ⟨rfl, rfl, rfl⟩

example : bvRun ⟨true, .p64, true⟩ (VB.new : VB 8) [.pushBit true, .pushBlock 0x55, .getBits 0 3, .popBit] =
    bvRun ⟨false, .p64, false⟩ (VB.new : VB 8) [.pushBit true, .pushBlock 0x55, .getBits 0 3, .popBit] ∧
    bvRun ⟨true, .p64, true⟩ (VB.new : VB 8) [.pushBit true, .getBit 1] = .panic := by
  decide +kernel

/-- a store in the two builds, and a rank structure over a slice of it -/
example (c : Cfg) (kp : Kept) : BuildsRank (Rank9.ops c (sliceBitVec c (bvBitVec c 64))) (Rank9.ops (c.fewer kp) (sliceBitVec (c.fewer kp) (bvBitVec (c.fewer kp) 64))) :=
  ((C107_rank_select c kp).2.1 _ _ _ ((C107_wrappers c kp).1 64 (VB 64) Unit _ _ (C107_bitvec c kp 64).1.write.read).1).2

example (c : Cfg) (kp : Kept) : BuildsCode c kp (delta c) (delta (c.fewer kp)) := .elias (.lift0 (.elias .unary))

/-! Each theorem of this file that has hypotheses is applied to concrete data in `Verif/Instances/Builds.lean`. -/

end Succinct
