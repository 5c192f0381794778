import Verif.Lemmas.HiddenStill
import Verif.Lemmas.BitBuffer
import Verif.Props.Rank
import Verif.Props.Select
import Verif.Props.Coding
/-!
# C137: vectors with hidden state
-/
namespace Succinct
open Spec Hidden

/-- The two calls, on related receivers, do the same: both panic, both run forever, or both return the same value
and leave related receivers. -/
def Same (R : S → T → Prop) (m : HM S α) (m' : HM T α) : Prop :=
  ∀ s t, R s t → (m s = .panic ∧ m' t = .panic) ∨ (m s = .diverge ∧ m' t = .diverge) ∨
    ∃ a s' t', m s = .ok (a, s') ∧ m' t = .ok (a, t') ∧ R s' t'

/-- No call can tell related receivers apart. -/
structure Alike (R : S → T → Prop) (h : HVec w S) (h' : HVec w T) : Prop where
  bitLen : Same R h.bitLen h'.bitLen
  blockLen : Same R h.blockLen h'.blockLen
  getBit : ∀ i, Same R (h.getBit i) (h'.getBit i)
  getBlock : ∀ i, Same R (h.getBlock i) (h'.getBlock i)
  getBits : ∀ i n, Same R (h.getBits i n) (h'.getBits i n)

structure AlikeMut (R : S → T → Prop) (h : HVecMut w S) (h' : HVecMut w T) : Prop extends Alike R h.toHVec h'.toHVec where
  setBit : ∀ i b, Same R (h.setBit i b) (h'.setBit i b)
  setBlock : ∀ i x, Same R (h.setBlock i x) (h'.setBlock i x)
  setBits : ∀ i n x, Same R (h.setBits i n x) (h'.setBits i n x)

structure AlikePush (R : S → T → Prop) (h : HVecPush w S) (h' : HVecPush w T) : Prop extends
    AlikeMut R h.toHVecMut h'.toHVecMut where
  pushBit : ∀ b, Same R (h.pushBit b) (h'.pushBit b)
  popBit : Same R h.popBit h'.popBit
  alignBlock : ∀ b, Same R (h.alignBlock b) (h'.alignBlock b)
  pushBlock : ∀ x, Same R (h.pushBlock x) (h'.pushBlock x)

structure AlikeRank (R : S → T → Prop) (r : HRank S) (r' : HRank T) : Prop where
  limit : Same R r.limit r'.limit
  rank : ∀ p v, Same R (r.rank p v) (r'.rank p v)
  rank1 : ∀ p, Same R (r.rank1 p) (r'.rank1 p)
  rank0 : ∀ p, Same R (r.rank0 p) (r'.rank0 p)

/-- The relation, seen from the other side. -/
def Back (R : S → T → Prop) (t : T) (s : S) : Prop := R s t

section
variable {S T : Type} {R : S → T → Prop} {w : Nat}

theorem Same.half {m : HM S α} {m' : HM T α} (h : Same R m m') : Half R Eq m m' := by
  intro s t hR
  rcases h s t hR with ⟨h1, h2⟩ | ⟨h1, h2⟩ | ⟨a, s', t', h1, h2, h3⟩
  · rw [h1]; exact h2
  · rw [h1]; trivial
  · rw [h1]; exact ⟨a, t', h2, rfl, h3⟩

theorem Same.back {m : HM S α} {m' : HM T α} (h : Same R m m') : Same (Back R) m' m := by
  intro t s hR
  rcases h s t hR with ⟨h1, h2⟩ | ⟨h1, h2⟩ | ⟨a, s', t', h1, h2, h3⟩
  · exact .inl ⟨h2, h1⟩
  · exact .inr (.inl ⟨h2, h1⟩)
  · exact .inr (.inr ⟨a, t', s', h2, h1, h3⟩)

theorem Same.of {m : HM S α} {m' : HM T α} (h1 : Half R Eq m m') (h2 : Half (Back R) Eq m' m) : Same R m m' := by
  intro s t hR
  have g1 := h1 s t hR
  have g2 := h2 t s hR
  cases hm : m s with
  | ok p =>
    obtain ⟨a, s'⟩ := p
    rw [hm] at g1
    obtain ⟨b, t', e1, e2, e3⟩ := g1
    exact .inr (.inr ⟨a, s', t', rfl, by rw [e1, e2], e3⟩)
  | panic =>
    rw [hm] at g1
    exact .inl ⟨rfl, g1⟩
  | diverge =>
    refine .inr (.inl ⟨rfl, ?_⟩)
    cases hm' : m' t with
    | ok p =>
      obtain ⟨a, s'⟩ := p
      rw [hm'] at g2
      obtain ⟨b, t', e1, -⟩ := g2
      rw [hm] at e1; cases e1
    | panic =>
      rw [hm', hm] at g2; cases g2
    | diverge => rfl

theorem Alike.mimics {h : HVec w S} {h' : HVec w T} (a : Alike R h h') : Mimics R h h' :=
  ⟨a.bitLen.half, a.blockLen.half, fun i => (a.getBit i).half, fun i => (a.getBlock i).half, fun i n => (a.getBits i n).half⟩
theorem Alike.back {h : HVec w S} {h' : HVec w T} (a : Alike R h h') : Alike (Back R) h' h :=
  ⟨a.bitLen.back, a.blockLen.back, fun i => (a.getBit i).back, fun i => (a.getBlock i).back, fun i n => (a.getBits i n).back⟩
theorem Alike.of {h : HVec w S} {h' : HVec w T} (a : Mimics R h h') (b : Mimics (Back R) h' h) : Alike R h h' :=
  ⟨.of a.bitLen b.bitLen, .of a.blockLen b.blockLen, fun i => .of (a.getBit i) (b.getBit i),
    fun i => .of (a.getBlock i) (b.getBlock i), fun i n => .of (a.getBits i n) (b.getBits i n)⟩

theorem AlikeMut.mimics {h : HVecMut w S} {h' : HVecMut w T} (a : AlikeMut R h h') : MimicsMut R h h' :=
  ⟨a.toAlike.mimics, fun i b => (a.setBit i b).half, fun i x => (a.setBlock i x).half, fun i n x => (a.setBits i n x).half⟩
theorem AlikeMut.back {h : HVecMut w S} {h' : HVecMut w T} (a : AlikeMut R h h') : AlikeMut (Back R) h' h :=
  ⟨a.toAlike.back, fun i b => (a.setBit i b).back, fun i x => (a.setBlock i x).back, fun i n x => (a.setBits i n x).back⟩
theorem AlikeMut.of {h : HVecMut w S} {h' : HVecMut w T} (a : MimicsMut R h h') (b : MimicsMut (Back R) h' h) : AlikeMut R h h' :=
  ⟨.of a.toMimics b.toMimics, fun i x => .of (a.setBit i x) (b.setBit i x), fun i x => .of (a.setBlock i x) (b.setBlock i x),
    fun i n x => .of (a.setBits i n x) (b.setBits i n x)⟩

theorem AlikePush.mimics {h : HVecPush w S} {h' : HVecPush w T} (a : AlikePush R h h') : MimicsPush R h h' :=
  ⟨a.toAlikeMut.mimics, fun b => (a.pushBit b).half, a.popBit.half, fun b => (a.alignBlock b).half, fun x => (a.pushBlock x).half⟩
theorem AlikePush.back {h : HVecPush w S} {h' : HVecPush w T} (a : AlikePush R h h') : AlikePush (Back R) h' h :=
  ⟨a.toAlikeMut.back, fun b => (a.pushBit b).back, a.popBit.back, fun b => (a.alignBlock b).back, fun x => (a.pushBlock x).back⟩

theorem AlikeRank.of {r : HRank S} {r' : HRank T} (a : MimicsRank R r r') (b : MimicsRank (Back R) r' r) : AlikeRank R r r' :=
  ⟨.of a.limit b.limit, fun p v => .of (a.rank p v) (b.rank p v), fun p => .of (a.rank1 p) (b.rank1 p), fun p => .of (a.rank0 p) (b.rank0 p)⟩

theorem back_slice : SliceRel (Back R) = Back (SliceRel R) := by
  funext a b; exact propext ⟨fun ⟨h1, h2, h3⟩ => ⟨h1, h2.symm, h3.symm⟩, fun ⟨h1, h2, h3⟩ => ⟨h1, h2.symm, h3.symm⟩⟩
theorem back_jacobson : JacobsonRel (Back R) = Back (JacobsonRel R) := by
  funext a b
  exact propext ⟨fun ⟨h1, h2, h3, h4⟩ => ⟨h1, h2.symm, h3.symm, h4.symm⟩, fun ⟨h1, h2, h3, h4⟩ => ⟨h1, h2.symm, h3.symm, h4.symm⟩⟩
theorem back_rank9 : Rank9Rel (Back R) = Back (Rank9Rel R) := by
  funext a b; exact propext ⟨fun ⟨h1, h2⟩ => ⟨h1, h2.symm⟩, fun ⟨h1, h2⟩ => ⟨h1, h2.symm⟩⟩
theorem back_buf : BufRel (Back R) = Back (BufRel R) := by
  funext a b; exact propext ⟨fun ⟨h1, h2⟩ => ⟨h1, h2.symm⟩, fun ⟨h1, h2⟩ => ⟨h1, h2.symm⟩⟩

/-! ### Generic code cannot tell two implementations apart -/

/-- C137. The default methods over vectors that cannot be told apart cannot be told apart. -/
theorem C137_defaults (c : Cfg) {h : HVecPush w S} {h' : HVecPush w T} (a : AlikePush R h h') :
    Same R (Hidden.blockLen c w h.bitLen) (Hidden.blockLen c w h'.bitLen) ∧
    (∀ p, Same R (Hidden.getBit c h.bitLen h.getBlock p) (Hidden.getBit c h'.bitLen h'.getBlock p)) ∧
    (∀ p, Same R (Hidden.getBlock (w := w) c h.bitLen h.blockLen h.getBit p) (Hidden.getBlock c h'.bitLen h'.blockLen h'.getBit p)) ∧
    (∀ p n, Same R (Hidden.getBits c h.bitLen h.getBlock p n) (Hidden.getBits c h'.bitLen h'.getBlock p n)) ∧
    (∀ p b, Same R (Hidden.setBit c h.bitLen h.getBlock h.setBlock p b) (Hidden.setBit c h'.bitLen h'.getBlock h'.setBlock p b)) ∧
    (∀ p (x : BitVec w), Same R (Hidden.setBlock c h.bitLen h.blockLen h.setBit p x) (Hidden.setBlock c h'.bitLen h'.blockLen h'.setBit p x)) ∧
    (∀ p n x, Same R (Hidden.setBits c h.bitLen h.getBlock h.setBlock p n x) (Hidden.setBits c h'.bitLen h'.getBlock h'.setBlock p n x)) ∧
    (∀ b, Same R (Hidden.alignBlock c w h.bitLen h.pushBit b) (Hidden.alignBlock c w h'.bitLen h'.pushBit b)) ∧
    (∀ x : BitVec w, Same R (Hidden.pushBlock c h.alignBlock h.pushBit x) (Hidden.pushBlock c h'.alignBlock h'.pushBit x)) := by
  have m := a.mimics
  have b := a.back.mimics
  exact ⟨.of (half_blockLen c m.bitLen) (half_blockLen c b.bitLen),
    fun p => .of (half_getBit c m.bitLen m.getBlock p) (half_getBit c b.bitLen b.getBlock p),
    fun p => .of (half_getBlock c m.bitLen m.blockLen m.getBit p) (half_getBlock c b.bitLen b.blockLen b.getBit p),
    fun p n => .of (half_getBits c m.bitLen m.getBlock p n) (half_getBits c b.bitLen b.getBlock p n),
    fun p x => .of (half_setBit c m.bitLen m.getBlock m.setBlock p x) (half_setBit c b.bitLen b.getBlock b.setBlock p x),
    fun p x => .of (half_setBlock c m.bitLen m.blockLen m.setBit p x) (half_setBlock c b.bitLen b.blockLen b.setBit p x),
    fun p n x => .of (half_setBits c m.bitLen m.getBlock m.setBlock p n x) (half_setBits c b.bitLen b.getBlock b.setBlock p n x),
    fun x => .of (half_alignBlock c m.bitLen m.pushBit x) (half_alignBlock c b.bitLen b.pushBit x),
    fun x => .of (half_pushBlock c m.pushBit m.alignBlock x) (half_pushBlock c b.pushBit b.alignBlock x)⟩

/-- C137. Nor can slices of them, once made. -/
theorem C137_slice (c : Cfg) :
    (∀ {h : HVec w S} {h' : HVec w T}, Alike R h h' → Alike (SliceRel R) (slice c h) (slice c h')) ∧
    (∀ {h : HVecMut w S} {h' : HVecMut w T}, AlikeMut R h h' → AlikeMut (SliceRel R) (sliceMut c h) (sliceMut c h')) :=
  ⟨fun a => .of (mimics_slice c a.mimics) (back_slice ▸ mimics_slice c a.back.mimics),
    fun a => .of (mimics_sliceMut c a.mimics) (back_slice ▸ mimics_sliceMut c a.back.mimics)⟩

/-- C137. The same range can be taken of both, or of neither. -/
theorem C137_slice_new {h : HVec w S} {h' : HVec w T} (a : Alike R h h') (r : RangeArg) {s : S} {t : T} (hR : R s t) :
    (sliceNew h r s = .panic ∧ sliceNew h' r t = .panic) ∨ (sliceNew h r s = .diverge ∧ sliceNew h' r t = .diverge) ∨
    ∃ x y, sliceNew h r s = .ok x ∧ sliceNew h' r t = .ok y ∧ SliceRel R x y := by
  unfold sliceNew
  rcases a.bitLen s t hR with ⟨h1, h2⟩ | ⟨h1, h2⟩ | ⟨n, s1, t1, h1, h2, h3⟩
  · rw [h1, h2]; exact .inl ⟨rfl, rfl⟩
  · rw [h1, h2]; exact .inr (.inl ⟨rfl, rfl⟩)
  rw [h1, h2]
  simp only [Res.ok_bind]
  rcases a.bitLen s1 t1 h3 with ⟨h1, h2⟩ | ⟨h1, h2⟩ | ⟨m, s2, t2, h1, h2, h3⟩
  · rw [h1, h2]; exact .inl ⟨rfl, rfl⟩
  · rw [h1, h2]; exact .inr (.inl ⟨rfl, rfl⟩)
  rw [h1, h2]
  simp only [Res.ok_bind]
  by_cases hm : (r.intoRange 0 n).2 ≤ m
  · rw [assertR_true hm]
    exact .inr (.inr ⟨_, _, rfl, rfl, h3, rfl, rfl⟩)
  · rw [assertR_false hm]
    exact .inl ⟨rfl, rfl⟩

/-- C137. Nor can Jacobson's structures: they can be built over both or neither, and answer every query alike. -/
theorem C137_jacobson (c : Cfg) {h : HVec w S} {h' : HVec w T} (a : Alike R h h') :
    (∀ {s t}, R s t → (jacobsonNew c h s = .panic ∧ jacobsonNew c h' t = .panic) ∨
      (jacobsonNew c h s = .diverge ∧ jacobsonNew c h' t = .diverge) ∨
      ∃ j j', jacobsonNew c h s = .ok j ∧ jacobsonNew c h' t = .ok j' ∧ JacobsonRel R j j') ∧
    AlikeRank (JacobsonRel R) (jacobson c h) (jacobson c h') := by
  refine ⟨fun {s t} hR => ?_, .of (mimics_jacobson c a.mimics) (back_jacobson ▸ mimics_jacobson c a.back.mimics)⟩
  unfold jacobsonNew
  rcases (Same.of (half_jacobsonParts c a.mimics) (half_jacobsonParts c a.back.mimics)) s t hR with
    ⟨h1, h2⟩ | ⟨h1, h2⟩ | ⟨p, s', t', h1, h2, h3⟩ <;> rw [h1, h2]
  · exact .inl ⟨rfl, rfl⟩
  · exact .inr (.inl ⟨rfl, rfl⟩)
  · exact .inr (.inr ⟨_, _, rfl, rfl, h3, rfl, rfl, rfl⟩)

/-- C137. Nor can `Rank9` structures. -/
theorem C137_rank9 (c : Cfg) {h : HVec 64 S} {h' : HVec 64 T} (a : Alike R h h') :
    (∀ {s t}, R s t → (rank9New c h s = .panic ∧ rank9New c h' t = .panic) ∨
      (rank9New c h s = .diverge ∧ rank9New c h' t = .diverge) ∨
      ∃ j j', rank9New c h s = .ok j ∧ rank9New c h' t = .ok j' ∧ Rank9Rel R j j') ∧
    AlikeRank (Rank9Rel R) (rank9 c h) (rank9 c h') := by
  refine ⟨fun {s t} hR => ?_, .of (mimics_rank9 c a.mimics) (back_rank9 ▸ mimics_rank9 c a.back.mimics)⟩
  unfold rank9New
  rcases (Same.of (half_rank9Parts c a.mimics) (half_rank9Parts c a.back.mimics)) s t hR with
    ⟨h1, h2⟩ | ⟨h1, h2⟩ | ⟨p, s', t', h1, h2, h3⟩ <;> rw [h1, h2]
  · exact .inl ⟨rfl, rfl⟩
  · exact .inr (.inl ⟨rfl, rfl⟩)
  · exact .inr (.inr ⟨_, _, rfl, rfl, h3, rfl⟩)

/-- C137. Nor can select structures over rank structures that cannot be told apart. -/
theorem C137_select (c : Cfg) {r : HRank S} {r' : HRank T} (a : AlikeRank R r r') (k : Nat) :
    Same (SelectRel R) (selectBy c r r.rank1 k) (selectBy c r' r'.rank1 k) ∧
    Same (SelectRel R) (selectBy c r r.rank0 k) (selectBy c r' r'.rank0 k) ∧
    ∀ v, Same (SelectRel R) (selectBy c r (fun i => r.rank i v) k) (selectBy c r' (fun i => r'.rank i v) k) :=
  ⟨.of (half_selectBy c a.limit.half (fun i => (a.rank1 i).half) k) (half_selectBy c a.limit.back.half (fun i => (a.rank1 i).back.half) k),
    .of (half_selectBy c a.limit.half (fun i => (a.rank0 i).half) k) (half_selectBy c a.limit.back.half (fun i => (a.rank0 i).back.half) k),
    fun v => .of (half_selectBy c a.limit.half (fun i => (a.rank i v).half) k)
      (half_selectBy c a.limit.back.half (fun i => (a.rank i v).back.half) k)⟩

/-- C137. Nor can buffers, read, written, or used as vectors. -/
theorem C137_buffer (c : Cfg) :
    (∀ {h : HVec w S} {h' : HVec w T}, Alike R h h' → Alike (BufRel R) (buf c h) (buf c h') ∧
      Same (BufRel R) (bufReadBit c h) (bufReadBit c h')) ∧
    (∀ {h : HVecMut w S} {h' : HVecMut w T}, AlikeMut R h h' → AlikeMut (BufRel R) (bufMut c h) (bufMut c h')) ∧
    (∀ {h : HVecPush w S} {h' : HVecPush w T}, AlikePush R h h' → ∀ b, Same (BufRel R) (bufWriteBit c h b) (bufWriteBit c h' b)) :=
  ⟨fun a => ⟨.of (mimics_buf c a.mimics) (back_buf ▸ mimics_buf c a.back.mimics),
      .of (half_bufReadBit c a.mimics) (back_buf ▸ half_bufReadBit c a.back.mimics)⟩,
    fun a => .of (mimics_bufMut c a.mimics) (back_buf ▸ mimics_bufMut c a.back.mimics),
    fun a b => .of (half_bufWriteBit c a.mimics b) (back_buf ▸ half_bufWriteBit c a.back.mimics b)⟩

end

/-! ### Without hidden state this is the code of the other models -/

/-- C137. Over a vector without hidden state, the code of `Model/Hidden.lean` is that of the other models. -/
theorem C137_still (c : Cfg) {S : Type} {w : Nat} :
    (∀ o : BitVecOps w S, slice c o.still = (sliceBitVec c o).still ∧ buf c o.still = (BitBuf.bitVec c o).still ∧
      bufRead c o.still = BitBuf.read c o ∧ (∀ s, jacobsonNew c o.still s = Jacobson.new c o s) ∧
      jacobson c o.still = stillRank (Jacobson.ops c o) ∧ (∀ r s, sliceNew o.still r s = Slice.new o s r) ∧
      (∀ s, bufAppend o.still s = BitBuf.append o s) ∧ ∀ p, bufSeek o.still p = BitBuf.seek o p) ∧
    (∀ o : BitVecMutOps w S, sliceMut c o.still = (sliceBitVecMut c o).still ∧ bufMut c o.still = (BitBuf.bitVecMut c o).still) ∧
    (∀ o : BitVecPushOps w S, bufWrite c o.still = BitBuf.write c o) ∧
    (∀ o : BitVecOps 64 S, (∀ s, rank9New c o.still s = Rank9.new c o s) ∧ rank9 c o.still = stillRank (Rank9.ops c o)) ∧
    ∀ (r : RankOps S) (rank : S → Nat → Res Nat) k, selectBy c (stillRank r) (fun i => HM.look fun s => rank s i) k =
      HM.look fun s => BinSearchSelect.selectBy c r rank s k :=
  ⟨fun o => ⟨still_slice c o, still_buf c o, still_bufRead c o, still_jacobsonNew c o, still_jacobson c o, still_sliceNew o,
      still_bufAppend o, still_bufSeek o⟩,
    fun o => ⟨still_sliceMut c o, still_bufMut c o⟩, fun o => still_bufWrite c o,
    fun o => ⟨still_rank9New c o, still_rank9 c o⟩, fun r rank k => still_selectBy c r rank k⟩

/-- C137. So are the default methods. -/
theorem C137_still_defaults (c : Cfg) {S : Type} {w : Nat} (bl kl : S → Res Nat) (gb : S → Nat → Res (BitVec w))
    (gt : S → Nat → Res Bool) (sb : S → Nat → BitVec w → Res S) (st : S → Nat → Bool → Res S) (pb ab : S → Bool → Res S) :
    Hidden.blockLen c w (HM.look bl) = HM.look (dfltBlockLen c w bl) ∧
    (∀ p, Hidden.getBit c (HM.look bl) (fun i => HM.look fun s => gb s i) p = HM.look fun s => dfltGetBit c bl gb s p) ∧
    (∀ p, Hidden.getBlock (w := w) c (HM.look bl) (HM.look kl) (fun i => HM.look fun s => gt s i) p =
      HM.look fun s => dfltGetBlock c bl kl gt s p) ∧
    (∀ p n, Hidden.getBits c (HM.look bl) (fun i => HM.look fun s => gb s i) p n = HM.look fun s => dfltGetBits c bl gb s p n) ∧
    (∀ p b, Hidden.setBit c (HM.look bl) (fun i => HM.look fun s => gb s i) (fun i x => HM.act fun s => sb s i x) p b =
      HM.act fun s => dfltSetBit c bl gb sb s p b) ∧
    (∀ p (x : BitVec w), Hidden.setBlock c (HM.look bl) (HM.look kl) (fun i b => HM.act fun s => st s i b) p x =
      HM.act fun s => dfltSetBlock c bl kl st s p x) ∧
    (∀ p n x, Hidden.setBits c (HM.look bl) (fun i => HM.look fun s => gb s i) (fun i x => HM.act fun s => sb s i x) p n x =
      HM.act fun s => dfltSetBits c bl gb sb s p n x) ∧
    (∀ b, Hidden.alignBlock c w (HM.look bl) (fun b => HM.act fun s => pb s b) b = HM.act fun s => dfltAlignBlock c w bl pb s b) ∧
    (∀ x : BitVec w, Hidden.pushBlock c (fun b => HM.act fun s => ab s b) (fun b => HM.act fun s => pb s b) x =
      HM.act fun s => dfltPushBlock c ab pb s x) :=
  ⟨still_blockLen c bl, still_getBit c bl gb, still_getBlock c bl kl gt, still_getBits c bl gb, still_setBit c bl gb sb,
    still_setBlock c bl kl st, still_setBits c bl gb sb, still_alignBlock c bl pb, still_pushBlock c pb ab⟩

/-! ### What this means for correctness -/

/-- A question to a rank structure. -/
inductive RankQ where
  | limit
  | rank1 (p : Nat)
  | rank0 (p : Nat)
  | rank (p : Nat) (v : Bool)

/-- The call that asks it. -/
def RankQ.ask (r : HRank S) : RankQ → HM S Nat
  | .limit => r.limit
  | .rank1 p => r.rank1 p
  | .rank0 p => r.rank0 p
  | .rank p v => r.rank p v

/-- Ask the questions, one after another. -/
def askRank (r : HRank S) : List RankQ → HM S (List Nat)
  | [] => pure []
  | q :: qs => do
    let a ← q.ask r
    let as ← askRank r qs
    pure (a :: as)

/-- The right answer about a list of bits, for a question inside it. -/
def RankQ.answer (bits : List Bool) : RankQ → Option Nat
  | .limit => some bits.length
  | .rank1 p => if p < bits.length then some (ones bits (p + 1)) else none
  | .rank0 p => if p < bits.length then some (zeros bits (p + 1)) else none
  | .rank p v => if p < bits.length then some (occ v bits (p + 1)) else none

theorem askRank_ok {R : S → T → Prop} {r : HRank S} {o : RankOps T} (a : AlikeRank R r (stillRank o)) {t : T} {bits : List Bool}
    (ho : RankLaw o t bits) {s : S} (hR : R s t) (qs : List RankQ) (as : List Nat)
    (hq : qs.mapM (RankQ.answer bits) = some as) : ∃ s', askRank r qs s = .ok (as, s') ∧ R s' t := by
  have key : ∀ (m : HM S Nat) (f : T → Res Nat) s x, Same R m (HM.look f) → R s t → f t = .ok x →
      ∃ s', m s = .ok (x, s') ∧ R s' t := by
    intro m f s x h1 h2 h3
    have e : HM.look f t = .ok (x, t) := by rw [HM.look_run, h3]; rfl
    rcases h1 s t h2 with ⟨g1, g2⟩ | ⟨g1, g2⟩ | ⟨a, s', t', g1, g2, g3⟩
    · rw [e] at g2; cases g2
    · rw [e] at g2; cases g2
    · rw [e] at g2; cases g2; exact ⟨s', g1, g3⟩
  induction qs generalizing s as with
  | nil =>
    simp at hq; subst hq
    exact ⟨s, rfl, hR⟩
  | cons q qs ih =>
    rw [List.mapM_cons] at hq
    cases hx : q.answer bits with
    | none => rw [hx] at hq; cases hq
    | some x =>
    rw [hx] at hq
    cases has : qs.mapM (RankQ.answer bits) with
    | none => rw [has] at hq; cases hq
    | some as' =>
    rw [has] at hq
    obtain rfl : x :: as' = as := by simpa using hq
    have hstep : ∃ s', q.ask r s = .ok (x, s') ∧ R s' t := by
      cases q with
      | limit =>
        simp only [RankQ.answer, Option.some.injEq] at hx
        exact key _ _ s x a.limit hR (hx ▸ ho.limit)
      | rank1 p =>
        simp only [RankQ.answer] at hx
        split at hx
        · simp only [Option.some.injEq] at hx; exact key _ _ s x (a.rank1 p) hR (hx ▸ ho.rank1 p ‹_›)
        · cases hx
      | rank0 p =>
        simp only [RankQ.answer] at hx
        split at hx
        · simp only [Option.some.injEq] at hx; exact key _ _ s x (a.rank0 p) hR (hx ▸ ho.rank0 p ‹_›)
        · cases hx
      | rank p v =>
        simp only [RankQ.answer] at hx
        split at hx
        · simp only [Option.some.injEq] at hx; exact key _ _ s x (a.rank p v) hR (hx ▸ ho.rank p ‹_› v)
        · cases hx
    obtain ⟨s1, h1, hR1⟩ := hstep
    obtain ⟨s2, h2, hR2⟩ := ih hR1 as' has
    refine ⟨s2, ?_, hR2⟩
    unfold askRank
    rw [HM.bind_run, h1, Res.ok_bind, HM.bind_run, h2]
    rfl

section
variable {S T : Type} {R : S → T → Prop} {w : Nat} {c : Cfg} {P : T → List Bool → Prop}

/-- C137 for `Rank9`: over a vector with hidden state that cannot be told from a lawful one, it can be built, and
any sequence of questions gets the right answers. -/
theorem C137_rank9_correct {h : HVec 64 S} {o : BitVecOps 64 T} (a : Alike R h o.still) (hl : BVLaw c o P)
    (hbl : BVBlockRead o P) {s : S} {t : T} (hR : R s t) {bits : List Bool} (hP : P t bits)
    (hu : blocksFor 64 bits.length + 8 < 2 ^ c.usz) (qs : List RankQ) (as : List Nat)
    (hq : qs.mapM (RankQ.answer bits) = some as) :
    ∃ r r', rank9New c h s = .ok r ∧ askRank (rank9 c h) qs r = .ok (as, r') := by
  obtain ⟨j, hj, -, law⟩ := C39_rank9 hl hbl hP hu
  obtain ⟨h1, h2⟩ := C137_rank9 c a
  rw [still_rank9] at h2
  have hnew : ∃ r, rank9New c h s = .ok r ∧ Rank9Rel R r j := by
    have := h1 hR
    rw [still_rank9New, hj] at this
    rcases this with ⟨-, e⟩ | ⟨-, e⟩ | ⟨r, r', g1, g2, g3⟩
    · cases e
    · cases e
    · cases g2; exact ⟨r, g1, g3⟩
  obtain ⟨r, g1, g2⟩ := hnew
  obtain ⟨r', g3, -⟩ := askRank_ok h2 law g2 qs as hq
  exact ⟨r, r', g1, g3⟩

/-- C137 for Jacobson's structure. -/
theorem C137_jacobson_correct (hw : IsBlk w) {h : HVec w S} {o : BitVecOps w T} (a : Alike R h o.still) (hl : BVLaw c o P)
    (hbl : BVBlockRead o P) (hpad : BVPadLaw o P) {s : S} {t : T} (hR : R s t) {bits : List Bool} (hP : P t bits)
    (hmem : InMemory c.usz bits.length) (h2 : 2 ≤ bits.length) (qs : List RankQ) (as : List Nat)
    (hq : qs.mapM (RankQ.answer bits) = some as) :
    ∃ r r', jacobsonNew c h s = .ok r ∧ askRank (jacobson c h) qs r = .ok (as, r') := by
  obtain ⟨j, hj, -, law⟩ := C37_jacobson hw hl hbl hpad hP hmem h2
  obtain ⟨h1, h2⟩ := C137_jacobson c a
  rw [still_jacobson] at h2
  have hnew : ∃ r, jacobsonNew c h s = .ok r ∧ JacobsonRel R r j := by
    have := h1 hR
    rw [still_jacobsonNew, hj] at this
    rcases this with ⟨-, e⟩ | ⟨-, e⟩ | ⟨r, r', g1, g2, g3⟩
    · cases e
    · cases e
    · cases g2; exact ⟨r, g1, g3⟩
  obtain ⟨r, g1, g2⟩ := hnew
  obtain ⟨r', g3, -⟩ := askRank_ok h2 law g2 qs as hq
  exact ⟨r, r', g1, g3⟩

/-- C137 for select: over a rank structure with hidden state that cannot be told from a lawful one, whatever was
asked before. -/
theorem C137_select_correct {r : HRank S} {o : RankOps T} (a : AlikeRank R r (stillRank o)) {s : S} {t : T} (hR : R s t)
    {bits : List Bool} (law : RankLaw o t bits) {k : Nat} (hk : k + 1 < 2 ^ 64) (v : Bool) :
    ∃ x s', selectBy c r (fun i => r.rank i v) k ⟨s⟩ = .ok (x, ⟨s'⟩) ∧ IsSelect v bits k x ∧ R s' t := by
  obtain ⟨x, hx, hs⟩ := (C44_select_partial c law hk).2.2 v
  have := (C137_select c a k).2.2 v ⟨s⟩ ⟨t⟩ hR
  have e := congrFun (still_selectBy c o (fun s i => o.rank s i v) k) ⟨t⟩
  have hx : BinSearchSelect.selectBy c o (fun s i => o.rank s i v) ⟨t⟩ k = .ok x := hx
  rw [HM.look_run, hx, Res.ok_bind] at e
  rw [show (fun i => (stillRank o).rank i v) = fun i => HM.look fun s => o.rank s i v from rfl, e] at this
  rcases this with ⟨-, e⟩ | ⟨-, e⟩ | ⟨y, s', t', g1, g2, g3⟩
  · cases e
  · cases e
  · cases g2; exact ⟨x, s'.rankSupport, g1, hs, g3⟩

theorem bufRead_source {h : HVec w S} {o : BitVecOps w T} (a : Alike R h o.still) {Rep : BitBuf T → List Bool → Prop}
    (hs : LawfulSource (BitBuf.read c o) Rep) :
    LawfulSource (bufRead c h) (fun b l => ∃ t, BufRel R b t ∧ Rep t l) := by
  have e : bufRead c o.still = BitBuf.read c o := still_bufRead c o
  have key : ∀ {b t x t'}, BufRel R b t → (BitBuf.read c o).readBit t = .ok (.ok x, t') →
      ∃ b', (bufRead c h).readBit b = .ok (.ok x, b') ∧ BufRel R b' t' := by
    intro b t x t' hbt hx
    rw [← e] at hx
    have hx : (bufReadBit c o.still t >>= fun p => Res.ok (Except.ok p.1, p.2)) = .ok (.ok x, t') := hx
    show ∃ b', (bufReadBit c h b >>= fun p => Res.ok (Except.ok p.1, p.2)) = .ok (.ok x, b') ∧ _
    rcases ((C137_buffer c).1 a).2 b t hbt with ⟨g1, g2⟩ | ⟨g1, g2⟩ | ⟨y, b', t'', g1, g2, g3⟩
    · rw [g2] at hx; cases hx
    · rw [g2] at hx; cases hx
    · rw [g2] at hx
      cases hx
      exact ⟨b', by rw [g1]; rfl, g3⟩
  constructor
  · rintro b x l ⟨t, hbt, ht⟩
    obtain ⟨t', h1, h2⟩ := hs.some ht
    obtain ⟨b', h3, h4⟩ := key hbt h1
    exact ⟨b', h3, t', h4, h2⟩
  · rintro b ⟨t, hbt, ht⟩
    obtain ⟨t', h1, h2⟩ := hs.none ht
    obtain ⟨b', h3, h4⟩ := key hbt h1
    exact ⟨b', h3, t', h4, h2⟩

theorem bufWrite_sink {h : HVecPush w S} {o : BitVecPushOps w T} (a : AlikePush R h o.still) {Rep : BitBuf T → List Bool → Prop}
    {Fit : Nat → Prop} (hs : LawfulSink (BitBuf.write c o) Rep Fit) :
    LawfulSink (bufWrite c h) (fun b l => ∃ t, BufRel R b t ∧ Rep t l) Fit := by
  have e : bufWrite c o.still = BitBuf.write c o := still_bufWrite c o
  constructor
  rintro b l ⟨t, hbt, ht⟩ x hf
  obtain ⟨t', h1, h2⟩ := hs.write ht x hf
  rw [← e] at h1
  have h1 : (bufWriteBit c o.still x t >>= fun p => Res.ok (Except.ok (), p.2)) = .ok (.ok (), t') := h1
  show ∃ b', (bufWriteBit c h x b >>= fun p => Res.ok (Except.ok (), p.2)) = .ok (.ok (), b') ∧ _
  rcases (C137_buffer c).2.2 a x b t hbt with ⟨g1, g2⟩ | ⟨g1, g2⟩ | ⟨y, b', t'', g1, g2, g3⟩
  · rw [g2] at h1; cases h1
  · rw [g2] at h1; cases h1
  · rw [g2] at h1
    cases h1
    exact ⟨b', by rw [g1]; rfl, t'', g3, h2⟩

/-- C137 for codes: encoding a list of values into a buffer over a vector with hidden state, and decoding from a
buffer over another, gives the values back. -/
theorem C137_codes (f : Bool) {K : Code} {D : Nat → Prop} {word : Nat → List Bool} (hK : CodeOf c f K D word)
    {h : HVecPush w S} {o : BitVecPushOps w T} (a : AlikePush R h o.still) {Fit : Nat → Prop} (hv : PushVec c w o P Fit)
    (hm : ∀ {m n}, Fit n → m ≤ n → Fit m) {s : S} {t : T} (hR : R s t) {l : List Bool} (hP : P t l)
    (vs : List Nat) (hvs : ∀ v ∈ vs, D v) (hf : Fit (l.length + (vs.flatMap word).length)) (k : Nat) :
    ∃ b d, encodeAll K (bufWrite c h) vs ⟨s, l.length⟩ = .ok (.ok (), b) ∧
      decodeMany K (bufRead c h.toHVec) (vs.length + k) ⟨b.data, l.length⟩ =
        .ok (.ok (vs.map some ++ List.replicate k none), d) := by
  have hs0 : ∃ t', BufRel R (⟨s, l.length⟩ : BitBuf S) t' ∧ bufR P t' ⟨l, l.length⟩ :=
    ⟨⟨t, l.length⟩, ⟨hR, rfl⟩, hP, rfl, Nat.le_refl _⟩
  obtain ⟨b, h1, ⟨b', hb, hP', hpos, hle⟩, h3⟩ := C62_streams c f hK (bufWrite_sink a (buf_sink hv)) hm
    (bufRead_source a.toAlike (buf_source hv.blk hv.law hv.block)) vs hvs k hs0 hf
  obtain ⟨d, h4, -⟩ := h3 ⟨b.data, l.length⟩ ⟨⟨b'.data, l.length⟩, ⟨hb.1, rfl⟩, ⟨l ++ vs.flatMap word, l.length⟩,
    ⟨hP', rfl, by simp⟩, by simp⟩
  exact ⟨b, d, h1, h4⟩

end

/-! ### An example: a vector that remembers the block it read last -/

/-- A vector with a `Cell<Option<(usize, Block)>>`. -/
structure Cached (w : Nat) (T : Type) where
  data : T
  last : Option (Nat × BitVec w)

namespace Cached
variable {w : Nat} {T : Type}

/-- Answer from the cell, if it holds the block; otherwise read it and put it there. -/
def getBlock (o : BitVecOps w T) (i : Nat) : HM (Cached w T) (BitVec w) := fun s =>
  match s.last with
  | some (j, x) => if j = i then .ok (x, s) else do let x ← o.getBlock s.data i; .ok (x, ⟨s.data, some (i, x)⟩)
  | none => do let x ← o.getBlock s.data i; .ok (x, ⟨s.data, some (i, x)⟩)

/-- Everything that changes the vector empties the cell. -/
def change (f : T → Res (α × T)) : HM (Cached w T) α := fun s => do
  let (a, t) ← f s.data
  .ok (a, ⟨t, none⟩)

def ops (o : BitVecPushOps w T) : HVecPush w (Cached w T) where
  bitLen := HM.look fun s => o.bitLen s.data
  blockLen := HM.look fun s => o.blockLen s.data
  getBit i := HM.look fun s => o.getBit s.data i
  getBlock := getBlock o.toBitVecOps
  getBits i n := HM.look fun s => o.getBits s.data i n
  setBit i b := change (o.still.setBit i b)
  setBlock i x := change (o.still.setBlock i x)
  setBits i n x := change (o.still.setBits i n x)
  pushBit b := change (o.still.pushBit b)
  popBit := change o.still.popBit
  alignBlock b := change (o.still.alignBlock b)
  pushBlock x := change (o.still.pushBlock x)

/-- The cell holds what it should. -/
def Rel (o : BitVecOps w T) (s : Cached w T) (t : T) : Prop :=
  s.data = t ∧ ∀ j x, s.last = some (j, x) → o.getBlock t j = .ok x

end Cached

theorem Same.look {R : S → T → Prop} {f : S → Res α} {g : T → Res α} (h : ∀ s t, R s t → f s = g t) :
    Same R (HM.look f) (HM.look g) := by
  intro s t hR
  rw [HM.look_run, HM.look_run, h s t hR]
  cases g t with
  | ok a => exact .inr (.inr ⟨a, s, t, rfl, rfl, hR⟩)
  | panic => exact .inl ⟨rfl, rfl⟩
  | diverge => exact .inr (.inl ⟨rfl, rfl⟩)

/-- C137, an instance: a vector that caches the block it read last, and empties the cache when it is changed, cannot
be told from the vector without a cache. -/
theorem C137_cache {w : Nat} {T : Type} (o : BitVecPushOps w T) :
    AlikePush (Cached.Rel o.toBitVecOps) (Cached.ops o) o.still := by
  have hc : ∀ {α} (m : HM T α), Same (Cached.Rel o.toBitVecOps) (Cached.change m) m := by
    intro α m s t hR
    obtain ⟨rfl, -⟩ := hR
    unfold Cached.change
    cases h : m s.data with
    | ok p =>
      obtain ⟨a, t⟩ := p
      exact .inr (.inr ⟨a, _, t, rfl, rfl, rfl, fun j x h => by cases h⟩)
    | panic => exact .inl ⟨rfl, rfl⟩
    | diverge => exact .inr (.inl ⟨rfl, rfl⟩)
  have hb : ∀ i, Same (Cached.Rel o.toBitVecOps) (Cached.getBlock o.toBitVecOps i) (HM.look fun t => o.getBlock t i) := by
    intro i s t hR
    obtain ⟨rfl, hlast⟩ := hR
    have miss : ((do let x ← o.getBlock s.data i; .ok (x, (⟨s.data, some (i, x)⟩ : Cached w T))) = .panic ∧
        (HM.look fun t => o.getBlock t i) s.data = .panic) ∨
      ((do let x ← o.getBlock s.data i; .ok (x, (⟨s.data, some (i, x)⟩ : Cached w T))) = .diverge ∧
        (HM.look fun t => o.getBlock t i) s.data = .diverge) ∨
      ∃ a s' t', (do let x ← o.getBlock s.data i; .ok (x, (⟨s.data, some (i, x)⟩ : Cached w T))) = .ok (a, s') ∧
        (HM.look fun t => o.getBlock t i) s.data = .ok (a, t') ∧ Cached.Rel o.toBitVecOps s' t' := by
      rw [HM.look_run]
      cases h : o.getBlock s.data i with
      | ok x => exact .inr (.inr ⟨x, _, _, rfl, rfl, rfl, fun j y e => by cases e; exact h⟩)
      | panic => exact .inl ⟨rfl, rfl⟩
      | diverge => exact .inr (.inl ⟨rfl, rfl⟩)
    unfold Cached.getBlock
    split
    · rename_i j x e
      split
      · rename_i hji
        subst hji
        refine .inr (.inr ⟨x, s, s.data, rfl, ?_, rfl, hlast⟩)
        rw [HM.look_run, hlast j x e]; rfl
      · exact miss
    · exact miss
  exact
    { bitLen := Same.look fun _ _ h => h.1 ▸ rfl
      blockLen := Same.look fun _ _ h => h.1 ▸ rfl
      getBit := fun i => Same.look fun _ _ h => h.1 ▸ rfl
      getBlock := hb
      getBits := fun i n => Same.look fun _ _ h => h.1 ▸ rfl
      setBit := fun i b => hc _
      setBlock := fun i x => hc _
      setBits := fun i n x => hc _
      pushBit := fun b => hc _
      popBit := hc _
      alignBlock := fun b => hc _
      pushBlock := fun x => hc _ }

-- a `Rank9` over a cached vector: two questions about one block, then one about another
example : (do let r ← rank9New ⟨true, .p64, true⟩ (Cached.ops (bvBitVecPush ⟨true, .p64, true⟩ 64)).toHVec ⟨⟨130, [5#64, 7#64, 3#64]⟩, none⟩
              let (as, r) ← askRank (rank9 ⟨true, .p64, true⟩ (Cached.ops (bvBitVecPush ⟨true, .p64, true⟩ 64)).toHVec)
                [.rank1 129, .rank0 128, .rank1 2, .limit] r
              .ok (as, r.bitStore.last)) = .ok ([7, 123, 2, 130], some (0, 5#64)) := by decide +kernel

-- a cache that is not emptied by writes answers from the past
example : let o := bvBitVecPush ⟨true, .p64, true⟩ 8
    let s : Cached 8 (VB 8) := ⟨⟨8, [1#8]⟩, none⟩
    (do let (_, s) ← Cached.getBlock o.toBitVecOps 0 s
        let d ← o.setBlock s.data 0 2#8
        let (x, _) ← Cached.getBlock o.toBitVecOps 0 ⟨d, s.last⟩
        .ok x) = .ok 1#8 := by decide +kernel

/-! Each theorem of this file that has hypotheses is applied to concrete data in `Verif/Instances/Hidden.lean`. -/

end Succinct
