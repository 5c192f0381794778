import Verif.Model.UnwindMore
import Verif.Lemmas.Unwind
import Verif.Lemmas.View
/-!
# Buffers and slices with unwinding refine those of the other models
-/
namespace Succinct
open Spec

/-- `o` does what `m` does, except that it says what a panic leaves behind. -/
structure MutPRes (o : BitVecMutP w S) (m : BitVecMutOps w S) : Prop where
  ops : o.toBitVecOps = m.toBitVecOps
  setBit : ∀ s i b, (o.setBitP i b s).res = (m.setBit s i b).unit
  setBlock : ∀ s i x, (o.setBlockP i x s).res = (m.setBlock s i x).unit
  setBits : ∀ s p n x, (o.setBitsP p n x s).res = (m.setBits s p n x).unit

theorem bvMutP_res (c : Cfg) (w : Nat) : MutPRes (bvMutP c w) (bvBitVecMut c w) :=
  ⟨rfl, VB.setBitP_res c, fun s i x => VB.setBlockP_res c s 1 i x, BV.setBitsP_res c⟩

theorem ivMutP_res (c : Cfg) (w : Nat) : MutPRes (ivMutP c w) (ivBitVecMut c w) :=
  ⟨rfl, IV.setBitP_res c, IV.setBlockP_res c, IV.setBitsP_res c⟩

theorem BitBuf.onData_res {m : PM S Unit} {f : S → Res S} (h : ∀ d, (m d).res = (f d).unit) (s : BitBuf S) :
    (BitBuf.onData m s).res = (do let d ← f s.data; Res.ok { s with data := d }).unit := by
  unfold BitBuf.onData
  pm_res
  rw [h]; pm_res

theorem BitBuf.mutP_res (c : Cfg) {o : BitVecMutP w S} {m : BitVecMutOps w S} (h : MutPRes o m) :
    MutPRes (BitBuf.mutP c o) (BitBuf.bitVecMut c m) := by
  have hb : ∀ s i x, (BitBuf.onData (o.setBlockP i x) s).res =
      (do let d ← m.setBlock s.data i x; Res.ok { s with data := d }).unit :=
    fun s i x => BitBuf.onData_res (fun d => h.setBlock d i x) s
  refine ⟨?_, ?_, hb, ?_⟩
  · show BitBuf.bitVec c o.toBitVecOps = BitBuf.bitVec c m.toBitVecOps
    rw [h.ops]
  · intro s i b
    have := dfltSetBitP_res c (bitLen := (BitBuf.bitVec c o.toBitVecOps).bitLen) (getBlock := (BitBuf.bitVec c o.toBitVecOps).getBlock) hb s i b
    rw [h.ops] at this
    exact (show _ = _ by unfold BitBuf.mutP; rw [h.ops]).trans this
  · intro s p n x
    have := dfltSetBitsP_res c (bitLen := (BitBuf.bitVec c o.toBitVecOps).bitLen) (getBlock := (BitBuf.bitVec c o.toBitVecOps).getBlock) hb s p n x
    rw [h.ops] at this
    exact (show _ = _ by unfold BitBuf.mutP; rw [h.ops]).trans this

theorem Slice.onData_res {m : PM S Unit} {f : S → Res S} (h : ∀ d, (m d).res = (f d).unit) (s : Slice S) :
    (Slice.onData m s).res = (do let d ← f s.data; Res.ok { s with data := d }).unit := by
  unfold Slice.onData
  pm_res
  rw [h]; pm_res

theorem Slice.mutP_res (c : Cfg) {o : BitVecMutP w S} {m : BitVecMutOps w S} (h : MutPRes o m) :
    MutPRes (Slice.mutP c o) (sliceBitVecMut c m) := by
  have h1 : ∀ (s : Slice S) i b, (Slice.setBitP c o i b s).res = (Slice.setBit c m s i b).unit := by
    intro s i b
    unfold Slice.setBitP Slice.setBit
    pm_res
    simp only [fun p b => Slice.onData_res fun d => h.setBit d p b]
    pm_res
  have h2 : ∀ (s : Slice S) p n x, (Slice.setBitsP c o p n x s).res = (Slice.setBits c m s p n x).unit := by
    intro s p n x
    unfold Slice.setBitsP Slice.setBits
    pm_res
    simp only [fun p n x => Slice.onData_res fun d => h.setBits d p n x]
    pm_res
  refine ⟨?_, h1, ?_, h2⟩
  · show sliceBitVec c o.toBitVecOps = sliceBitVec c m.toBitVecOps
    rw [h.ops]
  · intro s i x
    show (Slice.setBlockP c o i x s).res = (Slice.setBlock c m s i x).unit
    unfold Slice.setBlockP Slice.setBlock
    pm_res
    simp only [h2]

theorem BitBuf.seekP_res {o : BitVecOps w S} (p : Nat) (s : BitBuf S) : (BitBuf.seekP o p s).res = BitBuf.seek o p s := by
  unfold BitBuf.seekP BitBuf.seek
  pm_res

theorem BitBuf.readBitP_res (c : Cfg) {o : BitVecOps w S} (s : BitBuf S) :
    (BitBuf.readBitP c o s).res = (BitBuf.read c o).readBit s := by
  unfold BitBuf.readBitP BitBuf.read
  pm_res

section
open Lean.Order

theorem bind_mono_r {α β : Type} (x : Res α) {f g : α → Res β} (h : ∀ a, f a ⊑ g a) : (x >>= f) ⊑ (x >>= g) := by
  cases x with
  | ok a => exact h a
  | panic => exact FlatOrder.rel.refl
  | diverge => exact FlatOrder.rel.refl

theorem BitBuf.padP_res (c : Cfg) {o : BitVecPushOps w S} {push : Bool → PM S Unit} (h : ∀ s b, (push b s).res = (o.pushBit s b).unit)
    (s : BitBuf S) : (BitBuf.padP c o.toBitVecOps push s).res = (BitBuf.pad c o s).unit := by
  apply Lean.Order.PartialOrder.rel_antisymm
  · refine BitBuf.padP.fixpoint_induct c o.toBitVecOps push (fun f => ∀ s, (f s).res ⊑ (BitBuf.pad c o s).unit) ?_ ?_ s
    · exact admissible_pi_apply (fun s (x : Out (BitBuf S) Unit) => x.res ⊑ (BitBuf.pad c o s).unit)
        fun s => admissible_flatOrder _ FlatOrder.rel.bot
    · intro f ih s
      rw [BitBuf.pad.eq_def]
      pm_res
      refine bind_mono_r _ fun n => ?_
      split
      · simp only [BitBuf.onData_res (fun d => h d false)]
        pm_res
        exact bind_mono_r _ fun d => ih _
      · exact PartialOrder.rel_refl
  · refine BitBuf.pad.fixpoint_induct c o (fun f => ∀ s, (f s).unit ⊑ (BitBuf.padP c o.toBitVecOps push s).res) ?_ ?_ s
    · exact admissible_pi_apply (fun s (x : Res (BitBuf S)) => x.unit ⊑ (BitBuf.padP c o.toBitVecOps push s).res)
        fun s => admissible_flatOrder _ FlatOrder.rel.bot
    · intro f ih s
      rw [BitBuf.padP.eq_def]
      pm_res
      refine bind_mono_r _ fun n => ?_
      split
      · simp only [BitBuf.onData_res (fun d => h d false)]
        pm_res
        exact bind_mono_r _ fun d => ih _
      · exact PartialOrder.rel_refl

end

theorem BitBuf.writeBitP_res (c : Cfg) {o : BitVecMutP w S} {m : BitVecPushOps w S} (h : MutPRes o m.toBitVecMutOps)
    {push : Bool → PM S Unit} (hp : ∀ s b, (push b s).res = (m.pushBit s b).unit) (b : Bool) (s : BitBuf S) :
    (BitBuf.writeBitP c o push b s).res = (BitBuf.write c m).writeBit b s := by
  unfold BitBuf.writeBitP BitBuf.write
  pm_res
  rw [h.ops, BitBuf.padP_res c hp]
  pm_res
  simp only [(BitBuf.mutP_res c h).setBit]
  pm_res

/-! ### nothing is changed before a panic -/

/-- A setter that panics leaves behind what was there. -/
structure MutPAtomic (I : S → Prop) (o : BitVecMutP w S) : Prop where
  setBit : ∀ s i b, I s → Atomic (o.setBitP i b) s
  setBlock : ∀ s i x, I s → Atomic (o.setBlockP i x) s
  setBits : ∀ s p n x, I s → Atomic (o.setBitsP p n x) s

theorem bvMutP_atomic (c : Cfg) (h : IsBlk w) : MutPAtomic (fun s => ∃ bits, bvR c w s bits) (bvMutP c w) :=
  ⟨fun s i b _ => VB.setBitP_atomic c s i b, fun _ i x ⟨_, hR⟩ => VR.setBlockP_atomic c h hR i x,
    fun _ p n x ⟨_, hR⟩ => BV.setBitsP_atomic c h hR p n x⟩

theorem ivMutP_atomic (c : Cfg) (h : IsBlk w) : MutPAtomic (fun s => ∃ bits, ivR c w s bits) (ivMutP c w) :=
  ⟨fun _ i b ⟨_, hR⟩ => ivR_setBitP_atomic c h hR i b, fun _ i x ⟨_, hR⟩ => ivR_setBlockP_atomic c h hR i x,
    fun _ p n x ⟨_, hR⟩ => ivR_setBitsP_atomic c h hR p n x⟩

theorem bufMutP_atomic (c : Cfg) {I : S → Prop} {o : BitVecMutP w S} (h : MutPAtomic I o)
    (hset : SetsReadable I o.getBlock o.setBlockP) : MutPAtomic (fun b => I b.data) (BitBuf.mutP c o) := by
  have hs : SetsReadable (fun b : BitBuf S => I b.data) (BitBuf.bitVec c o.toBitVecOps).getBlock
      (fun i x => BitBuf.onData (o.setBlockP i x)) := by
    intro b i x hI hr
    obtain ⟨d, h1, h2, h3⟩ := hset b.data i x hI hr
    exact ⟨{ b with data := d }, by show PM.zoom _ _ _ b = _; unfold PM.zoom; rw [h1], h2, h3⟩
  exact ⟨fun s i b hI => dfltSetBitP_atomic c hs hI i b, fun s i x hI => .zoom rfl (h.setBlock _ i x hI),
    fun s p n x hI => dfltSetBitsP_atomic c hs hI p n x⟩

theorem sliceMutP_atomic (c : Cfg) {I : S → Prop} {o : BitVecMutP w S} (h : MutPAtomic I o) :
    MutPAtomic (fun s => I s.data) (Slice.mutP c o) := by
  have h2 : ∀ (s : Slice S) p n x, I s.data → Atomic (Slice.setBitsP c o p n x) s := fun s p n x hI =>
    .liftBind fun _ _ => .evalBind fun _ _ => .liftBind fun _ _ => .evalBind fun _ _ => .zoom rfl (h.setBits _ _ n x hI)
  exact ⟨fun s i b hI => .evalBind fun _ _ => .liftBind fun _ _ => .evalBind fun _ _ => .zoom rfl (h.setBit _ _ b hI),
    fun s i x hI => .liftBind fun _ _ => h2 s _ _ x hI, h2⟩

/-! ### calls on buffers, and writing through slices -/

/-- one call on a buffer -/
def bufStepP (c : Cfg) (w : Nat) : BufOp → PM (BitBuf (VB w)) BufOut
  | .write b => do
    let r ← BitBuf.writeBitP c (bvMutP c w) (VB.pushBitP c) b
    pure (match r with | .ok () => .unit | .error e => .err e)
  | .read => do
    let r ← BitBuf.readBitP c (bvBitVec c w)
    pure (match r with | .ok o => .optBit o | .error e => .err e)
  | .seek p => do
    let r ← BitBuf.seekP (bvBitVec c w) p
    pure (match r with | .ok () => .unit | .error e => .err e)
  | .position => do let n ← PM.eval fun s : BitBuf (VB w) => .ok s.position; pure (.num n)
  | .bitLen => do let n ← PM.eval (BitBuf.bitVec c (bvBitVec c w)).bitLen; pure (.num n)
  | .getBit i => do let b ← PM.eval fun s => (BitBuf.bitVec c (bvBitVec c w)).getBit s i; pure (.bit b)
  | .setBit i b => do (BitBuf.mutP c (bvMutP c w)).setBitP i b; pure .unit

theorem bufStepP_res (c : Cfg) (w : Nat) (s : BitBuf (VB w)) (op : BufOp) :
    (bufStepP c w op s).res = bufStep c (bvBitVecPush c w) s op := by
  cases op with
  | write b =>
    unfold bufStepP bufStep
    pm_res
    rw [BitBuf.writeBitP_res c (m := bvBitVecPush c w) (bvMutP_res c w) (VB.pushBitP_res c)]
    congr 1
    funext ⟨r, s⟩
    rcases r with _ | _ <;> rfl
  | read =>
    unfold bufStepP bufStep
    pm_res
    rw [BitBuf.readBitP_res]
    congr 1
    funext ⟨r, s⟩
    rcases r with _ | _ <;> rfl
  | seek p =>
    unfold bufStepP bufStep
    pm_res
    rw [BitBuf.seekP_res]
    congr 1
    funext ⟨r, s⟩
    rcases r with _ | _ <;> rfl
  | setBit i b =>
    unfold bufStepP bufStep
    pm_res
    rw [(BitBuf.mutP_res c (bvMutP_res c w)).setBit]
    pm_res
    rfl
  | _ =>
    unfold bufStepP bufStep
    pm_res
    first | done | rfl

theorem bufStepP_refines (c : Cfg) (h : IsBlk w) {s : BitBuf (VB w)} {f : BitFile} (hR : bufR (bvR c w) s f) (op : BufOp)
    (hok : op.Ok (Fits c.usz w) f) : RefinesP (bufR (bvR c w)) (bufStepP c w op) s (bufSpec f op) := by
  refine refinesP_of (bufStepP_res c w s op) (bufStep_refines (bv_pushVec c h) hR op hok) fun hn => ?_
  cases op with
  | getBit i => exact (Atomic.eval _ s).thenPure
  | setBit i b =>
    exact ((bufMutP_atomic c (bvMutP_atomic c h) (bv_setsReadable c h)).setBit s i b ⟨_, hR.1⟩).thenPure
  | read => rw [bufSpec] at hn; split at hn <;> cases hn
  | seek p => rw [bufSpec] at hn; split at hn <;> cases hn
  | _ => cases hn

def wrRunP (o : BitVecMutP w S) : WrOp w → PM S Unit
  | .bit i b => o.setBitP i b
  | .bits p n x => o.setBitsP p n x

/-- As `writeThrough`. -/
def writeThroughP (c : Cfg) (o : BitVecMutP w S) (rs : List Rng) (op : WrOp w) : PM S Unit :=
  match rs with
  | [] => wrRunP o op
  | r :: rs => do
    let sl ← PM.eval fun s => flatSlice c o.toBitVecOps s r.arg (rs.map (·.arg))
    PM.zoom (fun s => Slice.mk s sl.start sl.len) (fun t _ => t.data) (wrRunP (Slice.mutP c o) op)

theorem wrRunP_res {o : BitVecMutP w S} {m : BitVecMutOps w S} (h : MutPRes o m) (s : S) (op : WrOp w) :
    (wrRunP o op s).res = (wrRun m s op).unit := by
  cases op with
  | bit i b => exact h.setBit s i b
  | bits p n x => exact h.setBits s p n x

theorem wrRunP_atomic {I : S → Prop} {o : BitVecMutP w S} (h : MutPAtomic I o) (s : S) (hs : I s) (op : WrOp w) :
    Atomic (wrRunP o op) s := by
  cases op with
  | bit i b => exact h.setBit s i b hs
  | bits p n x => exact h.setBits s p n x hs

theorem Res.bind_eq_ok {x : Res α} {f : α → Res β} {b : β} : (x >>= f) = .ok b ↔ ∃ a, x = .ok a ∧ f a = .ok b := by
  cases x with
  | ok a => exact ⟨fun h => ⟨a, rfl, h⟩, fun ⟨_, h1, h2⟩ => by cases h1; exact h2⟩
  | panic => exact ⟨fun h => (by cases h), fun ⟨_, h1, _⟩ => (by cases h1)⟩
  | diverge => exact ⟨fun h => (by cases h), fun ⟨_, h1, _⟩ => (by cases h1)⟩

theorem slice_data {s s' : Slice S} {r : RangeArg} (h : Slice.slice c s r = .ok s') : s'.data = s.data := by
  unfold Slice.slice at h
  simp only [Res.bind_eq_ok] at h
  obtain ⟨_, _, _, _, h⟩ := h
  cases h
  rfl

theorem flatSlice_data {c : Cfg} {o : BitVecOps w S} {d : S} {r : RangeArg} {rs : List RangeArg} {s : Slice S}
    (h : flatSlice c o d r rs = .ok s) : s.data = d := by
  unfold flatSlice at h
  obtain ⟨s0, h1, h2⟩ := Res.bind_eq_ok.1 h
  have h3 : s0.data = d := by
    unfold Slice.new at h1
    simp only [Res.bind_eq_ok] at h1
    obtain ⟨_, _, _, _, _, _, h1⟩ := h1
    cases h1
    rfl
  rw [← h3]
  clear h h1 h3
  induction rs generalizing s0 with
  | nil => cases h2; rfl
  | cons r rs ih =>
    rw [List.foldlM_cons] at h2
    obtain ⟨s1, h4, h5⟩ := Res.bind_eq_ok.1 h2
    rw [ih s1 h5, slice_data h4]

theorem writeThroughP_res (c : Cfg) {o : BitVecMutP w S} {m : BitVecMutOps w S} (h : MutPRes o m) (s : S) (rs : List Rng)
    (op : WrOp w) : (writeThroughP c o rs op s).res = (writeThrough c m s rs op).unit := by
  cases rs with
  | nil => exact wrRunP_res h s op
  | cons r rs =>
    unfold writeThroughP writeThrough
    pm_res
    rw [h.ops]
    cases hf : flatSlice c m.toBitVecOps s r.arg (rs.map (·.arg)) with
    | ok sl =>
      have := flatSlice_data hf
      simp only [Res.ok_bind]
      rw [wrRunP_res (Slice.mutP_res c h), ← this]
      pm_res
    | panic => rfl
    | diverge => rfl

theorem writeThroughP_atomic (c : Cfg) {I : S → Prop} {o : BitVecMutP w S} (h : MutPAtomic I o) (s : S) (hs : I s) (rs : List Rng)
    (op : WrOp w) : Atomic (writeThroughP c o rs op) s := by
  cases rs with
  | nil => exact wrRunP_atomic h s hs op
  | cons r rs => exact .evalBind fun sl _ => .zoom rfl (wrRunP_atomic (sliceMutP_atomic c h) _ hs op)

end Succinct
