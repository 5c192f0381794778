import Verif.Model.Iter
import Verif.Lemmas.BitVector
import Verif.Lemmas.IntVector
import Verif.Props.SliceUse
import Verif.Props.Search
/-! Property C95: every call ends. -/
namespace Succinct
open Spec

theorem Ends.ceilDivNbits : Ends (ceilDivNbits c w k) := by unfold Succinct.ceilDivNbits; ends
macro_rules | `(tactic| ends_leaf) => `(tactic| with_reducible exact Ends.ceilDivNbits)
theorem Ends.blkGetBits {x : BitVec w} : Ends (blkGetBits c x p n) := by unfold Succinct.blkGetBits; ends
macro_rules | `(tactic| ends_leaf) => `(tactic| with_reducible exact Ends.blkGetBits)
theorem Ends.nthMask : Ends (nthMask c w k) := by unfold Succinct.nthMask; ends
macro_rules | `(tactic| ends_leaf) => `(tactic| with_reducible exact Ends.nthMask)
theorem Ends.blkGetBit {x : BitVec w} : Ends (blkGetBit c x p) := by unfold Succinct.blkGetBit; ends
macro_rules | `(tactic| ends_leaf) => `(tactic| with_reducible exact Ends.blkGetBit)
theorem Ends.blkWithBit {x : BitVec w} : Ends (blkWithBit c x p b) := by unfold Succinct.blkWithBit; ends
macro_rules | `(tactic| ends_leaf) => `(tactic| with_reducible exact Ends.blkWithBit)
theorem Ends.clearExtraBits {s : VB w} : Ends (s.clearExtraBits c eb) := by unfold VB.clearExtraBits; ends
macro_rules | `(tactic| ends_leaf) => `(tactic| with_reducible exact Ends.clearExtraBits)
theorem Ends.setLenFromBlocks {s : VB w} : Ends (s.setLenFromBlocks c eb) := by unfold VB.setLenFromBlocks; ends
macro_rules | `(tactic| ends_leaf) => `(tactic| with_reducible exact Ends.setLenFromBlocks)

theorem Ends.dfltGetBits {bitLen : S → Res Nat} {getBlock : S → Nat → Res (BitVec w)} (h1 : ∀ s, Ends (bitLen s))
    (h2 : ∀ s i, Ends (getBlock s i)) {s : S} {p n : Nat} : Ends (dfltGetBits c bitLen getBlock s p n) := by
  unfold Succinct.dfltGetBits
  ends
  all_goals first | exact h1 _ | exact h2 _ _
theorem Ends.dfltGetBit {bitLen : S → Res Nat} {getBlock : S → Nat → Res (BitVec w)} (h1 : ∀ s, Ends (bitLen s))
    (h2 : ∀ s i, Ends (getBlock s i)) {s : S} {p : Nat} : Ends (dfltGetBit c bitLen getBlock s p) := by
  unfold Succinct.dfltGetBit
  ends
  all_goals first | exact h1 _ | exact h2 _ _
theorem Ends.dfltSetBit {bitLen : S → Res Nat} {getBlock : S → Nat → Res (BitVec w)} {setBlock : S → Nat → BitVec w → Res S}
    (h1 : ∀ s, Ends (bitLen s)) (h2 : ∀ s i, Ends (getBlock s i)) (h3 : ∀ s i x, Ends (setBlock s i x)) {s : S} {p : Nat} {b : Bool} :
    Ends (dfltSetBit c bitLen getBlock setBlock s p b) := by
  unfold Succinct.dfltSetBit
  ends
  all_goals first | exact h1 _ | exact h2 _ _ | exact h3 _ _ _

theorem vecGetBits_dflt (c : Cfg) (w : Nat) : (vecBitVec c w).getBits =
    dfltGetBits c (fun v : List (BitVec w) => mulN c 64 v.length w) vecGet := rfl
theorem Ends.vecGetBits {s : List (BitVec w)} : Ends ((vecBitVec c w).getBits s p n) := by
  rw [vecGetBits_dflt]
  exact Ends.dfltGetBits (fun _ => Ends.mulN) (fun _ _ => Ends.vecGet)
macro_rules | `(tactic| ends_leaf) => `(tactic| with_reducible exact Ends.vecGetBits)
theorem vecGetBit_dflt (c : Cfg) (w : Nat) : (vecBitVec c w).getBit =
    dfltGetBit c (fun v : List (BitVec w) => mulN c 64 v.length w) vecGet := rfl
theorem Ends.vecGetBit {s : List (BitVec w)} : Ends ((vecBitVec c w).getBit s p) := by
  rw [vecGetBit_dflt]
  exact Ends.dfltGetBit (fun _ => Ends.mulN) (fun _ _ => Ends.vecGet)
macro_rules | `(tactic| ends_leaf) => `(tactic| with_reducible exact Ends.vecGetBit)
theorem vecSetBit_dflt (c : Cfg) (w : Nat) : (vecBitVecMut c w).setBit =
    dfltSetBit c (fun v : List (BitVec w) => mulN c 64 v.length w) vecGet vecSet := rfl
theorem Ends.vecSetBit {s : List (BitVec w)} : Ends ((vecBitVecMut c w).setBit s p b) := by
  rw [vecSetBit_dflt]
  exact Ends.dfltSetBit (fun _ => Ends.mulN) (fun _ _ => Ends.vecGet) (fun _ _ _ => Ends.vecSet)
macro_rules | `(tactic| ends_leaf) => `(tactic| with_reducible exact Ends.vecSetBit)

theorem Ends.VB_getBits {s : VB w} : Ends (s.getBits c eb p n) := by unfold VB.getBits; ends
macro_rules | `(tactic| ends_leaf) => `(tactic| with_reducible exact Ends.VB_getBits)
theorem Ends.VB_getBit {s : VB w} : Ends (s.getBit c p) := by unfold VB.getBit; ends
macro_rules | `(tactic| ends_leaf) => `(tactic| with_reducible exact Ends.VB_getBit)
theorem Ends.VB_setBit {s : VB w} : Ends (s.setBit c p b) := by unfold VB.setBit; ends
macro_rules | `(tactic| ends_leaf) => `(tactic| with_reducible exact Ends.VB_setBit)
theorem Ends.VB_getBlock {s : VB w} : Ends (s.getBlock i) := by unfold VB.getBlock; ends
macro_rules | `(tactic| ends_leaf) => `(tactic| with_reducible exact Ends.VB_getBlock)
theorem Ends.VB_setBlock {s : VB w} : Ends (s.setBlock c eb i x) := by unfold VB.setBlock; ends
macro_rules | `(tactic| ends_leaf) => `(tactic| with_reducible exact Ends.VB_setBlock)
theorem Ends.VB_pushBlock {s : VB w} : Ends (s.pushBlock c eb x) := by unfold VB.pushBlock; ends
macro_rules | `(tactic| ends_leaf) => `(tactic| with_reducible exact Ends.VB_pushBlock)
theorem Ends.VB_popBlock {s : VB w} : Ends (s.popBlock c eb) := by unfold VB.popBlock; ends
macro_rules | `(tactic| ends_leaf) => `(tactic| with_reducible exact Ends.VB_popBlock)
theorem Ends.VB_popBits {s : VB w} : Ends (s.popBits c eb) := by unfold VB.popBits; ends
macro_rules | `(tactic| ends_leaf) => `(tactic| with_reducible exact Ends.VB_popBits)
theorem Ends.VB_pushBit {s : VB w} : Ends (s.pushBit c b) := by unfold VB.pushBit; ends
macro_rules | `(tactic| ends_leaf) => `(tactic| with_reducible exact Ends.VB_pushBit)
theorem Ends.VB_popBit {s : VB w} : Ends (s.popBit c) := by unfold VB.popBit; ends
macro_rules | `(tactic| ends_leaf) => `(tactic| with_reducible exact Ends.VB_popBit)
theorem Ends.VB_blockTruncate {s : VB w} : Ends (s.blockTruncate c eb n) := by unfold VB.blockTruncate; ends
macro_rules | `(tactic| ends_leaf) => `(tactic| with_reducible exact Ends.VB_blockTruncate)
theorem Ends.VB_truncate {s : VB w} : Ends (s.truncate c eb n) := by unfold VB.truncate; ends
macro_rules | `(tactic| ends_leaf) => `(tactic| with_reducible exact Ends.VB_truncate)
theorem Ends.VB_blockResize {s : VB w} : Ends (s.blockResize c eb n x) := by unfold VB.blockResize; ends
macro_rules | `(tactic| ends_leaf) => `(tactic| with_reducible exact Ends.VB_blockResize)
theorem Ends.VB_resize {s : VB w} : Ends (s.resize c eb n x) := by unfold VB.resize forRange; dsimp only; ends
macro_rules | `(tactic| ends_leaf) => `(tactic| with_reducible exact Ends.VB_resize)
theorem Ends.BV_resize {s : VB w} : Ends (BV.resize c s n b) := by unfold BV.resize BV.blockResize forRange; ends
macro_rules | `(tactic| ends_leaf) => `(tactic| with_reducible exact Ends.BV_resize)

/-- Whatever the state, a `push_bit` that returns has added one to the length, without wrapping. -/
theorem VB.pushBit_len {s s' : VB w} (h : s.pushBit c b = .ok s') : s'.len = s.len + 1 := by
  unfold VB.pushBit VB.setBit at h
  obtain ⟨_, -, h⟩ := Res.of_bind_ok h
  obtain ⟨_, -, h⟩ := Res.of_bind_ok h
  obtain ⟨n, hn, h⟩ := Res.of_bind_ok h
  obtain ⟨_, ha, h⟩ := Res.of_bind_ok h
  obtain ⟨_, -, h⟩ := Res.of_bind_ok h
  cases h
  have hlt : s.len < n := by
    by_cases hlt : s.len < n
    · exact hlt
    · rw [assertR, if_neg hlt] at ha
      cases ha
  unfold addN overflow at hn
  split at hn
  · cases hn; rfl
  · rename_i h64
    split at hn
    · cases hn
    · cases hn
      have := Nat.mod_le (s.len + 1) (2 ^ 64)
      show (s.len + 1) % 2 ^ 64 = s.len + 1
      omega

theorem Ends.alignBlock {s : VB w} (h : IsBlk w) : Ends ((bvBitVecPush c w).alignBlock s b) := by
  have hw := h.pos
  show Ends (dfltAlignBlock c w (bvBitVec c w).bitLen (fun s v => VB.pushBit c s v) s b)
  generalize hm : (w - s.len % w) % w = m
  induction m generalizing s with
  | zero =>
    rw [dfltAlignBlock.eq_def]
    show Ends (Succinct.modNbits c w s.len >>= _)
    rw [modNbits_eq c h, Res.ok_bind]
    have hlt := Nat.mod_lt s.len hw
    rw [if_neg]
    · exact .ok _
    · intro hne
      rw [Nat.mod_eq_of_lt (by omega)] at hm
      omega
  | succ m ih =>
    rw [dfltAlignBlock.eq_def]
    show Ends (Succinct.modNbits c w s.len >>= _)
    rw [modNbits_eq c h, Res.ok_bind]
    split
    · rename_i hne
      rcases hp : VB.pushBit c s b with s' | _ | _
      · rw [Res.ok_bind]
        refine ih ?_
        rw [VB.pushBit_len hp]
        have hlt := Nat.mod_lt s.len hw
        rw [Nat.mod_eq_of_lt (by omega)] at hm
        by_cases he : s.len % w + 1 = w
        · have : (s.len + 1) % w = 0 := by rw [← Nat.mod_add_mod, he, Nat.mod_self]
          rw [this, Nat.sub_zero, Nat.mod_self]; omega
        · have : (s.len + 1) % w = s.len % w + 1 := by
            rw [← Nat.mod_add_mod, Nat.mod_eq_of_lt (by omega)]
          rw [this, Nat.mod_eq_of_lt (by omega)]; omega
      · exact .panic
      · exact absurd hp Ends.VB_pushBit.ne
    · exact .ok _

theorem Ends.bvSetBits {s : VB w} : Ends ((bvBitVecMut c w).setBits s p n x) := by
  have e : (bvBitVecMut c w).setBits = Succinct.dfltSetBits c (fun s : VB w => Res.ok s.len) (fun s i => s.getBlock i)
      (fun s i v => s.setBlock c 1 i v) := rfl
  rw [e]
  exact Ends.dfltSetBits (fun _ => .ok _) (fun _ _ => Ends.VB_getBlock) (fun _ _ _ => Ends.VB_setBlock)
theorem Ends.bvGetBits {s : VB w} : Ends ((bvBitVec c w).getBits s p n) := by
  have e : (bvBitVec c w).getBits = Succinct.dfltGetBits c (fun s : VB w => Res.ok s.len) (fun s i => s.getBlock i) := rfl
  rw [e]
  exact Ends.dfltGetBits (fun _ => .ok _) (fun _ _ => Ends.VB_getBlock)

/-- C95. Every call on a `BitVector` ends, with a result or a panic, whatever the arguments and whatever the state,
even one no sequence of calls can reach. -/
theorem C95_bit_vector (c : Cfg) (h : IsBlk w) (s : VB w) (op : BvOp w) : bvStep c s op ≠ .diverge := by
  suffices he : Ends (bvStep c s op) from he.ne
  cases op <;> simp only [bvStep]
  case pushBit b => exact Ends.VB_pushBit.bind fun _ => .ok _
  case popBit => exact Ends.VB_popBit.bind fun _ => .ok _
  case setBit => exact Ends.VB_setBit.bind fun _ => .ok _
  case setBlock => exact Ends.VB_setBlock.bind fun _ => .ok _
  case setBits => exact Ends.bvSetBits.bind fun _ => .ok _
  case pushBlock => exact Ends.VB_pushBlock.bind fun _ => .ok _
  case alignBlock => exact (Ends.alignBlock h).bind fun _ => .ok _
  case resize => exact Ends.BV_resize.bind fun _ => .ok _
  case blockResize => exact Ends.VB_blockResize.bind fun _ => .ok _
  case truncate => exact Ends.VB_truncate.bind fun _ => .ok _
  case blockTruncate => exact Ends.VB_blockTruncate.bind fun _ => .ok _
  case clear => exact .ok _
  case bitLen => exact .ok _
  case blockLen => exact Ends.bind (Ends.bind (.ok _) fun _ => Ends.bind .ceilDiv fun _ => .ok _) fun _ => .ok _
  case getBit => exact Ends.VB_getBit.bind fun _ => .ok _
  case getBlock => exact Ends.VB_getBlock.bind fun _ => .ok _
  case getBits => exact Ends.bvGetBits.bind fun _ => .ok _

/-- A state no program reaches: three blocks too few and an unaligned length near 2⁶⁴. Aligning panics, in both modes,
rather than counting on for ever. -/
example : bvStep (w := 64) ⟨false, .p64, false⟩ ⟨2 ^ 64 - 1, [5]⟩ (.alignBlock true) ≠ .diverge ∧
    VB.pushBit (w := 64) ⟨false, .p64, false⟩ ⟨2 ^ 64 - 1, [5]⟩ true = .panic :=
  ⟨C95_bit_vector _ (by decide) _ _, by decide +kernel⟩

/-- C95. Every constructor of a `BitVector` ends. -/
theorem C95_bit_vector_new (c : Cfg) (n : Nat) (b : Bool) (x : BitVec w) :
    BV.withCapacity c w n ≠ .diverge ∧ BV.withFill c w n b ≠ .diverge ∧ BV.blockWithFill c n x ≠ .diverge := by
  refine ⟨Ends.VB_withCapacity.ne, ?_, Ends.VB_blockWithFill.ne⟩
  suffices he : Ends (BV.withFill c w n b) from he.ne
  unfold BV.withFill BV.blockWithFill; dsimp only; ends

/-- C95. Every call on an `IntVector` ends. -/
theorem C95_int_vector (c : Cfg) (s : IV w) (op : IvOp w) : ivStep c s op ≠ .diverge := by
  suffices he : Ends (ivStep c s op) from he.ne
  cases op <;> simp only [ivStep]
  case push => exact Ends.IV_push.bind fun _ => .ok _
  case pop => unfold IV.pop; ends
  case set => unfold IV.set IV.checkValue IV.checkValueRandom IV.computeAddress; ends
  case setRandom => unfold IV.setRandom IV.checkValueRandom IV.computeAddressRandom; ends
  case setBlock => exact Ends.bind (Ends.bind .VB_setBlock fun _ => .ok _) fun _ => .ok _
  case truncate => unfold IV.truncate; ends
  case blockTruncate => unfold IV.blockTruncate; ends
  case resize => unfold IV.resize; ends
  case blockResize => unfold IV.blockResize; ends
  case clear => exact .ok _
  case len => exact .ok _
  case isEmpty => exact .ok _
  case get => unfold IV.get IV.computeAddress; ends
  case getRandom => unfold IV.getRandom IV.computeAddressRandom; ends

/-- C95. Every constructor of an `IntVector` ends. -/
theorem C95_int_vector_new (c : Cfg) (eb n : Nat) (x : BitVec w) :
    IV.new w eb ≠ .diverge ∧ IV.withCapacity c w eb n ≠ .diverge ∧ IV.blockWithCapacity w eb ≠ .diverge ∧
    IV.withFill c eb n x ≠ .diverge ∧ IV.blockWithFill c eb n x ≠ .diverge := by
  have h : ∀ b : VB w, Ends (IV.create eb b) := by intro b; unfold IV.create IV.checkElementBits; ends
  refine ⟨(h _).ne, (Ends.VB_withCapacity.bind h).ne, (h _).ne, (Ends.VB_withFill.bind h).ne, (Ends.VB_blockWithFill.bind h).ne⟩

/-! ### Iterators -/

theorem Ends.VIter_next {it : VIter w} : Ends (it.next c) := by unfold VIter.next; ends
theorem Ends.VIter_len {it : VIter w} : Ends (it.len c) := by unfold VIter.len; ends
theorem Ends.VIter_nextBack {it : VIter w} : Ends (it.nextBack c) := by unfold VIter.nextBack; ends

theorem VIter.next_moves {it it' : VIter w} {x : BitVec w} (hl : it.limit < 2 ^ 64) (h : it.next c = .ok (some x, it')) :
    it'.limit = it.limit ∧ it.start < it.limit ∧ it'.start = it.start + 1 := by
  unfold VIter.next at h
  by_cases hlt : it.start < it.limit
  · rw [if_pos hlt] at h
    obtain ⟨_, -, h⟩ := Res.of_bind_ok h
    obtain ⟨_, -, h⟩ := Res.of_bind_ok h
    rw [addN, if_pos (show it.start + 1 < 2 ^ 64 by omega), Res.ok_bind] at h
    cases h
    exact ⟨rfl, hlt, rfl⟩
  · rw [if_neg hlt] at h
    cases h

theorem Ends.VIter_forEach {it : VIter w} (hl : it.limit < 2 ^ 64) {f : α → BitVec w → Res α} (hf : ∀ a x, Ends (f a x))
    {acc : α} : Ends (it.forEach c acc f) := by
  generalize hm : it.limit - it.start = m
  induction m generalizing it acc with
  | zero =>
    rw [VIter.forEach.eq_def]
    rcases hn : it.next c with ⟨r, it'⟩ | _ | _
    · rw [Res.ok_bind]
      cases r with
      | none => exact .ok _
      | some x =>
        obtain ⟨-, h2, -⟩ := VIter.next_moves hl hn
        omega
    · exact .panic
    · exact absurd hn Ends.VIter_next.ne
  | succ m ih =>
    rw [VIter.forEach.eq_def]
    rcases hn : it.next c with ⟨r, it'⟩ | _ | _
    · rw [Res.ok_bind]
      cases r with
      | none => exact .ok _
      | some x =>
        obtain ⟨h1, h2, h3⟩ := VIter.next_moves hl hn
        refine (hf _ _).bind fun acc => ih ?_ ?_
        · omega
        · omega
    · exact .panic
    · exact absurd hn Ends.VIter_next.ne

/-- C95. Every method of an iterator over a vector ends, whatever the iterator; so does a `for` loop over it, if its
body ends, and with it the formatting of a vector. -/
theorem C95_iterators (c : Cfg) (it : VIter w) (n : Nat) :
    it.next c ≠ .diverge ∧ it.nextBack c ≠ .diverge ∧ it.len c ≠ .diverge ∧ it.sizeHint c ≠ .diverge ∧
    it.count c ≠ .diverge ∧ it.last c ≠ .diverge ∧ it.nth c n ≠ .diverge ∧
    (it.limit < 2 ^ 64 → ∀ {α : Type} (f : α → BitVec w → Res α) (acc : α), (∀ a x, f a x ≠ .diverge) →
      it.forEach c acc f ≠ .diverge) := by
  refine ⟨Ends.VIter_next.ne, Ends.VIter_nextBack.ne, Ends.VIter_len.ne, ?_, Ends.VIter_len.ne,
    (Ends.VIter_nextBack.bind fun _ => .ok _).ne, Ends.VIter_next.ne,
    fun hl _ f acc hf => (Ends.VIter_forEach hl fun a x => ⟨hf a x⟩).ne⟩
  suffices h : Ends (it.sizeHint c) from h.ne
  unfold VIter.sizeHint
  split
  · refine Ends.subN.bind fun _ => ?_
    split <;> exact .ok _
  · exact Ends.VIter_len.bind fun _ => .ok _

/-- An iterator whose ends have crossed. -/
example : (VIter.next (w := 8) ⟨true, .p64, true⟩ ⟨7, 3, 5, ⟨0, []⟩⟩) = .ok (none, ⟨7, 3, 5, ⟨0, []⟩⟩) := by decide +kernel

/-- C95. Formatting ends. -/
theorem C95_format (c : Cfg) (s : VB w) (v : IV w) (hs : s.len < 2 ^ 64) (hv : v.base.len < 2 ^ 64) :
    BV.fmtBinary c s ≠ .diverge ∧ IV.fmtDebug c v ≠ .diverge :=
  ⟨(Ends.VIter_forEach hs fun _ _ => .ok _).ne,
   (Ends.bind (Ends.VIter_forEach hv fun _ _ => .ok _) fun _ => .ok _).ne⟩

/-! ### Rank and select -/

theorem Ends.primRank1 {x : BitVec w} : Ends (primRank1 c x p) := by unfold Succinct.primRank1; ends
macro_rules | `(tactic| ends_leaf) => `(tactic| with_reducible exact Ends.primRank1)
theorem Ends.dfltRank0 {rank1 : S → Nat → Res Nat} (h : ∀ s i, Ends (rank1 s i)) {s : S} {p : Nat} :
    Ends (dfltRank0 c rank1 s p) := by
  unfold Succinct.dfltRank0
  exact Ends.addN.bind fun _ => (h _ _).bind fun _ => Ends.subN
theorem Ends.IV_get {s : IV w} : Ends (s.get c i) := by unfold IV.get IV.computeAddress; ends
macro_rules | `(tactic| ends_leaf) => `(tactic| with_reducible exact Ends.IV_get)

/-- The reading methods of a store end. -/
structure ReadsEnd (o : BitVecOps w S) : Prop where
  bitLen : ∀ s, o.bitLen s ≠ .diverge
  blockLen : ∀ s, o.blockLen s ≠ .diverge
  getBlock : ∀ s i, o.getBlock s i ≠ .diverge

/-- C95. Building a rank structure over a store whose methods end, and asking it, ends; nothing else is asked of the
store. -/
theorem C95_rank9 (c : Cfg) {o : BitVecOps 64 S} (h : ReadsEnd o) (s : S) (r : Rank9 S) (p : Nat) (b : Bool) :
    Rank9.new c o s ≠ .diverge ∧ (Rank9.ops c o).rank r p b ≠ .diverge ∧ (Rank9.ops c o).limit r ≠ .diverge := by
  have h1 : ∀ s, Ends (o.bitLen s) := fun s => ⟨h.bitLen s⟩
  have h2 : ∀ s, Ends (o.blockLen s) := fun s => ⟨h.blockLen s⟩
  have h3 : ∀ s i, Ends (o.getBlock s i) := fun s i => ⟨h.getBlock s i⟩
  have hs : ∀ i l, Ends (Rank9.storeCounts c i l) := by
    intro i l
    unfold Rank9.storeCounts Rank9.level2Set Rank9.level2Shift; dsimp only; ends
  have hr : ∀ s p, Ends (Rank9.rank1 c o s p) := by
    intro s p
    unfold Rank9.rank1 Rank9.level2Get Rank9.level2Shift; ends
    all_goals exact h3 _ _
  refine ⟨Ends.ne ?_, Ends.ne ?_, (h1 _).ne⟩
  · unfold Rank9.new forRange Rank9.step; ends
    all_goals first | exact h2 _ | exact hs _ _ | exact h3 _ _
  · show Ends (if b then Rank9.rank1 c o r p else Succinct.dfltRank0 c (Rank9.rank1 c o) r p)
    split
    · exact hr _ _
    · exact Ends.dfltRank0 hr

/-- C95. The same for `JacobsonRank`. -/
theorem C95_jacobson (c : Cfg) {o : BitVecOps w S} (h : ReadsEnd o) (s : S) (r : Jacobson S) (p : Nat) (b : Bool) :
    Jacobson.new c o s ≠ .diverge ∧ (Jacobson.ops c o).rank r p b ≠ .diverge ∧
    (Jacobson.ops c o).limit r ≠ .diverge := by
  have h1 : ∀ s, Ends (o.bitLen s) := fun s => ⟨h.bitLen s⟩
  have h2 : ∀ s, Ends (o.blockLen s) := fun s => ⟨h.blockLen s⟩
  have h3 : ∀ s i, Ends (o.getBlock s i) := fun s i => ⟨h.getBlock s i⟩
  have hr : ∀ s p, Ends (Jacobson.rank1 c o s p) := by
    intro s p
    unfold Jacobson.rank1 Address.new; ends
    all_goals first | exact h1 _ | exact h3 _ _
  refine ⟨Ends.ne ?_, Ends.ne ?_, (h1 _).ne⟩
  · unfold Jacobson.new forRange Jacobson.step; ends
    all_goals first | exact h1 _ | exact h2 _ | exact h3 _ _
  · show Ends (if b then Jacobson.rank1 c o r p else Succinct.dfltRank0 c (Jacobson.rank1 c o) r p)
    split
    · exact hr _ _
    · exact Ends.dfltRank0 hr

theorem selectBy_ends (c : Cfg) {r : RankOps S} {rank : S → Nat → Res Nat} (hl : ∀ s n, r.limit s = .ok n → n < 2 ^ 64)
    (h0 : ∀ s, r.limit s ≠ .diverge) (h1 : ∀ s p, rank s p ≠ .diverge) (s : BinSearchSelect S) (k : Nat) :
    BinSearchSelect.selectBy c r rank s k ≠ .diverge := by
  unfold BinSearchSelect.selectBy
  show (r.limit s.rankSupport >>= _) ≠ _
  rcases hn : r.limit s.rankSupport with n | _ | _
  · rw [Res.ok_bind]
    rcases hv : addN c 64 k 1 with v | _ | _
    · rw [Res.ok_bind]
      exact C89_terminates c (by decide) (hl _ _ hn) fun i => h1 _ _
    · intro h; cases h
    · exact absurd hv Ends.addN.ne
  · intro h; cases h
  · exact absurd hn (h0 _)

/-- C95. Selecting by binary search ends, whatever the rank structure underneath answers, even if it is wrong about its
own bits. -/
theorem C95_select (c : Cfg) {r : RankOps S} (hl : ∀ s n, r.limit s = .ok n → n < 2 ^ 64) (h0 : ∀ s, r.limit s ≠ .diverge) :
    ((∀ s p b, r.rank s p b ≠ .diverge) → ∀ s k b, BinSearchSelect.select c r s k b ≠ .diverge) ∧
    ((∀ s p, r.rank1 s p ≠ .diverge) → ∀ s k, BinSearchSelect.select1 c r s k ≠ .diverge) ∧
    ((∀ s p, r.rank0 s p ≠ .diverge) → ∀ s k, BinSearchSelect.select0 c r s k ≠ .diverge) :=
  ⟨fun h s k b => selectBy_ends c hl h0 (fun s p => h s p b) s k, fun h => selectBy_ends c hl h0 h,
    fun h => selectBy_ends c hl h0 h⟩

/-! ### The bit buffer -/

theorem BitBuf.pad_ends (c : Cfg) (s : BitBuf (VB w)) : Ends (BitBuf.pad c (bvBitVecPush c w) s) := by
  generalize hm : s.pos + 1 - s.data.len = m
  induction m using Nat.strongRecOn generalizing s with
  | ind m ih =>
  rw [BitBuf.pad.eq_def]
  show Ends (if s.pos ≥ s.data.len then _ else _)
  split
  · rename_i hge
    show Ends (VB.pushBit c s.data false >>= _)
    rcases hp : VB.pushBit c s.data false with d | _ | _
    · rw [Res.ok_bind]
      have hd := VB.pushBit_len hp
      exact ih (s.pos + 1 - d.len) (by omega) ⟨d, s.pos⟩ rfl
    · exact .panic
    · exact absurd hp Ends.VB_pushBit.ne
  · exact .ok _

/-- C95. Reading, writing and seeking in a `BitBuffer` over a `BitVector` end, whatever the contents and the position;
the padding loop of `write_bit` in particular. -/
theorem C95_bit_buffer (c : Cfg) (s : BitBuf (VB w)) (p : Nat) (b : Bool) :
    BitBuf.seek (bvBitVec c w) p s ≠ .diverge ∧ (BitBuf.read c (bvBitVec c w)).readBit s ≠ .diverge ∧
    (BitBuf.write c (bvBitVecPush c w)).writeBit b s ≠ .diverge := by
  refine ⟨?_, Ends.ne ?_, Ends.ne ?_⟩
  · show (if p ≤ s.data.len then _ else _) ≠ _
    split <;> (intro h; cases h)
  · show Ends (if s.pos < s.data.len then _ else _)
    split
    · refine Ends.bind (Ends.dfltGetBit (bitLen := fun s : BitBuf (VB w) => Res.ok s.data.len)
        (getBlock := fun s i => s.data.getBlock i) (fun _ => .ok _) fun _ _ => Ends.VB_getBlock) fun _ =>
        Ends.addN.bind fun _ => .ok _
    · exact .ok _
  · refine Ends.bind (BitBuf.pad_ends c s) fun t => ?_
    refine Ends.bind (Ends.dfltSetBit (bitLen := fun s : BitBuf (VB w) => Res.ok s.data.len)
        (getBlock := fun s i => s.data.getBlock i)
        (setBlock := fun s i x => do let d ← s.data.setBlock c 1 i x; .ok { s with data := d })
        (fun _ => .ok _) (fun _ _ => Ends.VB_getBlock) fun _ _ _ => Ends.VB_setBlock.bind fun _ => .ok _) fun _ =>
        Ends.addN.bind fun _ => .ok _

/-! Each theorem of this file that has hypotheses is applied to concrete data in `Verif/Instances/Totality.lean`. -/

end Succinct
