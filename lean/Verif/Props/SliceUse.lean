import Verif.Lemmas.Terminates
import Verif.Lemmas.BitBuffer
import Verif.Props.Slice
import Verif.Props.Rank
/-! Properties C83–C84: rank structures and bit buffers over bit slices. -/
namespace Succinct
open Spec

/-! ### Panics in the middle of a computation -/

theorem Ends.bind_panic {x : Res α} {f : α → Res β} (hx : Ends x) (hf : ∀ a, f a = .panic) : (x >>= f) = .panic := by
  cases x with
  | ok a => exact hf a
  | panic => rfl
  | diverge => exact absurd rfl hx.ne

theorem Res.bind_of_panic {x : Res α} {f : α → Res β} (hx : x = .panic) : (x >>= f) = .panic := by rw [hx]; rfl

theorem forLoop_panic {n i k : Nat} {s : σ} {f : Nat → σ → Res σ} (hf : ∀ j s, i ≤ j → j < i + n → Ends (f j s))
    (hk : i ≤ k) (hk' : k < i + n) (hp : ∀ s, f k s = .panic) : forLoop n i s f = .panic := by
  induction n generalizing i s with
  | zero => omega
  | succ n ih =>
    by_cases h : i = k
    · subst h
      show (f i s >>= _) = _
      exact Res.bind_of_panic (hp s)
    · exact Ends.bind_panic (hf i s (Nat.le_refl _) (by omega)) fun s' =>
        ih (fun j s h1 h2 => hf j s (by omega) (by omega)) (by omega) (by omega)

theorem forRange_panic {lo hi k : Nat} {s : σ} {f : Nat → σ → Res σ} (hf : ∀ j s, lo ≤ j → j < hi → Ends (f j s))
    (hk : lo ≤ k) (hk' : k < hi) (hp : ∀ s, f k s = .panic) : forRange lo hi s f = .panic :=
  forLoop_panic (fun j s h1 h2 => hf j s h1 (by omega)) hk (by omega) hp

theorem Ends.ceilLg {x : BitVec w} : Ends (ceilLg c x) := by unfold Succinct.ceilLg; ends
macro_rules | `(tactic| ends_leaf) => `(tactic| with_reducible exact Ends.ceilLg)
theorem Ends.ceilDiv : Ends (ceilDiv c n a b) := by unfold Succinct.ceilDiv; ends
macro_rules | `(tactic| ends_leaf) => `(tactic| with_reducible exact Ends.ceilDiv)
theorem Ends.VB_pushBits {s : VB w} : Ends (VB.pushBits c s eb v) := by unfold VB.pushBits; ends
macro_rules | `(tactic| ends_leaf) => `(tactic| with_reducible exact Ends.VB_pushBits)
theorem Ends.IV_push {s : IV w} : Ends (IV.push c s v) := by unfold IV.push IV.checkValue IV.checkValueRandom; ends
macro_rules | `(tactic| ends_leaf) => `(tactic| with_reducible exact Ends.IV_push)
theorem Ends.IV_withCapacity : Ends (IV.withCapacity c w eb n) := by
  unfold IV.withCapacity IV.create IV.checkElementBits; ends
macro_rules | `(tactic| ends_leaf) => `(tactic| with_reducible exact Ends.IV_withCapacity)
theorem Ends.level2Set {l v : BitVec 64} : Ends (Rank9.level2Set c l t v) := by
  unfold Rank9.level2Set Rank9.level2Shift; ends
macro_rules | `(tactic| ends_leaf) => `(tactic| with_reducible exact Ends.level2Set)
theorem Ends.storeCounts : Ends (Rank9.storeCounts c i l) := by unfold Rank9.storeCounts; dsimp only; ends
macro_rules | `(tactic| ends_leaf) => `(tactic| with_reducible exact Ends.storeCounts)

/-! ### Building a rank structure reads every block -/

/-- `Rank9::new` reads every block: if any of them cannot be read, it panics. -/
theorem rank9_new_panic {o : BitVecOps 64 S} {s : S} (hm : o.blockLen s = .ok m)
    (he : ∀ i < m, Ends (o.getBlock s i)) (hk : k < m) (hp : o.getBlock s k = .panic) : Rank9.new c o s = .panic := by
  unfold Rank9.new
  rw [hm, Res.ok_bind]
  refine Ends.bind_panic Ends.ceilDiv fun _ => Ends.bind_panic Ends.addN fun _ => ?_
  rw [Res.ok_bind]
  refine Res.bind_of_panic (forRange_panic (k := k) (fun j l _ hj => ?_) (Nat.zero_le _) hk fun l => ?_)
  · have := he j hj
    unfold Rank9.step
    ends
  · unfold Rank9.step
    exact Ends.bind_panic Ends.storeCounts fun _ => Res.bind_of_panic hp

/-- `JacobsonRank::new` reads every block: if any of them cannot be read, it panics. -/
theorem jacobson_new_panic {o : BitVecOps w S} {s : S} (hn : Ends (o.bitLen s)) (hm : o.blockLen s = .ok m)
    (he : ∀ i < m, Ends (o.getBlock s i)) (hk : k < m) (hp : o.getBlock s k = .panic) : Jacobson.new c o s = .panic := by
  unfold Jacobson.new
  refine Ends.bind_panic hn fun _ => Ends.bind_panic Ends.ceilLg fun _ => Ends.bind_panic Ends.mulN fun _ =>
    Ends.bind_panic Ends.ceilDiv fun _ => Ends.bind_panic Ends.mulN fun _ => Ends.bind_panic Ends.divN fun _ =>
    Ends.bind_panic Ends.addN fun _ => Ends.bind_panic Ends.divN fun _ => Ends.bind_panic Ends.addN fun _ =>
    Ends.bind_panic Ends.addN fun _ => Ends.bind_panic Ends.ceilLg fun _ => Ends.bind_panic Ends.addN fun _ =>
    Ends.bind_panic Ends.ceilLg fun _ => Ends.bind_panic Ends.IV_withCapacity fun _ =>
    Ends.bind_panic Ends.IV_withCapacity fun _ => ?_
  rw [hm, Res.ok_bind]
  refine Res.bind_of_panic (forRange_panic (k := k) (fun j l _ hj => ?_) (Nat.zero_le _) hk fun l => ?_)
  · have := he j hj
    unfold Jacobson.step
    ends
  · unfold Jacobson.step
    refine Ends.bind_panic (by ends) fun _ => Ends.bind_panic Ends.subN fun _ => Ends.bind_panic Ends.IV_push fun _ =>
      Res.bind_of_panic hp

/-! ### Slices of whole blocks -/

/-- the bits of a slice that is a whole number of blocks long -/
def wholeR (w : Nat) (R : S → List Bool → Prop) (s : Slice S) (bits : List Bool) : Prop :=
  sliceR R s bits ∧ w ∣ bits.length

section
variable {S : Type} {w : Nat} {c : Cfg} {o : BitVecOps w S} {R : S → List Bool → Prop} {s : Slice S} {bits : List Bool}

theorem whole_law (hw : IsBlk w) (hl : BVLaw c o R) : BVLaw c (sliceBitVec c o) (wholeR w R) :=
  have l := slice_law hw hl
  ⟨fun h => l.fits h.1, fun h => l.bitLen h.1, fun h => l.getBit h.1, fun h => l.getBits h.1,
    fun h => l.getBits_panic h.1⟩

theorem whole_lt (hw : IsBlk w) (hd : w ∣ n) (hi : i < blocksFor w n) : (i + 1) * w ≤ n := by
  obtain ⟨q, rfl⟩ := hd
  have h1 := (lt_blocksFor hw.pos).1 hi
  rw [Nat.mul_comm w q] at h1 ⊢
  have : i < q := Nat.lt_of_mul_lt_mul_right h1
  exact Nat.mul_le_mul_right w this

theorem whole_pad (hw : IsBlk w) (hl : BVLaw c o R) : BVPadLaw (sliceBitVec c o) (wholeR w R) where
  getBlock := fun hR i hi => (C35_blocks_partial hw hl hR.1).2.1 i (whole_lt hw hR.2 hi)

theorem whole_block (hw : IsBlk w) (hl : BVLaw c o R) : BVBlockRead (sliceBitVec c o) (wholeR w R) where
  blockLen := fun hR => (C35_blocks_partial hw hl hR.1).1
  getBlock := fun hR i hi => (whole_pad hw hl).block hR i hi

/-- within `block_len`, `get_block` on a slice always ends -/
theorem slice_getBlock_ends (hw : IsBlk w) (hl : BVLaw c o R) (hs : sliceR R s bits) (hi : i < blocksFor w bits.length) :
    Ends ((sliceBitVec c o).getBlock s i) := by
  by_cases h : (i + 1) * w ≤ bits.length
  · rw [(C35_blocks_partial hw hl hs).2.1 i h]; exact .ok _
  · have hd : ¬ w ∣ bits.length := fun hd => h (whole_lt hw hd hi)
    have h1 := (lt_blocksFor hw.pos).1 hi
    have : i = bits.length / w := by
      rw [eq_comm, Nat.div_eq_iff hw.pos]
      rw [Nat.succ_mul] at h
      omega
    rw [this, (C35_partial_block_panics hw hl hs hd).2]
    exact .panic

/-- C83 for Jacobson: over a slice of at least two bits the structure can be built exactly when the slice is a
whole number of blocks long, and then answers every query about the slice's bits. -/
theorem C83_jacobson_partial (hw : IsBlk w) (hl : BVLaw c o R) (hs : sliceR R s bits)
    (hmem : InMemory c.usz bits.length) (h2 : 2 ≤ bits.length) :
    (w ∣ bits.length → ∃ j, Jacobson.new c (sliceBitVec c o) s = .ok j ∧ j.inner = s ∧
      RankLaw (Jacobson.ops c (sliceBitVec c o)) j bits) ∧
    (¬ w ∣ bits.length → Jacobson.new c (sliceBitVec c o) s = .panic) := by
  refine ⟨fun hd => C37_jacobson hw (whole_law hw hl) (whole_block hw hl) (whole_pad hw hl) ⟨hs, hd⟩ hmem h2, fun hd => ?_⟩
  obtain ⟨h1, h3⟩ := C35_partial_block_panics hw hl hs hd
  exact jacobson_new_panic (.ok _) (C35_blocks_partial hw hl hs).1 (fun i hi => slice_getBlock_ends hw hl hs hi) h1 h3

end

section
variable {S : Type} {c : Cfg} {o : BitVecOps 64 S} {R : S → List Bool → Prop} {s : Slice S} {bits : List Bool}

/-- C83 for `Rank9`: over a slice the structure can be built exactly when the slice is a whole number of words
long, and then answers every query about the slice's bits. -/
theorem C83_rank9_partial (hl : BVLaw c o R) (hs : sliceR R s bits) (hu : blocksFor 64 bits.length + 8 < 2 ^ c.usz) :
    (64 ∣ bits.length → ∃ r, Rank9.new c (sliceBitVec c o) s = .ok r ∧ r.inner = s ∧
      RankLaw (Rank9.ops c (sliceBitVec c o)) r bits) ∧
    (¬ 64 ∣ bits.length → Rank9.new c (sliceBitVec c o) s = .panic) := by
  refine ⟨fun hd => C39_rank9 (whole_law isBlk64 hl) (whole_block isBlk64 hl) ⟨hs, hd⟩ hu, fun hd => ?_⟩
  obtain ⟨h1, h3⟩ := C35_partial_block_panics isBlk64 hl hs hd
  exact rank9_new_panic (C35_blocks_partial isBlk64 hl hs).1 (fun i hi => slice_getBlock_ends isBlk64 hl hs hi) h1 h3

end

/-- C83, concretely: the first 64 of 70 bits can be ranked, the first 65 cannot; `BitVector`s of the same 65 bits
can. -/
theorem C83_counterexample (d a : Bool) : let c : Cfg := ⟨d, .p64, a⟩
    let v : VB 64 := ⟨70, [5#64, 3#64]⟩
    (∃ s, Slice.new (bvBitVec c 64) v (.range 0 64) = .ok s ∧
      (Rank9.new c (sliceBitVec c (bvBitVec c 64)) s >>= fun r =>
        (Rank9.ops c (sliceBitVec c (bvBitVec c 64))).rank1 r 63) = .ok 2) ∧
    (∃ s, Slice.new (bvBitVec c 64) v (.range 0 65) = .ok s ∧
      (Rank9.new c (sliceBitVec c (bvBitVec c 64)) s matches .panic) ∧
      (Jacobson.new c (sliceBitVec c (bvBitVec c 64)) s matches .panic)) ∧
    (Rank9.new c (bvBitVec c 64) ⟨65, [5#64, 1#64]⟩ >>= fun r => (Rank9.ops c (bvBitVec c 64)).rank1 r 64) = .ok 3 := by
  refine ⟨⟨⟨⟨70, [5#64, 3#64]⟩, 0, 64⟩, ?_⟩, ⟨⟨⟨70, [5#64, 3#64]⟩, 0, 65⟩, ?_⟩, ?_⟩ <;> cases d <;> cases a <;> decide

/-! ### Buffers over slices -/

section
variable {S : Type} {w : Nat} {c : Cfg} {o : BitVecOps w S} {R : S → List Bool → Prop} {s : Slice S} {bits : List Bool}

/-- `get_bit` of a buffer over a slice: right within the whole blocks, a panic everywhere else. -/
theorem slice_buf_getBit (hw : IsBlk w) (hl : BVLaw c o R) (hs : sliceR R s bits) (p i : Nat) :
    (BitBuf.bitVec c (sliceBitVec c o)).getBit ⟨s, p⟩ i =
      if i < bits.length / w * w then .ok (bits[i]?.getD false) else .panic := by
  have hf := (slice_law hw hl).fits hs
  have hwp := hw.pos
  have hle := Nat.div_mul_le_self bits.length w
  show dfltGetBit c (BitBuf.bitVec c (sliceBitVec c o)).bitLen (BitBuf.bitVec c (sliceBitVec c o)).getBlock ⟨s, p⟩ i = _
  unfold dfltGetBit
  rw [show (BitBuf.bitVec c (sliceBitVec c o)).bitLen ⟨s, p⟩ = .ok bits.length from (slice_law hw hl).bitLen hs, Res.ok_bind]
  by_cases hi : i < bits.length
  rotate_left
  · rw [assertR_false hi, if_neg (by omega)]; rfl
  rw [assertR_true hi, Res.ok_bind, addrNew_ok c hw (hf.div_lt hwp hi), Res.ok_bind]
  have hi2 : i / w ≤ bits.length / w := Nat.div_le_div_right (by omega)
  have e1 := Nat.div_add_mod i w
  rw [Nat.mul_comm] at e1
  have e2 := Nat.mod_lt i hwp
  show ((sliceBitVec c o).getBlock s (i / w) >>= _) = _
  by_cases h : i < bits.length / w * w
  · rw [if_pos h]
    have h4 : i / w < bits.length / w := (Nat.div_lt_iff_lt_mul hwp).2 h
    have h5 : (i / w + 1) * w ≤ bits.length := Nat.le_trans (Nat.mul_le_mul_right w h4) hle
    rw [Nat.succ_mul] at h5
    rw [(C35_blocks_partial hw hl hs).2.1 _ (by rw [Nat.succ_mul]; exact h5), Res.ok_bind, blkGetBit_eq, if_pos e2]
    congr 1
    rw [BitVec.getLsbD, BitVec.toNat_ofNat, Nat.mod_eq_of_lt (span_lt bits _ _ w (Nat.le_refl _)), testBit_bitsVal,
      List.getElem?_take, if_pos e2, List.getElem?_drop, e1]
  · rw [if_neg h]
    have h4 : i / w = bits.length / w := by
      have : ¬ i / w < bits.length / w := fun h' => h ((Nat.div_lt_iff_lt_mul hwp).1 h')
      omega
    have hd : ¬ w ∣ bits.length := fun hd => by rw [Nat.div_mul_cancel hd] at h; omega
    rw [h4]
    exact Res.bind_of_panic (C35_partial_block_panics hw hl hs hd).2

/-- C84, exactly: reading from a buffer over a slice yields the slice's bits up to its last whole block, then
panics instead of yielding the remaining ones. -/
theorem C84_read_bit_partial (hw : IsBlk w) (hl : BVLaw c o R) (hs : sliceR R s bits) (p : Nat) :
    (∀ h : p < bits.length / w * w, (BitBuf.read c (sliceBitVec c o)).readBit ⟨s, p⟩ =
      .ok (.ok (some (bits[p]'(Nat.lt_of_lt_of_le h (Nat.div_mul_le_self _ _)))), ⟨s, p + 1⟩)) ∧
    (bits.length / w * w ≤ p → p < bits.length → (BitBuf.read c (sliceBitVec c o)).readBit ⟨s, p⟩ = .panic) ∧
    (bits.length ≤ p → (BitBuf.read c (sliceBitVec c o)).readBit ⟨s, p⟩ = .ok (.ok none, ⟨s, p⟩)) := by
  have hlen := (slice_law hw hl).bitLen hs
  have hf := ((slice_law hw hl).fits hs).lt hw.pos
  have hle := Nat.div_mul_le_self bits.length w
  refine ⟨fun h => ?_, fun h1 h2 => ?_, fun h => buf_read_none (slice_law hw hl) hs h⟩
  · rw [buf_read_def, buf_bitLen_def, hlen, Res.ok_bind, if_pos (show p < bits.length by omega), slice_buf_getBit hw hl hs, if_pos h, Res.ok_bind,
      addN_ok (show p + 1 < 2 ^ 64 by omega), Res.ok_bind, List.getElem?_eq_getElem (show p < bits.length by omega)]
    rfl
  · rw [buf_read_def, buf_bitLen_def, hlen, Res.ok_bind, if_pos h2, slice_buf_getBit hw hl hs, if_neg (show ¬ p < bits.length / w * w by omega)]
    rfl

/-- C84: a buffer over a slice of whole blocks is a lawful source, so every reader and decoder works on it. -/
theorem C84_whole_blocks_partial (hw : IsBlk w) (hl : BVLaw c o R) :
    LawfulSource (BitBuf.read c (sliceBitVec c o))
      (fun b l => ∃ f, bufR (wholeR w R) b f ∧ l = f.bits.drop f.pos) where
  some := by
    rintro b x l ⟨f, ⟨hR, hp, hle⟩, hl2⟩
    obtain ⟨s, p⟩ := b
    obtain rfl : p = f.pos := hp
    have hlt : f.pos < f.bits.length := by
      rcases Nat.lt_or_ge f.pos f.bits.length with h | h
      · exact h
      · rw [List.drop_eq_nil_of_le h] at hl2; cases hl2
    rw [List.drop_eq_getElem_cons hlt] at hl2
    obtain ⟨rfl, rfl⟩ := List.cons.inj hl2
    exact ⟨_, (C84_read_bit_partial hw hl hR.1 f.pos).1 (by rw [Nat.div_mul_cancel hR.2]; exact hlt),
      ⟨f.bits, f.pos + 1⟩, ⟨hR, rfl, hlt⟩, rfl⟩
  none := by
    rintro b ⟨f, ⟨hR, hp, hle⟩, hl2⟩
    obtain ⟨s, p⟩ := b
    obtain rfl : p = f.pos := hp
    have hge : f.bits.length ≤ f.pos := List.drop_eq_nil_iff.1 hl2.symm
    exact ⟨_, (C84_read_bit_partial hw hl hR.1 f.pos).2.2 hge, f, ⟨hR, rfl, hle⟩, hl2⟩

end

/-- C84, concretely: a buffer over the first four bits of a `u8` vector cannot be read; over all eight it can. -/
theorem C84_counterexample (d a : Bool) : let c : Cfg := ⟨d, .p64, a⟩
    let v : VB 8 := ⟨8, [0xA7#8]⟩
    (∃ s, Slice.new (bvBitVec c 8) v (.range 0 4) = .ok s ∧ (sliceBitVec c (bvBitVec c 8)).getBit s 0 = .ok true ∧
      ((BitBuf.read c (sliceBitVec c (bvBitVec c 8))).readBit (BitBuf.from_ s) matches .panic)) ∧
    (∃ s, Slice.new (bvBitVec c 8) v .full = .ok s ∧
      ((BitBuf.read c (sliceBitVec c (bvBitVec c 8))).readBit (BitBuf.from_ s) matches .ok (.ok (some true), _))) := by
  refine ⟨⟨⟨⟨8, [0xA7#8]⟩, 0, 4⟩, ?_⟩, ⟨⟨⟨8, [0xA7#8]⟩, 0, 8⟩, ?_⟩⟩ <;> cases d <;> cases a <;> decide

/-! Each theorem of this file that has hypotheses is applied to concrete data in `Verif/Instances/SliceUse.lean`. -/

end Succinct
