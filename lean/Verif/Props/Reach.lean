import Verif.Props.IntVector
import Verif.Props.Stream
/-! Property C120: exactly which states the vectors and buffers can be in. -/
namespace Succinct
open Spec

/-- Appending bits one by one to a list of booleans. -/
theorem pushBits_spec (w : Nat) (bits l : List Bool) :
    bvSpecRun w l (bits.map .pushBit) = some (List.replicate bits.length .unit, l ++ bits) := by
  induction bits generalizing l with
  | nil => simp [bvSpecRun]
  | cons b bits ih =>
    simp only [List.map_cons, bvSpecRun, bvSpec, Option.bind_eq_bind, Option.bind_some, ih]
    simp [List.replicate_succ]

theorem pushBits_ok (bits l : List Bool) (h : Fits usz w (l.length + bits.length)) : bvOpsOk usz w l (bits.map .pushBit) := by
  induction bits generalizing l with
  | nil => trivial
  | cons b bits ih =>
    rw [List.length_cons] at h
    refine ⟨h.mono (by omega), ?_⟩
    rintro r hr
    cases hr
    exact ih _ (by rw [List.length_append, List.length_singleton]; exact h.mono (by omega))

/-- Appending numbers one by one. -/
theorem pushInts_spec (w k : Nat) (xs l : List Nat) (hk : k ≤ w) (hx : ∀ x ∈ xs, x < 2 ^ k) :
    ivSpecRun w k l (xs.map fun x => .push (BitVec.ofNat w x)) = some (List.replicate xs.length .unit, l ++ xs) := by
  induction xs generalizing l with
  | nil => simp [ivSpecRun]
  | cons x xs ih =>
    have h1 := hx x List.mem_cons_self
    have h2 : (BitVec.ofNat w x).toNat = x :=
      (BitVec.toNat_ofNat ..).trans (Nat.mod_eq_of_lt (Nat.lt_of_lt_of_le h1 (Nat.pow_le_pow_right (by omega) hk)))
    simp only [List.map_cons, ivSpecRun, ivSpec, h2, if_pos h1, Option.bind_eq_bind, Option.bind_some,
      ih _ fun x hx' => hx x (List.mem_cons_of_mem _ hx')]
    simp [List.replicate_succ]

theorem pushInts_ok (k : Nat) (xs l : List Nat) (hk : k ≤ w) (hx : ∀ x ∈ xs, x < 2 ^ k) (h : Fits usz w ((l.length + xs.length) * k)) :
    ivOpsOk usz w k l (xs.map fun x => .push (BitVec.ofNat w x)) := by
  induction xs generalizing l with
  | nil => trivial
  | cons x xs ih =>
    rw [List.length_cons] at h
    refine ⟨h.mono (by
      rw [← Nat.succ_mul]
      exact Nat.mul_le_mul_right _ (by omega)), ?_⟩
    rintro r hr
    have h1 := hx x List.mem_cons_self
    have h2 : (BitVec.ofNat w x).toNat = x :=
      (BitVec.toNat_ofNat ..).trans (Nat.mod_eq_of_lt (Nat.lt_of_lt_of_le h1 (Nat.pow_le_pow_right (by omega) hk)))
    rw [ivSpec, h2, if_pos h1] at hr
    cases hr
    refine ih _ (fun x hx' => hx x (List.mem_cons_of_mem _ hx')) ?_
    rw [List.length_append, List.length_singleton]
    exact h.mono (Nat.mul_le_mul_right _ (by omega))

/-- C120: any bits that fit can be had by appending them to a new vector. -/
theorem C120_push_bits (c : Cfg) (h : IsBlk w) (bits : List Bool) (hf : Fits c.usz w bits.length) :
    ∃ s0 s, bvInit c (.new : BvInit w) = .ok s0 ∧
      bvRun c s0 (bits.map .pushBit) = .ok (List.replicate bits.length .unit, s) ∧ BvReach c w s bits := by
  have hops := pushBits_ok bits [] (by simpa using hf)
  obtain ⟨s0, h0, hR⟩ := bvInit_ok c h .new trivial
  have h2 := bvRun_refines c h _ hR hops
  rw [show (BvInit.new : BvInit w).bits = [] from rfl, pushBits_spec w bits []] at h2
  obtain ⟨s, h3, h4⟩ := h2
  exact ⟨s0, s, h0, h3, ⟨.new, _, s0, _, _, trivial, hops, h0, h3, pushBits_spec w bits []⟩⟩

/-- The same for numbers below `2^k`. -/
theorem C120_push_ints (c : Cfg) (h : IsBlk w) (hk : 1 ≤ k) (hkw : k ≤ w) (xs : List Nat) (hx : ∀ x ∈ xs, x < 2 ^ k)
    (hf : Fits c.usz w (xs.length * k)) :
    ∃ s0 s, ivInit c k (.new : IvInit w) = .ok s0 ∧
      ivRun c s0 (xs.map fun x => .push (BitVec.ofNat w x)) = .ok (List.replicate xs.length .unit, s) ∧ IvReach c w k s xs := by
  have hops := pushInts_ok k xs [] hkw hx (by simpa using hf)
  obtain ⟨s0, h0, hR⟩ := ivInit_ok c h hk hkw .new trivial
  have h2 := ivRun_refines c h _ hR hops
  have h5 := pushInts_spec w k xs [] hkw hx
  rw [show (IvInit.new : IvInit w).elems k = [] from rfl, h5] at h2
  obtain ⟨s, h3, h4⟩ := h2
  exact ⟨s0, s, h0, h3, ⟨.new, _, s0, _, _, hk, hkw, trivial, hops, h0, h3, h5⟩⟩

/-- What the proofs of the other properties use of a vector is all there is to it: such a vector can be made. -/
theorem bvR.reach (h : IsBlk w) {s : VB w} (hR : bvR c w s bits) : BvReach c w s bits := by
  obtain ⟨-, s', -, -, h1⟩ := C120_push_bits c h bits ((bv_law c h).fits hR)
  rwa [hR.eq_of_bits Nat.one_pos (h1.rep h)]

theorem IR.reach (h : IsBlk w) {s : IV w} (hR : IR c w k s xs) : IvReach c w k s xs := by
  obtain ⟨-, s', -, -, h1⟩ := C120_push_ints c h hR.pos hR.le xs hR.lt (by simpa using hR.rep.fits)
  have hR' := h1.rep h
  have e1 := hR.rep.eq_of_bits hR.pos hR'.rep
  have e2 := hR.eb.trans hR'.eb.symm
  have : s = s' := by cases s; cases s'; simp_all
  rwa [this]

theorem VR_iff (hw : 0 < w) {s : VB w} : VR c w eb s bits ↔
    s.len * eb = bits.length ∧ Fits c.usz w bits.length ∧ arrayBits s.vec = padTo w bits := by
  constructor
  · exact fun h => ⟨h.len, h.fits, h.array hw⟩
  · rintro ⟨h1, h2, h3⟩
    refine ⟨h1, ?_, fun i => ?_, h2⟩
    · have := congrArg List.length h3
      rw [length_arrayBits, length_padTo hw] at this
      exact Nat.eq_of_mul_eq_mul_right hw this
    · rw [← getD_arrayBits _ hw, h3, getD_padTo]

/-- **C120**, `BitVector`: a vector can be made to hold certain bits exactly if there are not too many, the length is right, and
its blocks are these bits filled up with zeros. -/
theorem C120_bit_vector (c : Cfg) (h : IsBlk w) (s : VB w) (bits : List Bool) :
    BvReach c w s bits ↔ Fits c.usz w bits.length ∧ s.len = bits.length ∧ arrayBits s.vec = padTo w bits := by
  have : BvReach c w s bits ↔ bvR c w s bits := ⟨fun hr => hr.rep h, bvR.reach h⟩
  rw [this]
  show VR c w 1 s bits ↔ _
  rw [VR_iff h.pos, Nat.mul_one]
  exact ⟨fun ⟨a, b, d⟩ => ⟨b, a, d⟩, fun ⟨a, b, d⟩ => ⟨b, a, d⟩⟩

/-- **C120**, `IntVector`. -/
theorem C120_int_vector (c : Cfg) (h : IsBlk w) (s : IV w) (k : Nat) (xs : List Nat) :
    IvReach c w k s xs ↔ 1 ≤ k ∧ k ≤ w ∧ (∀ x ∈ xs, x < 2 ^ k) ∧ Fits c.usz w (xs.length * k) ∧ s.elementBits = k ∧
      s.base.len = xs.length ∧ arrayBits s.base.vec = padTo w (packBits k xs) := by
  have : IvReach c w k s xs ↔ IR c w k s xs := ⟨fun hr => hr.rep h, IR.reach h⟩
  rw [this]
  constructor
  · intro hR
    obtain ⟨h1, h2, h3⟩ := (VR_iff h.pos).1 hR.rep
    exact ⟨hR.pos, hR.le, hR.lt, by simpa using h2, hR.eb, hR.len, h3⟩
  · rintro ⟨h1, h2, h3, h4, h5, h6, h7⟩
    exact ⟨h5, h1, h2, h3, (VR_iff h.pos).2 ⟨by rw [h6, length_packBits], by simpa using h4, h7⟩⟩

/-- The bits in the blocks of a vector, cut off at its length. -/
theorem VR_states (hw : 0 < w) (s : VB w) (n : Nat) : (∃ bits, bits.length = n ∧ arrayBits s.vec = padTo w bits) ↔
    s.vec.length = blocksFor w n ∧ ∀ i, n ≤ i → (arrayBits s.vec)[i]?.getD false = false := by
  constructor
  · rintro ⟨bits, rfl, h⟩
    refine ⟨?_, fun i hi => ?_⟩
    · have := congrArg List.length h
      rw [length_arrayBits, length_padTo hw] at this
      exact Nat.eq_of_mul_eq_mul_right hw this
    · rw [h, getD_padTo, List.getElem?_eq_none hi]; rfl
  · rintro ⟨h1, h2⟩
    have hle : n ≤ (arrayBits s.vec).length := by
      rw [length_arrayBits, h1]
      exact le_blocksFor_mul n hw
    have hlen : ((arrayBits s.vec).take n).length = n := by rw [List.length_take]; omega
    refine ⟨(arrayBits s.vec).take n, hlen, bits_ext ?_ fun i hi => ?_⟩
    · rw [length_padTo hw, hlen, length_arrayBits, h1]
    · rw [getD_padTo, List.getElem?_take]
      split
      · rfl
      · exact h2 i (by omega)

/-- **C120**, the states of a `BitVector`: there are as many blocks as the length requires, and no bit beyond the length is set. -/
theorem C120_bit_states (c : Cfg) (h : IsBlk w) (s : VB w) :
    (∃ bits, BvReach c w s bits) ↔ Fits c.usz w s.len ∧ s.vec.length = blocksFor w s.len ∧
      ∀ i, s.len ≤ i → (arrayBits s.vec)[i]?.getD false = false := by
  rw [← VR_states h.pos]
  simp only [C120_bit_vector c h]
  constructor
  · rintro ⟨bits, h1, h2, h3⟩
    exact ⟨by rw [h2]; exact h1, bits, h2.symm, h3⟩
  · rintro ⟨h1, bits, h2, h3⟩
    exact ⟨bits, by rw [h2]; exact h1, h2.symm, h3⟩

/-- **C120**, the states of an `IntVector`. -/
theorem C120_int_states (c : Cfg) (h : IsBlk w) (s : IV w) :
    (∃ k xs, IvReach c w k s xs) ↔ 1 ≤ s.elementBits ∧ s.elementBits ≤ w ∧ Fits c.usz w (s.base.len * s.elementBits) ∧
      s.base.vec.length = blocksFor w (s.base.len * s.elementBits) ∧
      ∀ i, s.base.len * s.elementBits ≤ i → (arrayBits s.base.vec)[i]?.getD false = false := by
  rw [← VR_states h.pos]
  simp only [C120_int_vector c h]
  constructor
  · rintro ⟨k, xs, h1, h2, h3, h4, h5, h6, h7⟩
    rw [h5, h6]
    exact ⟨h1, h2, h4, _, by simp, h7⟩
  · rintro ⟨h1, h2, h3, bits, h4, h5⟩
    have e : floorTo s.elementBits bits = bits := by
      rw [floorTo, h4, Nat.mul_div_cancel _ h1, ← h4, List.take_length]
    have hl : (unpack s.elementBits bits).length = s.base.len := by
      rw [length_unpack, h4, Nat.mul_div_cancel _ h1]
    refine ⟨s.elementBits, unpack s.elementBits bits, h1, h2, unpack_lt _ _, by rw [hl]; exact h3, rfl, hl.symm, ?_⟩
    rw [packBits_unpack _ h1, e]
    exact h5

/-- Writing bits one by one at the end of a file. -/
theorem writes_spec (bits l : List Bool) : bufSpecRun ⟨l, l.length⟩ (bits.map .write) =
    some (List.replicate bits.length .unit, ⟨l ++ bits, l.length + bits.length⟩) := by
  induction bits generalizing l with
  | nil => simp [bufSpecRun]
  | cons b bits ih =>
    have := ih (l ++ [b])
    rw [List.length_append, List.length_singleton] at this
    simp only [List.map_cons, bufSpecRun, bufSpec, Option.bind_eq_bind, Option.bind_some, List.take_length,
      List.drop_eq_nil_of_le (Nat.le_succ _), this]
    simp [List.replicate_succ]
    omega

theorem writes_ok {Fit : Nat → Prop} (hm : ∀ {m n}, Fit n → m ≤ n → Fit m) (bits l : List Bool) (h : Fit (l.length + bits.length)) :
    bufOpsOk Fit ⟨l, l.length⟩ (bits.map .write) := by
  induction bits generalizing l with
  | nil => trivial
  | cons b bits ih =>
    rw [List.length_cons] at h
    refine ⟨fun _ => hm h (by simp only; omega), ?_⟩
    rintro r hr
    cases hr
    have := ih (l ++ [b]) (by rw [List.length_append, List.length_singleton]; exact hm h (by omega))
    rw [List.length_append, List.length_singleton] at this
    simpa [List.drop_eq_nil_of_le (Nat.le_succ l.length)] using this

theorem bufSpecRun_append (f : BitFile) (a b : List BufOp) : bufSpecRun f (a ++ b) =
    (bufSpecRun f a).bind fun r => (bufSpecRun r.2 b).map fun q => (r.1 ++ q.1, q.2) := by
  induction a generalizing f with
  | nil => simp [bufSpecRun]
  | cons x a ih =>
    simp only [List.cons_append, bufSpecRun, Option.bind_eq_bind, ih]
    cases bufSpec f x with
    | none => rfl
    | some r =>
      simp only [Option.bind_some]
      cases bufSpecRun r.2 a with
      | none => rfl
      | some r' =>
        simp only [Option.bind_some]
        cases bufSpecRun r'.2 b <;> rfl

theorem bufOpsOk_append {Fit : Nat → Prop} {f : BitFile} {a b : List BufOp} (h1 : bufOpsOk Fit f a)
    (h2 : ∀ r, bufSpecRun f a = some r → bufOpsOk Fit r.2 b) : bufOpsOk Fit f (a ++ b) := by
  induction a generalizing f with
  | nil => exact h2 _ rfl
  | cons x a ih =>
    refine ⟨h1.1, fun r hr => ih (h1.2 r hr) fun q hq => h2 (r.1 :: q.1, q.2) ?_⟩
    simp only [bufSpecRun, hr, hq, Option.bind_eq_bind, Option.bind_some]

/-- **C120**, the states of a `BitBuffer`: its vector can be any vector, and its position any up to the length of the vector. -/
theorem C120_bit_buffer (c : Cfg) (h : IsBlk w) (b : BitBuf (VB w)) :
    (∃ ops s0 os, bufOpsOk (Fits c.usz w) ⟨[], 0⟩ ops ∧ BitBuf.new c w = .ok s0 ∧ bufRun c (bvBitVecPush c w) s0 ops = .ok (os, b)) ↔
      ∃ bits, BvReach c w b.data bits ∧ b.pos ≤ bits.length := by
  constructor
  · rintro ⟨ops, s0, os, h1, h2, h3⟩
    obtain ⟨s0', h4, h5⟩ := C54_bit_vector c h ops h1
    cases h2.symm.trans h4
    cases hs : bufSpecRun ⟨[], 0⟩ ops with
    | none =>
      rw [hs] at h5
      cases h3.symm.trans h5
    | some r =>
      rw [hs] at h5
      obtain ⟨s', h6, h7, h8, h9⟩ := h5
      cases h3.symm.trans h6
      exact ⟨r.2.bits, bvR.reach h h7, by omega⟩
  · rintro ⟨bits, h1, h2⟩
    have hR := h1.rep h
    have hf := (bv_law c h).fits hR
    have hlt := hf.lt h.pos
    have ew := writes_spec bits []
    have ok : bufOpsOk (Fits c.usz w) ⟨[], 0⟩ (bits.map .write ++ [.seek b.pos]) := by
      refine bufOpsOk_append (writes_ok (fun h hm => h.mono hm) bits [] (by simpa using hf)) fun r _ => ⟨?_, fun _ _ => trivial⟩
      show b.pos < 2 ^ 64
      omega
    have e : bufSpecRun ⟨[], 0⟩ (bits.map .write ++ [.seek b.pos]) = some (List.replicate bits.length .unit ++ [.unit], ⟨bits, b.pos⟩) := by
      rw [bufSpecRun_append, show bufSpecRun ⟨[], 0⟩ (bits.map .write) = _ from ew]
      simp [bufSpecRun, bufSpec, h2]
    obtain ⟨s0, h4, h5⟩ := C54_bit_vector c h _ ok
    rw [e] at h5
    obtain ⟨s', h6, h7, h8, -⟩ := h5
    have : s' = b := by
      have e1 : s'.data = b.data := h7.eq_of_bits Nat.one_pos hR
      have e2 : s'.pos = b.pos := h8
      cases s'; cases b; simp_all
    subst this
    exact ⟨_, s0, _, ok, h4, h6⟩

/-- A vector with a forgotten bit beyond its length, one with a block too many, and one with a block too few cannot be made; the
first can with the bit cleared. -/
example (c : Cfg) : (¬ ∃ bits, BvReach c 8 ⟨3, [0x0D#8]⟩ bits) ∧ (¬ ∃ bits, BvReach c 8 ⟨3, [0x05#8, 0#8]⟩ bits) ∧
    (¬ ∃ bits, BvReach c 8 ⟨9, [0x05#8]⟩ bits) ∧ BvReach c 8 ⟨3, [0x05#8]⟩ [true, false, true] ∧
    IvReach c 8 5 ⟨5, ⟨2, [0x35#8, 0x02#8]⟩⟩ [21, 17] := by
  have h8 : IsBlk 8 := isBlk8
  have hf : ∀ n ≤ 64, Fits c.usz 8 n := by
    intro n h
    have := c.le_pow_usz
    unfold Fits blocksFor
    constructor <;> omega
  refine ⟨?_, ?_, ?_, ?_, ?_⟩
  · rw [C120_bit_states c h8]
    exact fun h => absurd (h.2.2 3 (by decide)) (by decide)
  · rw [C120_bit_states c h8]
    exact fun h => absurd h.2.1 (by decide)
  · rw [C120_bit_states c h8]
    exact fun h => absurd h.2.1 (by decide)
  · rw [C120_bit_vector c h8]
    exact ⟨hf 3 (by decide), rfl, by decide⟩
  · rw [C120_int_vector c h8]
    exact ⟨by decide, by decide, by decide, hf 10 (by decide), rfl, rfl, by decide⟩

/-! Each theorem of this file that has hypotheses is applied to concrete data in `Verif/Instances/Reach.lean`. -/

end Succinct
