import Verif.Lemmas.Unwind
import Verif.Props.BitVector
import Verif.Props.IntVector
/-! Properties C78–C81: what a panic leaves behind. -/
namespace Succinct
open Spec

/-- C78. From any constructor, any sequence of calls, each inside `catch_unwind`, behaves on `BitVector`
as on a list of booleans on which a call that is out of range does nothing. -/
theorem C78_caught_panics (c : Cfg) (h : IsBlk w) (i : BvInit w) (ops : List (BvOp w)) (hi : i.Ok c.usz)
    (hops : catchOk (bvSpec w) (fun bits op => op.Ok c.usz w bits) i.bits ops) :
    ∃ s0 s, bvInit c i = .ok s0 ∧ runCatch (bvStepP c) s0 ops = .ok ((catchRun (bvSpec w) i.bits ops).1, s) ∧
      (bvBitVec c w).bitLen s = .ok (catchRun (bvSpec w) i.bits ops).2.length ∧
      ∀ k < 2 ^ 64, (bvBitVec c w).getBit s k = expectR (catchRun (bvSpec w) i.bits ops).2[k]? := by
  obtain ⟨s0, h0, hR0⟩ := bvInit_ok c h i hi
  obtain ⟨s, h1, h2⟩ := runCatch_refines (fun s a op hR hok => bvStepP_refines c h hR op hok) ops s0 _ hR0 hops
  exact ⟨s0, s, h0, h1, bv_bitLen c h2, fun k hk => (bv_law c h).getBit h2 k hk⟩

/-- C78, one call: a call that is out of range leaves behind the very same vector. -/
theorem C78_unchanged (c : Cfg) (h : IsBlk w) {s : VB w} (hr : BvReach c w s bits) (op : BvOp w)
    (hok : op.Ok c.usz w bits) (hsp : bvSpec w bits op = none) : bvStepP c op s = .panic s := by
  have := bvStepP_refines c h (hr.rep h) op hok
  rw [hsp] at this
  exact this

/-- Three of the six calls panic; the others see the vector as if these had not been made. -/
example : catchRun (bvSpec 8) [] [.pushBit true, .setBit 1 true, .pushBlock 5#8, .setBits 12 7 0x7F#8, .getBlock 2, .popBit] =
    ([some .unit, none, some .unit, none, none, some (.optBit (some false))],
      [true, false, false, false, false, false, false, false, true, false, true, false, false, false, false]) := by
  decide

example : runCatch (bvStepP (w := 8) ⟨true, .p64, true⟩) ⟨0, []⟩
    [.pushBit true, .setBit 1 true, .pushBlock 5#8, .setBits 12 7 0x7F#8, .getBlock 2, .popBit] =
      .ok ([some .unit, none, some .unit, none, none, some (.optBit (some false))], ⟨15, [1#8, 5#8]⟩) := by
  decide

/-- C79. The same for `IntVector` and a list of numbers below `2^k`. -/
theorem C79_caught_panics (c : Cfg) (h : IsBlk w) (hk : 1 ≤ k) (hkw : k ≤ w) (i : IvInit w) (ops : List (IvOp w))
    (hi : i.Ok c.usz k) (hops : catchOk (ivSpec w k) (fun xs op => op.Ok c.usz w k xs) (i.elems k) ops) :
    ∃ s0 s, ivInit c k i = .ok s0 ∧
      runCatch (ivStepP c) s0 ops = .ok ((catchRun (ivSpec w k) (i.elems k) ops).1, s) ∧
      s.len = (catchRun (ivSpec w k) (i.elems k) ops).2.length ∧
      ∀ j, j < 2 ^ c.usz →
        (do let x ← s.get c j; .ok x.toNat) = expectR (catchRun (ivSpec w k) (i.elems k) ops).2[j]? := by
  obtain ⟨s0, h0, hR0⟩ := ivInit_ok c h hk hkw i hi
  obtain ⟨s, h1, h2⟩ := runCatch_refines (fun s a op hR hok => ivStepP_refines c h hR op hok) ops s0 _ hR0 hops
  refine ⟨s0, s, h0, h1, h2.len, fun j hj => ?_⟩
  by_cases hjl : j < (catchRun (ivSpec w k) (i.elems k) ops).2.length
  · obtain ⟨x, h3, h4⟩ := h2.get_ok h hjl
    rw [h3, List.getElem?_eq_getElem hjl, ← h4]; rfl
  · rw [h2.get_panic h (by omega) (fun _ => hj), List.getElem?_eq_none (by omega)]; rfl

/-- C79, one call. -/
theorem C79_unchanged (c : Cfg) (h : IsBlk w) {s : IV w} (hr : IvReach c w k s xs) (op : IvOp w)
    (hok : op.Ok c.usz w k xs) (hsp : ivSpec w k xs op = none) : ivStepP c op s = .panic s := by
  have := ivStepP_refines c h (hr.rep h) op hok
  rw [hsp] at this
  exact this

example : catchRun (ivSpec 8 5) [] [.push 21#8, .push 32#8, .push 9#8, .set 2 0#8, .set 1 31#8, .get 1, .pop] =
    ([some .unit, none, some .unit, none, some .unit, some (.num 31), some (.optNum (some 31))], [21]) := by
  decide

/-- C80. Whatever the arguments (also field widths of zero or above the block width, and positions whose
end overflows), a setter that panics leaves the vector as it was, on `BitVector`, `IntVector`, and
slices or vectors of blocks. -/
theorem C80_setters (c : Cfg) (h : IsBlk w) :
    (∀ (s : VB w) bits, BvReach c w s bits → ∀ s',
      (∀ i b, VB.setBitP c i b s = .panic s' → s' = s) ∧
      (∀ i x, VB.setBlockP c 1 i x s = .panic s' → s' = s) ∧
      (∀ p n x, BV.setBitsP c p n x s = .panic s' → s' = s)) ∧
    (∀ (s : IV w) k xs, IvReach c w k s xs → ∀ s',
      (∀ i x, IV.setP c i x s = .panic s' → s' = s) ∧
      (∀ off n i x, IV.setRandomP c off n i x s = .panic s' → s' = s) ∧
      (∀ i b, IV.setBitP c i b s = .panic s' → s' = s) ∧
      (∀ i x, IV.setBlockP c i x s = .panic s' → s' = s) ∧
      (∀ p n x, IV.setBitsP c p n x s = .panic s' → s' = s)) ∧
    (∀ (v v' : List (BitVec w)),
      (∀ i x, vecSetP i x v = .panic v' → v' = v) ∧
      (∀ i b, vecSetBitP c w i b v = .panic v' → v' = v) ∧
      (∀ p n x, vecSetBitsP c w p n x v = .panic v' → v' = v)) := by
  refine ⟨fun s bits hr s' => ?_, fun s k xs hr s' => ?_, fun v v' => ?_⟩
  · have hR := hr.rep h
    exact ⟨fun i b => VB.setBitP_atomic c s i b s', fun i x => VR.setBlockP_atomic c h hR i x s',
      fun p n x => BV.setBitsP_atomic c h hR p n x s'⟩
  · have hR := (hr.rep h).ivR
    exact ⟨fun i x => ivR_setP_atomic c h hR i x s', fun off n i x => IV.setRandomP_atomic c s off n i x s',
      fun i b => ivR_setBitP_atomic c h hR i b s', fun i x => ivR_setBlockP_atomic c h hR i x s',
      fun p n x => ivR_setBitsP_atomic c h hR p n x s'⟩
  · exact ⟨fun i x => vecSetP_atomic v i x v',
      fun i b => dfltSetBitP_atomic c (vec_setsReadable c) trivial i b v',
      fun p n x => dfltSetBitsP_atomic c (vec_setsReadable c) trivial p n x v'⟩

/-- C80, growth: a length that is refused (`expect`) is refused before anything is changed. -/
theorem C80_refused_length (c : Cfg) (s : VB w) (n : Nat) :
    (∀ b, (checkedCeilDivNbits c w n = .ok none ∨ checkedCeilDivNbits c w n = .panic) →
      BV.resizeP c n b s = .panic s) ∧
    (∀ eb x, (lenToBlockLen c w eb n = .ok none ∨ lenToBlockLen c w eb n = .panic) →
      VB.resizeP c eb n x s = .panic s) := by
  constructor
  · intro b ho
    rcases ho with ho | ho <;>
    · unfold BV.resizeP
      rw [ho]; rfl
  · intro eb x ho
    rcases ho with ho | ho <;>
    · unfold VB.resizeP
      rw [ho]; rfl

/-- A field across two blocks whose second half is out of range. -/
example : vecSetBitsP ⟨false, .p64, false⟩ 8 12 8 0xFF#8 [1#8, 2#8] = .panic [1#8, 2#8] := by decide
/-- In range, both blocks change. -/
example : vecSetBitsP ⟨false, .p64, false⟩ 8 4 8 0xFF#8 [1#8, 2#8] = .ok () [0xF1#8, 0x0F#8] := by decide
example : checkedCeilDivNbits ⟨false, .p32, false⟩ 8 (2 ^ 40) = .ok none := by decide

/-- C81, partial: `set_block` of `Vec<bool>` (the trait default, which writes bit by bit) leaves the vector
unchanged when it panics, if the bit position `8 * position` is a `u64`. Missing: larger positions, possible
only when `usize` has 64 bits; see `C81_counterexample`. -/
theorem C81_bool_vec_set_block_partial (c : Cfg) (v v' : List Bool) (hf : Fits c.usz 8 v.length)
    (hv : v.length < 2 ^ c.usz) (position : Nat) (x : BitVec 8) (hp8 : position * 8 < 2 ^ 64)
    (hpanic : boolVecSetBlockP c position x v = .panic v') : v' = v :=
  boolVecSetBlockP_atomic c hf hv hp8 x v' hpanic

/-- On a 32-bit target the claim has no gap: a `usize` position is always small enough. -/
theorem C81_bool_vec_set_block_p32 (d a : Bool) (v v' : List Bool) (hv : v.length < 2 ^ 32) (position : Nat)
    (x : BitVec 8) (hp : position < 2 ^ 32)
    (hpanic : boolVecSetBlockP ⟨d, .p32, a⟩ position x v = .panic v') : v' = v := by
  refine C81_bool_vec_set_block_partial ⟨d, .p32, a⟩ v v' ?_ hv position x (by omega) hpanic
  simp only [Fits, Cfg.usz, blocksFor]
  omega

/-- Block 1 of a three-bit vector is out of range. -/
example : boolVecSetBlockP ⟨true, .p32, true⟩ 1 0#8 [true, true, true] = .panic [true, true, true] := by decide

/-- C81, counterexample: with 64-bit `usize`, block `2^61` of a three-bit vector is out of range; the
position wraps, the call overwrites the three bits and then panics. -/
theorem C81_counterexample (d a : Bool) :
    boolVecSetBlockP ⟨d, .p64, a⟩ (2 ^ 61) 0#8 [true, true, true] = .panic [false, false, false] := by
  cases d <;> cases a <;> decide

/-! Each theorem of this file that has hypotheses is applied to concrete data in `Verif/Instances/Unwind.lean`. -/

end Succinct
