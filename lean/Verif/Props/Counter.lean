import Verif.Props.Reach
import Verif.Lemmas.Slice
/-! Property C189: a counter of any length kept in a bit vector, with `get_bit` and `set_bit`. -/
namespace Succinct
open Spec

/-- `while i < n { if a.get_bit(i) { a.set_bit(i, false); i += 1 } else { a.set_bit(i, true); break } }`, with `k` bits to go. Also gives the number of
calls of `set_bit`. -/
def countUp {S : Type} {w : Nat} (o : BitVecMutOps w S) (i : Nat) : Nat → S → Res (S × Nat)
  | 0, s => .ok (s, 0)
  | k + 1, s => do
    if ← o.getBit s i then
      let s ← o.setBit s i false
      let r ← countUp o (i + 1) k s
      .ok (r.1, r.2 + 1)
    else
      let s ← o.setBit s i true
      .ok (s, 1)

/-- One more. -/
def tick {S : Type} {w : Nat} (o : BitVecMutOps w S) (s : S) : Res (S × Nat) := do
  let n ← o.bitLen s
  countUp o 0 n s

/-- `k` times one more; the calls of `set_bit` are added up. -/
def ticks {S : Type} {w : Nat} (o : BitVecMutOps w S) : Nat → S → Res (S × Nat)
  | 0, s => .ok (s, 0)
  | k + 1, s => do
    let r ← tick o s
    let q ← ticks o k r.1
    .ok (q.1, r.2 + q.2)

variable {S : Type} {w : Nat} {c : Cfg} {o : BitVecMutOps w S} {R : S → List Bool → Prop}

theorem countUp_ok (hl : BVLaw c o.toBitVecOps R) (hm : BVWriteLaw o R) (suf : List Bool) {pre : List Bool} {s : S} (hs : R s (pre ++ suf))
    (h64 : pre.length + suf.length < 2 ^ 64) :
    ∃ s' m l, countUp o pre.length suf.length s = .ok (s', m) ∧ R s' (pre ++ l) ∧ l.length = suf.length ∧
      ((bitsVal l = bitsVal suf + 1 ∧ m + l.count true = suf.count true + 2) ∨
        (bitsVal suf + 1 = 2 ^ suf.length ∧ bitsVal l = 0 ∧ l.count true = 0 ∧ m = suf.count true)) := by
  induction suf generalizing pre s with
  | nil => exact ⟨s, 0, [], rfl, hs, rfl, .inr ⟨rfl, rfl, rfl, rfl⟩⟩
  | cons b suf ih =>
    rw [List.length_cons] at h64
    have hg : o.getBit s pre.length = .ok b := by
      rw [hl.getBit hs _ (by omega)]
      simp [expectR]
    obtain ⟨s1, e1, r1⟩ := hm.setBit hs pre.length (!b) (by simp)
    rw [List.length_cons, countUp, hg, Res.ok_bind]
    have e : (pre ++ b :: suf).set pre.length (!b) = pre ++ (!b) :: suf := by simp
    rw [e] at r1
    cases b
    · refine ⟨s1, 1, true :: suf, ?_, r1, rfl, .inl ⟨?_, ?_⟩⟩
      · rw [if_neg (by simp)]
        simp only [Bool.not_false] at e1
        rw [e1, Res.ok_bind]
      · simp [bitsVal]
        omega
      · simp
        omega
    · obtain ⟨s', m, l, e2, r2, hl2, h2⟩ := ih (pre := pre ++ [false]) (s := s1) (by simpa using r1) (by simp; omega)
      refine ⟨s', m + 1, false :: l, ?_, by simpa using r2, by simp [hl2], ?_⟩
      · simp only [Bool.not_true] at e1
        rw [List.length_append, List.length_singleton] at e2
        rw [if_pos rfl, e1, Res.ok_bind, e2, Res.ok_bind]
      · rcases h2 with ⟨h3, h4⟩ | ⟨h3, h4, h5, h6⟩
        · refine .inl ⟨?_, ?_⟩
          · simp [bitsVal, h3]
            omega
          · simp
            omega
        · refine .inr ⟨?_, ?_, ?_, ?_⟩
          · rw [bitsVal, Nat.pow_succ, ← h3]
            simp
            omega
          · simp [bitsVal, h4]
          · simpa using h5
          · simp [h6]

/-- C189: the number is one greater, modulo two to the length. The calls of `set_bit` are two, and as many more as the set bits have become fewer;
after the greatest number, one for each bit. -/
theorem C189_tick (h0 : 0 < w) (hl : BVLaw c o.toBitVecOps R) (hm : BVWriteLaw o R) {s : S} {bits : List Bool} (hs : R s bits) :
    ∃ s' m, tick o s = .ok (s', m) ∧ R s' (natBits bits.length (bitsVal bits + 1)) ∧
      m + (natBits bits.length (bitsVal bits + 1)).count true = (if bitsVal bits + 1 < 2 ^ bits.length then bits.count true + 2 else bits.length) := by
  obtain ⟨s', m, l, e, r, h1, h2⟩ := countUp_ok hl hm bits (pre := []) hs (by
    have := (hl.fits hs).lt h0
    simp only [List.length_nil]
    omega)
  have hlt := bitsVal_lt l
  rw [h1] at hlt
  have hn : natBits bits.length (bitsVal bits + 1) = l := by
    have hv : (bitsVal bits + 1) % 2 ^ bits.length = bitsVal l := by
      rcases h2 with ⟨h3, -⟩ | ⟨h3, h4, -⟩
      · rw [← h3, Nat.mod_eq_of_lt hlt]
      · rw [h3, h4, Nat.mod_self]
    rw [← natBits_bitsVal l, h1, ← hv]
    apply List.map_congr_left
    intro i hi
    rw [Nat.testBit_mod_two_pow]
    simp [List.mem_range.1 hi]
  rw [hn]
  refine ⟨s', m, by rw [tick, hl.bitLen hs, Res.ok_bind]; exact e, r, ?_⟩
  rcases h2 with ⟨h3, h4⟩ | ⟨h3, h4, h5, h6⟩
  · rw [if_pos (by omega), h4]
  · rw [if_neg (by omega), h5, h6]
    have hb : bits = List.replicate bits.length true := by
      rw [← natBits_bitsVal bits, length_natBits, show bitsVal bits = 2 ^ bits.length - 1 by omega]
      apply List.ext_getElem
      · simp
      · intro i h1 h2
        simp [natBits, Nat.testBit_two_pow_sub_one]
        simpa using h1
    rw [hb]
    simp

/-- C189: `k` times. As long as the number has room, the calls of `set_bit` and the set bits in the end are `2 * k` and the set bits at the start. -/
theorem C189_ticks (h0 : 0 < w) (hl : BVLaw c o.toBitVecOps R) (hm : BVWriteLaw o R) (k : Nat) {s : S} {bits : List Bool} (hs : R s bits)
    (hk : bitsVal bits + k < 2 ^ bits.length) :
    ∃ s' m, ticks o k s = .ok (s', m) ∧ R s' (natBits bits.length (bitsVal bits + k)) ∧
      m + (natBits bits.length (bitsVal bits + k)).count true = bits.count true + 2 * k := by
  induction k generalizing s bits with
  | zero => exact ⟨s, 0, rfl, by rwa [Nat.add_zero, natBits_bitsVal], by rw [Nat.add_zero, natBits_bitsVal]; omega⟩
  | succ k ih =>
    obtain ⟨s1, m1, e1, r1, h1⟩ := C189_tick h0 hl hm hs
    rw [if_pos (by omega)] at h1
    have hv : bitsVal (natBits bits.length (bitsVal bits + 1)) = bitsVal bits + 1 := by
      rw [bitsVal_natBits, Nat.mod_eq_of_lt (by omega)]
    obtain ⟨s', m, e2, r2, h2⟩ := ih r1 (by rw [hv, length_natBits]; omega)
    rw [hv, length_natBits, show bitsVal bits + 1 + k = bitsVal bits + (k + 1) by omega] at r2 h2
    refine ⟨s', m1 + m, by rw [ticks, e1, Res.ok_bind, e2, Res.ok_bind], r2, by omega⟩

/-- C189 from a new `BitVector` of zeros: after `k` times it is the vector with the bits of `k`, and `set_bit` has been called `2 * k` times less
once for each set bit. -/
theorem C189_bit_vector (c : Cfg) (hw : IsBlk w) {n : Nat} (hf : Fits c.usz w n) {k : Nat} (hk : k < 2 ^ n) :
    ∃ v v' m, BV.withFill c w n false = .ok v ∧ ticks (bvBitVecMut c w) k v = .ok (v', m) ∧ BvReach c w v' (natBits n k) ∧
      m + (natBits n k).count true = 2 * k := by
  obtain ⟨v, e1, r1⟩ := (C17_fill c hw).1 n false hf
  have hz : bitsVal (List.replicate n false) = 0 := by
    clear e1 r1 hf hk
    induction n with
    | zero => rfl
    | succ n ih => simp [List.replicate_succ, bitsVal, ih]
  obtain ⟨v', m, e2, r2, h2⟩ := C189_ticks (o := bvBitVecMut c w) hw.pos (bv_law c hw) (bv_mut_law c hw).write k (r1.rep hw) (by rw [hz, List.length_replicate]; omega)
  rw [hz, List.length_replicate, Nat.zero_add] at r2 h2
  exact ⟨v, v', m, e1, e2, bvR.reach hw r2, by simpa [List.count_replicate] using h2⟩

/-! Each theorem of this file that has hypotheses is applied to concrete data in `Verif/Instances/Counter.lean`. -/

end Succinct
