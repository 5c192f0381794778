import Verif.Props.ExactVec
import Verif.Props.Capacity
/-! C146: where the documentation comments say something else than the code does. -/
namespace Succinct
open Spec

/-- C146. The comments on `get_random` and `set_random` (int_vector.rs:122-124, 145-147) put the bound at "the end of the support
array, even if that goes past the last element". The code puts it at the last element: bits behind it panic even if the
support array holds them, and it holds such bits unless the elements fill the last block exactly. -/
theorem C146_random_bounds (c : Cfg) (h : IsBlk w) {s : IV w} (hr : IvReach c w k s xs) :
    (∀ off n i, 1 ≤ n → n ≤ w → xs.length * k < off + i * n + n →
      s.getRandom c off n i = .panic ∧ ∀ x, s.setRandom c off n i x = .panic) ∧
    ((∃ off n i x, 1 ≤ n ∧ n ≤ w ∧ off + i * n + n ≤ s.base.vec.length * w ∧ s.getRandom c off n i = .panic ∧
      x.toNat < 2 ^ n ∧ s.setRandom c off n i x = .panic) ↔ ¬ w ∣ xs.length * k) := by
  have hw := h.pos
  have hR := hr.rep h
  have hb := hR.rep.blocks
  rw [length_packBits] at hb
  have hle := le_blocksFor_mul (xs.length * k) hw
  have hlt := blocksFor_mul_lt (n := xs.length * k) hw
  have h1 : ∀ off n i, 1 ≤ n → n ≤ w → xs.length * k < off + i * n + n →
      s.getRandom c off n i = .panic ∧ ∀ x, s.setRandom c off n i x = .panic := by
    intro off n i h1 h2 h3
    exact (C27_reinterpret c h hr h1 h2 off i).2 (by rw [length_packBits]; exact h3)
  refine ⟨h1, ?_, fun hd => ⟨xs.length * k, 1, 0, 1, Nat.le_refl _, hw, ?_, ?_⟩⟩
  · rintro ⟨off, n, i, x, h2, h3, h4, h5, h6, h7⟩ ⟨q, hq⟩
    have e : blocksFor w (xs.length * k) * w = xs.length * k := by
      rw [hq, Nat.mul_comm w q, blocksFor_mul _ _ hw]
    rw [hb, e] at h4
    obtain ⟨⟨y, hy, -⟩, -⟩ := (C27_reinterpret c h hr h2 h3 off i).1 (by rw [length_packBits]; exact h4)
    rw [h5] at hy
    cases hy
  · rw [hb]
    have : blocksFor w (xs.length * k) * w ≠ xs.length * k := fun e => hd ⟨_, e.symm.trans (Nat.mul_comm _ _)⟩
    omega
  · obtain ⟨h2, h3⟩ := h1 (xs.length * k) 1 0 (Nat.le_refl _) hw (by omega)
    have := h.ge
    refine ⟨h2, ?_, h3 _⟩
    rw [show (1 : BitVec w).toNat = 1 % 2 ^ w from rfl, Nat.mod_eq_of_lt (Nat.one_lt_two_pow (by omega))]
    decide

/-- C146. The comment on `set_random` (int_vector.rs:149-150) says that a value too large for the element size panics in "debug
mode only", and the one on `IntVecMut::set` (int_vec/traits.rs:36-37) that it "may panic (?)": all builds panic, for `push` too; but
`with_fill` and `resize`, whose comments say nothing, accept the value in all builds and store its low bits. -/
theorem C146_too_large (c : Cfg) (h : IsBlk w) {s : IV w} (hr : IvReach c w k s xs) (x : BitVec w) :
    (∀ off n i, n ≤ w → 2 ^ n ≤ x.toNat → s.setRandom c off n i x = .panic) ∧
    (2 ^ k ≤ x.toNat → (∀ i, s.set c i x = .panic) ∧ s.push c x = .panic ∧
      ∀ n, Fits c.usz w (n * k) → (∃ t, IV.withFill c k n x = .ok t ∧ t.len = n ∧
          ∀ i < n, ∃ y, t.get c i = .ok y ∧ y.toNat = x.toNat % 2 ^ k) ∧
        ∃ t, s.resize c n x = .ok t ∧ t.len = n ∧ ∀ i < n, if i < xs.length then t.get c i = s.get c i
          else ∃ y, t.get c i = .ok y ∧ y.toNat = x.toNat % 2 ^ k) := by
  have hR := hr.rep h
  obtain ⟨h1, h2⟩ := C24_too_large_panics c h hr x
  refine ⟨fun off n i => h2 n off i, fun hx => ⟨(h1 hx).2, (h1 hx).1, fun n hf => ?_⟩⟩
  obtain ⟨h3, h4⟩ := C24_fill_wraps c h hR.pos hR.le n hf x
  exact ⟨h3, h4 s xs hr⟩

/-- C146. The comments on `ceil_div_nbits` and `checked_ceil_div_nbits` (storage.rs:54-72) are exchanged: "there is no check that the
result actually fits in a `usize`" stands at the function that has the check. On 32-bit targets the unchecked one cuts the number of
blocks of every large vector; on 64-bit targets neither loses anything. -/
theorem C146_ceil_div (c : Cfg) (h : IsBlk w) {i : Nat} (hi : i + (w - 1) < 2 ^ 64) :
    ∃ q, IsCeilDiv i w q ∧
      (q < 2 ^ c.usz → ceilDivNbits c w i = .ok q ∧ checkedCeilDivNbits c w i = .ok (some q)) ∧
      (2 ^ c.usz ≤ q → ceilDivNbits c w i ≠ .ok q ∧ checkedCeilDivNbits c w i = .ok none) ∧
      (c.usz = 64 → q < 2 ^ c.usz) := by
  have hw := h.pos
  obtain ⟨q, hq, h1, h2⟩ := (C97_ceil_div_nbits c h (i := i) (by omega)).1 hi
  refine ⟨q, hq, fun hl => ⟨?_, ?_⟩, fun hl => ⟨?_, ?_⟩, fun hu => ?_⟩
  · rw [h1, Nat.mod_eq_of_lt hl]
  · rw [h2, if_pos hl]
  · rw [h1]
    intro e
    have := Nat.mod_lt q (Nat.two_pow_pos c.usz)
    have := Res.ok.inj e
    omega
  · rw [h2, if_neg (by omega)]
  · rw [hu]
    have h3 := hq.2 i (Nat.le_mul_of_pos_right i hw)
    omega

/-- C146. The comment on `reserve_exact` (int_vector.rs:242-243, bit_vector.rs:128-129) says that it does nothing if the capacity is
sufficient, "unlike `reserve`": neither does `reserve` then, nor the two calls that count in blocks. -/
theorem C146_reserve (c : Cfg) (h : IsBlk w) {A : Alloc} (hA : A.Lawful) (he1 : 1 ≤ eb) {s : CVB w} {bits : List Bool}
    (hs : CapOk c w eb s bits) {n : Nat} :
    (Fits c.usz w (bits.length + n * eb) → blocksFor w (bits.length + n * eb) ≤ s.cap →
      CVB.reserve c A s eb n = .ok s ∧ CVB.reserveExact c A s eb n = .ok s) ∧
    (s.base.vec.length + n ≤ s.cap → s.blockReserve A n = s ∧ s.blockReserveExact A n = s) := by
  refine ⟨fun hf hc => ?_, fun hc => ?_⟩
  · obtain ⟨⟨s1, h1, -, -, -, h2, -⟩, ⟨s2, h3, -, -, -, h4, -⟩⟩ := C70_reserve_partial c h hA he1 hs hf
    rw [h1, h3, h2 hc, h4 hc]
    exact ⟨rfl, rfl⟩
  · obtain ⟨⟨-, -, -, h1⟩, ⟨-, -, -, h2⟩⟩ := C70_block_reserve c hA hs n
    exact ⟨h1 hc, h2 hc⟩

/-- three 5-bit elements in two bytes: bit 15 is in the support array -/
example : (⟨5, ⟨3, [0x21#8, 0x43#8]⟩⟩ : IV 8).getRandom ⟨true, .p64, true⟩ 15 1 0 = .panic ∧
    (⟨5, ⟨3, [0x21#8, 0x43#8]⟩⟩ : IV 8).getRandom ⟨true, .p64, true⟩ 14 1 0 = .ok 1#8 ∧
    (⟨5, ⟨3, [0x21#8, 0x43#8]⟩⟩ : IV 8).setRandom ⟨false, .p64, false⟩ 0 3 0 9#8 = .panic ∧
    IV.withFill ⟨true, .p64, true⟩ 3 2 (9#8) = .ok ⟨3, ⟨2, [0x09#8]⟩⟩ ∧
    ceilDivNbits ⟨true, .p32, true⟩ 8 (2 ^ 35 + 1) = .ok 1 ∧ checkedCeilDivNbits ⟨true, .p32, true⟩ 8 (2 ^ 35 + 1) = .ok none ∧
    CVB.reserve ⟨true, .p64, true⟩ .exact (CVB.blockWithCapacity .exact 2 : CVB 8) 1 16 = .ok (CVB.blockWithCapacity .exact 2) := by
  decide +kernel

/-! Each theorem of this file that has hypotheses is applied to concrete data in `Verif/Instances/Documentation.lean`. -/

end Succinct
