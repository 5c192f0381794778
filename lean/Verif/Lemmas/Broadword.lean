import Verif.Lemmas.Lanes
import Verif.Lemmas.Rank
/-! Broadword operations, byte by byte. -/
namespace Succinct
open Spec

theorem lanes_byteOf (x : BitVec 64) : Lanes x (byteOf x) := lanes_self x

theorem Lanes.byteOf {x : BitVec 64} {f : Nat → Nat} (h : Lanes x f) {i : Nat} (hi : i < 8) : Spec.byteOf x i = f i := h.eq hi

theorem lanes_H8 : Lanes bwH8 (fun _ => 128) := lanes_const (by decide) rfl
theorem lanes_L8 : Lanes bwL8 (fun _ => 1) := lanes_const (by decide) rfl

/-! ### popcount -/

/-- The number of ones in a byte. -/
def pcByte (b : Nat) : Nat := (natBits 8 b).count true

def bwS1 (b : Nat) : Nat := b - ((b &&& 0xAA) >>> 1)
def bwS2 (b : Nat) : Nat := (bwS1 b &&& 0x33) + ((bwS1 b >>> 2) &&& 0x33)

theorem bw_byte : ∀ b < 256, (b &&& 0xAA) % 2 ^ 1 = 0 ∧ (b &&& 0xAA) >>> 1 ≤ b ∧ bwS2 b % 16 ≤ 4 ∧ bwS2 b / 16 ≤ 4 ∧
    bwS2 b % 16 + bwS2 b / 16 = pcByte b ∧ pcByte b ≤ 8 := by decide +kernel

/-- The first three lines of `count_ones` and `select1_raw` leave the number of ones of every byte in that byte. -/
theorem bw_sideways (c : Cfg) (x : BitVec 64) : ∃ x1 x2 y,
    subB c x ((x &&& 0xAAAAAAAAAAAAAAAA) >>> 1) = .ok x1 ∧
    addB c (x1 &&& 0x3333333333333333) ((x1 >>> 2) &&& 0x3333333333333333) = .ok x2 ∧
    addB c x2 (x2 >>> 4) = .ok y ∧ Lanes (y &&& 0x0F0F0F0F0F0F0F0F) (fun i => pcByte (byteOf x i)) := by
  have hx := lanes_byteOf x
  have hA : Lanes 0xAAAAAAAAAAAAAAAA (fun _ => 0xAA) := lanes_const (by decide) rfl
  have h3 : Lanes 0x3333333333333333 (fun _ => 0x33) := lanes_const (by decide) rfl
  have hF : Lanes 0x0F0F0F0F0F0F0F0F (fun _ => 15) := lanes_const (by decide) rfl
  have hb := fun i (hi : i < 8) => bw_byte _ (hx.2 i hi)
  obtain ⟨x1, e1, l1⟩ := Lanes.sub (c := c) hx ((hx.and hA).shr (k := 1) (fun i hi => (hb i hi).1)) (fun i hi => (hb i hi).2.1)
  have l1 : Lanes x1 (fun i => bwS1 (byteOf x i)) := l1
  have l2 := l1.shr_and (k := 2) (by decide) h3 (fun _ _ => by decide)
  have hs2 : ∀ i < 8, bwS2 (byteOf x i) < 256 := fun i hi => by have := hb i hi; omega
  obtain ⟨x2, e2, l3⟩ := Lanes.add (c := c) (l1.and h3) l2 (fun i hi => hs2 i hi)
  have l3 : Lanes x2 (fun i => bwS2 (byteOf x i)) := l3
  obtain ⟨n1, n2⟩ := lval_nibbles (n := 8) (f := fun i => bwS2 (byteOf x i)) (fun i hi => (hb i hi).2.2.1) (fun i hi => (hb i hi).2.2.2.1)
  have hlt : x2.toNat + (x2 >>> 4).toNat < 2 ^ 64 := by
    rw [BitVec.toNat_ushiftRight, l3.1]
    have := lval_lt64 (f := fun _ => 136) (fun _ _ => by decide)
    omega
  refine ⟨x1, x2, x2 + x2 >>> 4, e1, e2, by unfold addB; rw [if_pos hlt], ?_, fun i hi => show pcByte (byteOf x i) < 256 by have := hb i hi; omega⟩
  rw [BitVec.toNat_and, BitVec.toNat_add, Nat.mod_eq_of_lt hlt, BitVec.toNat_ushiftRight, l3.1, hF.1, n1]
  exact lval_congr (fun i hi => (hb i hi).2.2.2.2.1)

theorem psum_le {f : Nat → Nat} {b : Nat} (h : ∀ i < 8, f i ≤ b) {i : Nat} (hi : i < 8) : psum f i ≤ b * (i + 1) := by
  induction i with
  | zero => have := h 0 hi; show f 0 ≤ _; omega
  | succ i ih =>
    have h1 := ih (by omega)
    have h2 := h (i + 1) hi
    show psum f i + f (i + 1) ≤ _
    rw [Nat.mul_add b (i + 1) 1]; omega

theorem pcByte_le (x : BitVec 64) (i : Nat) : pcByte (byteOf x i) ≤ 8 :=
  (bw_byte _ (Nat.mod_lt _ (by decide))).2.2.2.2.2

/-- Ones in bytes `0..=i`. -/
def bytesOnes (x : BitVec 64) : Nat → Nat := psum (fun i => pcByte (byteOf x i))

theorem bytesOnes_le (x : BitVec 64) {i : Nat} (hi : i < 8) : bytesOnes x i ≤ 64 := by
  have := psum_le (f := fun i => pcByte (byteOf x i)) (b := 8) (fun i _ => pcByte_le x i) hi
  unfold bytesOnes; omega

theorem window_natBits {n a k : Nat} (x : Nat) (h : a + k ≤ n) : ((natBits n x).drop a).take k = natBits k (x / 2 ^ a) := by
  apply List.ext_getElem?
  intro j
  rw [List.getElem?_take, List.getElem?_drop, getElem?_natBits, getElem?_natBits]
  split
  · rw [if_pos (by omega), Nat.testBit_div_two_pow]
    rw [Nat.add_comm]
  · rfl

theorem natBits_mod (k x : Nat) : natBits k (x % 2 ^ k) = natBits k x := by
  apply List.ext_getElem?
  intro j
  rw [getElem?_natBits, getElem?_natBits]
  split
  · rename_i h; rw [Nat.testBit_mod_two_pow]; simp [h]
  · rfl

/-- Ones below position `8*i+k`. -/
theorem ones_byte (x : BitVec 64) {i k : Nat} (hi : i < 8) (hk : k ≤ 8) :
    ones (blockBits x) (8 * i + k) = ones (blockBits x) (8 * i) + ones (natBits 8 (byteOf x i)) k := by
  rw [ones_add]
  congr 2
  unfold blockBits
  rw [window_natBits _ (by omega)]
  have h2 : (natBits 8 (byteOf x i)).take k = natBits k (byteOf x i) := by
    have := window_natBits (n := 8) (a := 0) (k := k) (byteOf x i) (by omega)
    simpa using this
  rw [h2]
  unfold byteOf
  rw [show (256 : Nat) ^ i = 2 ^ (8 * i) by rw [Nat.pow_mul]]
  apply List.ext_getElem?
  intro j
  rw [getElem?_natBits, getElem?_natBits]
  split
  · rw [show (256 : Nat) = 2 ^ 8 from rfl, Nat.testBit_mod_two_pow, decide_eq_true (by omega)]; rfl
  · rfl

theorem bytesOnes_eq (x : BitVec 64) {i : Nat} (hi : i < 8) : bytesOnes x i = ones (blockBits x) (8 * (i + 1)) := by
  have h8 : ∀ i, ones (natBits 8 (byteOf x i)) 8 = pcByte (byteOf x i) := by
    intro i
    unfold ones pcByte
    rw [List.take_of_length_le (by simp [natBits])]
  induction i with
  | zero =>
    have := ones_byte x (i := 0) (k := 8) (by decide) (by decide)
    rw [h8] at this
    show pcByte (byteOf x 0) = _
    rw [show 8 * (0 + 1) = 8 * 0 + 8 from rfl, this]
    simp [ones]
  | succ i ih =>
    have := ones_byte x (i := i + 1) (k := 8) hi (by decide)
    rw [h8, ← ih (by omega)] at this
    rw [show 8 * (i + 1 + 1) = 8 * (i + 1) + 8 from rfl, this]
    rfl

theorem bwCountOnes_ok (c : Cfg) (x : BitVec 64) : bwCountOnes c x = .ok (countOnes x) := by
  obtain ⟨x1, x2, y, e1, e2, e3, l⟩ := bw_sideways c x
  have h64 := bytesOnes_le x (i := 7) (by decide)
  have husz := c.le_pow_usz
  unfold bwCountOnes
  rw [e1, Res.ok_bind, e2, Res.ok_bind, e3, Res.ok_bind]
  simp only
  rw [(l.mulL8 (show bytesOnes x 7 < 256 by omega)).top]
  show Res.ok (asUsize c (bytesOnes x 7)) = _
  rw [asUsize, Nat.mod_eq_of_lt (by omega), bytesOnes_eq x (by decide), countOnes_eq]
  unfold ones
  rw [List.take_of_length_le (by simp [blockBits, natBits])]

/-! ### comparisons -/

theorem and_128 (n : Nat) : n &&& 128 = if n.testBit 7 then 128 else 0 := by
  apply Nat.eq_of_testBit_eq
  intro j
  rw [Nat.testBit_and, show (128 : Nat) = 2 ^ 7 from rfl, Nat.testBit_two_pow]
  by_cases hj : 7 = j
  · subst hj
    cases n.testBit 7 <;> decide
  · rw [decide_eq_false hj, Bool.and_false]
    cases n.testBit 7
    · exact (Nat.zero_testBit j).symm
    · rw [if_pos rfl, Nat.testBit_two_pow, decide_eq_false hj]

theorem or_128 : ∀ b < 256, b ||| 128 = 128 + b % 128 := by decide +kernel
theorem testBit_7 : ∀ b < 256, b.testBit 7 = decide (128 ≤ b) := by decide +kernel

theorem and_127 (a : Nat) : a &&& 127 = a % 128 := by
  rw [show (127 : Nat) = 2 ^ 7 - 1 from rfl, Nat.and_two_pow_sub_one_eq_mod]

theorem diff_lanes (c : Cfg) (x y : BitVec 64) : ∃ d, subB c (y ||| bwH8) (x &&& ~~~ bwH8) = .ok d ∧
    Lanes d (fun i => 128 + byteOf y i % 128 - byteOf x i % 128) := by
  have hx := lanes_byteOf x
  have hy := lanes_byteOf y
  obtain ⟨d, e, l⟩ := Lanes.sub (c := c) (hy.or lanes_H8) (hx.and lanes_H8.not) (fun i hi => by
    show byteOf x i &&& 127 ≤ byteOf y i ||| 128
    rw [and_127, or_128 _ (hy.2 i hi)]; omega)
  refine ⟨d, e, l.congr (fun i hi => ?_)⟩
  show (byteOf y i ||| 128) - (byteOf x i &&& 127) = _
  rw [and_127, or_128 _ (hy.2 i hi)]

/-- What `le8` computes in every byte. -/
def le8Byte (a b : Nat) : Nat := if (a % 128 ≤ b % 128 ↔ (a < 128 ↔ b < 128)) then 128 else 0

theorem le8_lanes (c : Cfg) (x y : BitVec 64) : ∃ z, le8 c x y = .ok z ∧ Lanes z (fun i => le8Byte (byteOf x i) (byteOf y i)) := by
  obtain ⟨d, e, l⟩ := diff_lanes c x y
  have hx := lanes_byteOf x
  have hy := lanes_byteOf y
  unfold le8
  rw [e, Res.ok_bind]
  refine ⟨_, rfl, (((l.xor hx).xor hy).and lanes_H8).congr (fun i hi => ?_)⟩
  have ha := hx.2 i hi
  have hb := hy.2 i hi
  show (_ ^^^ _ ^^^ _) &&& 128 = _
  generalize byteOf x i = a at *
  generalize byteOf y i = b at *
  rw [and_128, Nat.testBit_xor, Nat.testBit_xor, testBit_7 _ ha, testBit_7 _ hb, testBit_7 _ (by omega)]
  unfold le8Byte
  have e1 : decide (128 ≤ 128 + b % 128 - a % 128) = decide (a % 128 ≤ b % 128) := by
    apply decide_eq_decide.2; omega
  rw [e1]
  by_cases h1 : a % 128 ≤ b % 128 <;> by_cases h2 : a < 128 <;> by_cases h3 : b < 128 <;>
    simp [h1, h2, h3, Nat.not_le.2, Nat.not_lt.1]

/-- What `u_le8` computes in every byte. -/
theorem uLe8_lanes (c : Cfg) (x y : BitVec 64) :
    ∃ z, uLe8 c x y = .ok z ∧ Lanes z (fun i => if byteOf x i ≤ byteOf y i then 128 else 0) := by
  obtain ⟨d, e, l⟩ := diff_lanes c x y
  have hx := lanes_byteOf x
  have hy := lanes_byteOf y
  unfold uLe8
  rw [e, Res.ok_bind]
  refine ⟨_, rfl, (((l.or (hx.xor hy)).xor (hx.and hy.not)).and lanes_H8).congr (fun i hi => ?_)⟩
  have ha := hx.2 i hi
  have hb := hy.2 i hi
  show ((_ ||| (_ ^^^ _)) ^^^ (_ &&& _)) &&& 128 = _
  generalize byteOf x i = a at *
  generalize byteOf y i = b at *
  rw [and_128, Nat.testBit_xor, Nat.testBit_or, Nat.testBit_xor, Nat.testBit_and, testBit_7 _ ha, testBit_7 _ hb,
    testBit_7 _ (by omega), testBit_7 _ (by omega)]
  have e1 : decide (128 ≤ 128 + b % 128 - a % 128) = decide (a % 128 ≤ b % 128) := by
    apply decide_eq_decide.2; omega
  have e2 : decide (128 ≤ 255 - b) = decide (b < 128) := by
    apply decide_eq_decide.2; omega
  rw [e1, e2]
  by_cases h1 : a % 128 ≤ b % 128 <;> by_cases h2 : 128 ≤ a <;> by_cases h3 : 128 ≤ b <;> by_cases h4 : a ≤ b <;>
    by_cases h5 : b < 128 <;> simp [h1, h2, h3, h4, h5] <;> omega

/-- What `u_nz8` computes in every byte. -/
theorem uNz8_lanes (c : Cfg) (x : BitVec 64) :
    ∃ z, uNz8 c x = .ok z ∧ Lanes z (fun i => if byteOf x i ≠ 0 then 128 else 0) := by
  have hx := lanes_byteOf x
  obtain ⟨d, e, l⟩ := Lanes.sub (c := c) (hx.or lanes_H8) lanes_L8 (fun i hi => by
    show 1 ≤ byteOf x i ||| 128
    rw [or_128 _ (hx.2 i hi)]; omega)
  unfold uNz8
  rw [e, Res.ok_bind]
  refine ⟨_, rfl, ((l.or hx).and lanes_H8).congr (fun i hi => ?_)⟩
  have ha := hx.2 i hi
  show (((_ ||| 128) - 1) ||| _) &&& 128 = _
  generalize byteOf x i = a at *
  rw [or_128 _ ha, and_128, Nat.testBit_or, testBit_7 _ ha, testBit_7 _ (by omega)]
  by_cases h0 : a = 0
  · subst h0; rfl
  · by_cases h1 : 128 ≤ a
    · simp [h0, h1]
    · have h2 : 128 ≤ 128 + a % 128 - 1 := by omega
      rw [decide_eq_true h2, if_pos h0]; rfl

end Succinct
