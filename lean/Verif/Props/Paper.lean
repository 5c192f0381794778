import Verif.Props.Broadword
/-! C145: the three remarks at the head of broadword.rs (lines 5-21) about the paper it follows. Each says that
the code departs from the printed algorithm and had to. Modelled here are the printed algorithms, in the same
machine arithmetic as the code. -/
namespace Succinct
open Spec

/-- Algorithm 1 with every operation checked: the last line of `count_ones` (broadword.rs:66) with `x * L8` for
`x.wrapping_mul(L8)`. -/
def countOnesChecked (c : Cfg) (x : BitVec 64) : Res Nat := do
  let x ← subB c x ((x &&& 0xAAAAAAAAAAAAAAAA) >>> 1)
  let x ← addB c (x &&& 0x3333333333333333) ((x >>> 2) &&& 0x3333333333333333)
  let y ← addB c x (x >>> 4)
  let x := y &&& 0x0F0F0F0F0F0F0F0F
  let p ← mulB c x bwL8
  .ok (asUsize c (p >>> 56).toNat)

/-- Algorithm 1 with the printed constant, `0x0F0F0F0F0F0F0F0F0`, of which the low 64 bits are used. -/
def countOnesPrinted (c : Cfg) (x : BitVec 64) : Res Nat := do
  let x ← subB c x ((x &&& 0xAAAAAAAAAAAAAAAA) >>> 1)
  let x ← addB c (x &&& 0x3333333333333333) ((x >>> 2) &&& 0x3333333333333333)
  let y ← addB c x (x >>> 4)
  let x := y &&& BitVec.ofNat 64 0x0F0F0F0F0F0F0F0F0
  .ok (asUsize c ((x * bwL8) >>> 56).toNat)

/-- Algorithm 2 with the printed second line, in which the shifted `s` appears as `x`. -/
def select1Printed (c : Cfg) (r : Nat) (x : BitVec 64) : Res Nat := do
  let r := BitVec.ofNat 64 r
  let s ← subB c x ((x &&& 0xAAAAAAAAAAAAAAAA) >>> 1)
  let s ← addB c (s &&& 0x3333333333333333) ((x >>> 2) &&& 0x3333333333333333)
  let t ← addB c s (s >>> 4)
  let s := (t &&& 0x0F0F0F0F0F0F0F0F) * bwL8
  let m ← le8 c s (r * bwL8)
  let b := ((m >>> 7) * bwL8) >>> 53
  let l ← subB c r (wrappingShr64 (s <<< 8) b &&& 0xFF)
  let nz ← uNz8 c (((wrappingShr64 x b &&& 0xFF) * bwL8) &&& 0x8040201008040201)
  let s := (nz >>> 7) * bwL8
  let m ← le8 c s (l * bwL8)
  let p ← addB c b (((m >>> 7) * bwL8) >>> 56)
  .ok (asUsize c p.toNat)

/-! ### the multiplication -/

theorem psum_eq_head {f : Nat → Nat} (h : ∀ i, 0 < i → i < 8 → f i = 0) {n : Nat} (hn : n < 8) : psum f n = f 0 := by
  induction n with
  | zero => rfl
  | succ n ih =>
    show psum f n + f (n + 1) = _
    rw [ih (by omega), h (n + 1) (by omega) hn]; rfl

theorem pcByte_zero : ∀ b < 256, (pcByte b = 0 ↔ b = 0) := by decide +kernel

/-- A vector of eight small bytes times `L8` fits into 64 bits only if all but the lowest are zero. -/
theorem lval_mul_overflow (f : Nat → Nat) (h0 : f 0 < 256) :
    lval 8 f * 0x0101010101010101 < 2 ^ 64 ↔ ∀ i, 0 < i → i < 8 → f i = 0 := by
  have e1 : lval 8 f = (f 0 + 256 * (f 1 + 256 * (f 2 + 256 * (f 3 + 256 * (f 4 + 256 * (f 5 + 256 * (f 6 + 256 * (f 7 + 256 * 0)))))))) := rfl
  rw [e1]
  constructor
  · intro h i hi hi8
    have : i = 1 ∨ i = 2 ∨ i = 3 ∨ i = 4 ∨ i = 5 ∨ i = 6 ∨ i = 7 := by omega
    rcases this with rfl | rfl | rfl | rfl | rfl | rfl | rfl <;> omega
  · intro h
    have h1 := h 1 (by decide) (by decide)
    have h2 := h 2 (by decide) (by decide)
    have h3 := h 3 (by decide) (by decide)
    have h4 := h 4 (by decide) (by decide)
    have h5 := h 5 (by decide) (by decide)
    have h6 := h 6 (by decide) (by decide)
    have h7 := h 7 (by decide) (by decide)
    omega

theorem bytes_zero_iff (x : BitVec 64) : (∀ i, 0 < i → i < 8 → byteOf x i = 0) ↔ x.toNat < 256 := by
  have hx := (lanes_byteOf x).1
  have h0 := (lanes_byteOf x).2 0 (by decide)
  have e1 : lval 8 (byteOf x) = (byteOf x 0 + 256 * (byteOf x 1 + 256 * (byteOf x 2 + 256 * (byteOf x 3 + 256 * (byteOf x 4 + 256 * (byteOf x 5 + 256 * (byteOf x 6 + 256 * (byteOf x 7 + 256 * 0)))))))) := rfl
  rw [e1] at hx
  constructor
  · intro h
    have h1 := h 1 (by decide) (by decide)
    have h2 := h 2 (by decide) (by decide)
    have h3 := h 3 (by decide) (by decide)
    have h4 := h 4 (by decide) (by decide)
    have h5 := h 5 (by decide) (by decide)
    have h6 := h 6 (by decide) (by decide)
    have h7 := h 7 (by decide) (by decide)
    omega
  · intro h i hi hi8
    have : i = 1 ∨ i = 2 ∨ i = 3 ∨ i = 4 ∨ i = 5 ∨ i = 6 ∨ i = 7 := by omega
    rcases this with rfl | rfl | rfl | rfl | rfl | rfl | rfl <;> omega

/-- C145. The remark that Algorithm 1 "would overflow its last line": if the multiplication did not wrap, then with
overflow checks `count_ones` would panic for every word with a one above its lowest byte, and for no other; the
other operations never overflow (`C46_count_ones` holds with checks). -/
theorem C145_overflow (c : Cfg) (x : BitVec 64) :
    countOnesChecked c x = if c.debug ∧ 256 ≤ x.toNat then .panic else .ok ((blockBits x).count true) := by
  have hok := C46_count_ones c x
  unfold bwCountOnes at hok
  unfold countOnesChecked
  obtain ⟨x1, x2, y, e1, e2, e3, l⟩ := bw_sideways c x
  rw [e1, Res.ok_bind, e2, Res.ok_bind, e3, Res.ok_bind] at hok ⊢
  simp only at hok ⊢
  have h8 : ∀ i < 8, pcByte (byteOf x i) ≤ 8 := fun i _ => pcByte_le x i
  have hov := lval_mul_overflow (fun i => pcByte (byteOf x i)) (by have := h8 0 (by decide); show pcByte (byteOf x 0) < 256; omega)
  rw [show (∀ i, 0 < i → i < 8 → pcByte (byteOf x i) = 0) ↔ x.toNat < 256 from
    (Iff.trans ⟨fun h i hi h8 => (pcByte_zero _ ((lanes_byteOf x).2 i h8)).1 (h i hi h8),
      fun h i hi h8 => (pcByte_zero _ ((lanes_byteOf x).2 i h8)).2 (h i hi h8)⟩ (bytes_zero_iff x)), ← l.1] at hov
  unfold mulB
  change _ * (bwL8).toNat < 2 ^ 64 ↔ _ at hov
  by_cases hx : x.toNat < 256
  · rw [if_pos (hov.2 hx), if_neg (by omega), Res.ok_bind]
    exact hok
  · rw [if_neg (fun h => hx (hov.1 h))]
    unfold overflow
    cases hd : c.debug
    · rw [if_neg (by decide), Res.ok_bind, if_neg (by simp)]
      exact hok
    · rw [if_pos rfl, if_pos ⟨rfl, by omega⟩]; rfl

example : countOnesChecked ⟨true, .p64, true⟩ 0xFF = .ok 8 ∧ countOnesChecked ⟨true, .p64, true⟩ 0x100 = .panic ∧
    countOnesChecked ⟨false, .p64, false⟩ 0x100 = .ok 1 := by decide

/-! ### the constant -/

/-- `x + (x >> 4)`, byte by byte. -/
theorem lval_shift4 (n : Nat) (f : Nat → Nat) :
    lval n f + lval n f >>> 4 = lval n (fun i => f i + f i / 16 + 16 * (if i + 1 < n then f (i + 1) % 16 else 0)) := by
  induction n generalizing f with
  | zero => simp [lval]
  | succ n ih =>
    have ih := ih (f := fun i => f (i + 1))
    have e : lval (n + 1) f = f 0 + 256 * lval n (fun i => f (i + 1)) := rfl
    have e2 : lval (n + 1) (fun i => f i + f i / 16 + 16 * (if i + 1 < n + 1 then f (i + 1) % 16 else 0)) =
      f 0 + f 0 / 16 + 16 * (if 0 + 1 < n + 1 then f (0 + 1) % 16 else 0) +
        256 * lval n (fun i => f (i + 1) + f (i + 1) / 16 + 16 * (if i + 1 < n then f (i + 1 + 1) % 16 else 0)) := by
      show _ + 256 * lval n _ = _ + 256 * lval n _
      congr 2
      apply lval_congr
      intro i hi
      by_cases h : i + 1 < n
      · show _ + 16 * (if _ then _ else _) = _
        rw [if_pos h, if_pos (by omega)]
      · show _ + 16 * (if _ then _ else _) = _
        rw [if_neg h, if_neg (by omega)]
    have h3 : lval n (fun i => f (i + 1)) % 16 = if 0 + 1 < n + 1 then f (0 + 1) % 16 else 0 := by
      cases n with
      | zero => rfl
      | succ n =>
        rw [if_pos (by omega)]
        show (f 1 + 256 * _) % 16 = f 1 % 16
        omega
    rw [e, e2, ← h3, ← ih]
    generalize lval n (fun i => f (i + 1)) = m
    rw [Nat.shiftRight_eq_div_pow, Nat.shiftRight_eq_div_pow]
    omega

theorem bw_nib : ∀ b < 256, bwS2 b / 16 = pcByte (b / 16) ∧ bwS2 b % 16 = pcByte (b % 16) ∧ bwS2 b < 256 ∧
    pcByte (b / 16) ≤ 4 ∧ pcByte (b % 16) ≤ 4 ∧ pcByte (b / 16) + pcByte (b % 16) = pcByte b := by decide +kernel

theorem and_240 : ∀ a < 256, a &&& 240 = 16 * (a / 16) := by decide +kernel

/-- The first lines of the algorithm up to the mask, for any mask. -/
theorem bw_upto_mask (c : Cfg) (x : BitVec 64) : ∃ x1 x2 y,
    subB c x ((x &&& 0xAAAAAAAAAAAAAAAA) >>> 1) = .ok x1 ∧
    addB c (x1 &&& 0x3333333333333333) ((x1 >>> 2) &&& 0x3333333333333333) = .ok x2 ∧
    addB c x2 (x2 >>> 4) = .ok y ∧
    Lanes y (fun i => bwS2 (byteOf x i) + bwS2 (byteOf x i) / 16 + 16 * (if i + 1 < 8 then bwS2 (byteOf x (i + 1)) % 16 else 0)) := by
  have hx := lanes_byteOf x
  have hA : Lanes 0xAAAAAAAAAAAAAAAA (fun _ => 0xAA) := lanes_const (by decide) rfl
  have h3 : Lanes 0x3333333333333333 (fun _ => 0x33) := lanes_const (by decide) rfl
  have hb := fun i (hi : i < 8) => bw_byte _ (hx.2 i hi)
  have hn := fun i (hi : i < 8) => bw_nib _ (hx.2 i hi)
  obtain ⟨x1, e1, l1⟩ := Lanes.sub (c := c) hx ((hx.and hA).shr (k := 1) (fun i hi => (hb i hi).1)) (fun i hi => (hb i hi).2.1)
  have l1 : Lanes x1 (fun i => bwS1 (byteOf x i)) := l1
  have l2 := l1.shr_and (k := 2) (by decide) h3 (fun _ _ => by decide)
  obtain ⟨x2, e2, l3⟩ := Lanes.add (c := c) (l1.and h3) l2 (fun i hi => (hn i hi).2.2.1)
  have l3 : Lanes x2 (fun i => bwS2 (byteOf x i)) := l3
  have hd : ∀ i < 8, bwS2 (byteOf x i) + bwS2 (byteOf x i) / 16 + 16 * (if i + 1 < 8 then bwS2 (byteOf x (i + 1)) % 16 else 0) < 256 := by
    intro i hi
    have h := hn i hi
    split
    · rename_i h8
      have h' := hn (i + 1) h8
      omega
    · omega
  have hs := lval_shift4 8 (fun i => bwS2 (byteOf x i))
  have hlt : x2.toNat + (x2 >>> 4).toNat < 2 ^ 64 := by
    rw [BitVec.toNat_ushiftRight, l3.1, hs]
    exact lval_lt64 hd
  refine ⟨x1, x2, x2 + x2 >>> 4, e1, e2, by unfold addB; rw [if_pos hlt], ?_, hd⟩
  rw [BitVec.toNat_add, Nat.mod_eq_of_lt hlt, BitVec.toNat_ushiftRight, l3.1, hs]

theorem pcByte_take : ∀ b < 256, ((natBits 8 b).take 4).count true = pcByte (b % 16) := by decide +kernel

/-- The ones of the lowest four bits. -/
theorem take_four (x : BitVec 64) : ((blockBits x).take 4).count true = pcByte (byteOf x 0 % 16) := by
  have h := ones_byte x (i := 0) (k := 4) (by decide) (by decide)
  unfold ones at h
  rw [pcByte_take _ ((lanes_byteOf x).2 0 (by decide))] at h
  simpa using h

theorem count_bytesOnes (x : BitVec 64) : bytesOnes x 7 = (blockBits x).count true := by
  rw [bytesOnes_eq x (by decide)]
  unfold ones
  rw [List.take_of_length_le (by simp [blockBits, natBits])]

/-- Moving the nibbles one place: the sum loses only the lowest. -/
theorem psum_nibbles (x : BitVec 64) : psum (fun i => 16 * (pcByte (byteOf x i / 16) +
      (if i + 1 < 8 then pcByte (byteOf x (i + 1) % 16) else 0))) 7 + 16 * pcByte (byteOf x 0 % 16) = 16 * bytesOnes x 7 := by
  have hn := fun i (hi : i < 8) => (bw_nib _ ((lanes_byteOf x).2 i hi)).2.2.2.2.2
  have h0 := hn 0 (by decide)
  have h1 := hn 1 (by decide)
  have h2 := hn 2 (by decide)
  have h3 := hn 3 (by decide)
  have h4 := hn 4 (by decide)
  have h5 := hn 5 (by decide)
  have h6 := hn 6 (by decide)
  have h7 := hn 7 (by decide)
  unfold bytesOnes
  simp only [psum, Nat.reduceAdd, Nat.reduceLT, if_true, if_false]
  omega

/-- C145. The remark about the constant: with the one printed in the paper, for words with fewer than 16 ones, the
result is sixteen times the number of ones above the lowest four bits … -/
theorem C145_constant (c : Cfg) (x : BitVec 64) (hx : (blockBits x).count true < 16) :
    countOnesPrinted c x = .ok (16 * ((blockBits x).drop 4).count true) := by
  obtain ⟨x1, x2, y, e1, e2, e3, l⟩ := bw_upto_mask c x
  have hb := lanes_byteOf x
  have hn := fun i (hi : i < 8) => bw_nib _ (hb.2 i hi)
  have hF : Lanes (BitVec.ofNat 64 0x0F0F0F0F0F0F0F0F0) (fun _ => 240) := lanes_const (by decide) rfl
  have l2 := (l.and hF).congr (g := fun i => 16 * (pcByte (byteOf x i / 16) +
      (if i + 1 < 8 then pcByte (byteOf x (i + 1) % 16) else 0))) (by
    intro i hi
    have h := hn i hi
    rw [and_240 _ (l.2 i hi)]
    show 16 * ((_ + _ / 16 + 16 * (if _ then _ else _)) / 16) = 16 * (_ + if _ then _ else _)
    split
    · rename_i h8
      obtain ⟨h1, h2, h3, h4, h5, -⟩ := h
      obtain ⟨-, h2', -, -, h5', -⟩ := hn (i + 1) h8
      rw [h2', h1]
      generalize bwS2 (byteOf x i) = s at *
      omega
    · omega)
  have hps := psum_nibbles x
  have hcnt := count_bytesOnes x
  have h4 := take_four x
  have hsplit : (blockBits x).count true = ((blockBits x).take 4).count true + ((blockBits x).drop 4).count true := by
    rw [← List.count_append, List.take_append_drop]
  have husz := c.le_pow_usz
  have hm := l2.mulL8 (by omega)
  unfold countOnesPrinted
  rw [e1, Res.ok_bind, e2, Res.ok_bind, e3, Res.ok_bind]
  simp only
  rw [hm.top, asUsize, Nat.mod_eq_of_lt (by omega)]
  congr 1
  omega

/-- … and so wrong, unless there are no ones at all. -/
theorem C145_constant_wrong (c : Cfg) (x : BitVec 64) (h0 : x ≠ 0) (hx : (blockBits x).count true < 16) :
    countOnesPrinted c x ≠ .ok ((blockBits x).count true) := by
  rw [C145_constant c x hx]
  intro h
  injection h with h
  have hsplit : (blockBits x).count true = ((blockBits x).take 4).count true + ((blockBits x).drop 4).count true := by
    rw [← List.count_append, List.take_append_drop]
  have h4 : ((blockBits x).take 4).count true ≤ 4 := Nat.le_trans List.count_le_length (by rw [List.length_take]; omega)
  have hz : (blockBits x).count true = 0 := by omega
  apply h0
  apply BitVec.eq_of_toNat_eq
  rw [← count_bytesOnes] at hz
  have hall : ∀ i < 8, byteOf x i = 0 := by
    intro i hi
    refine (pcByte_zero _ ((lanes_byteOf x).2 i hi)).1 ?_
    have := psum_mono (fun i => pcByte (byteOf x i)) (show i ≤ 7 by omega)
    have h1 : psum (fun i => pcByte (byteOf x i)) i = 0 := by unfold bytesOnes at hz; omega
    cases i with
    | zero => exact h1
    | succ i =>
      have : psum (fun i => pcByte (byteOf x i)) i + pcByte (byteOf x (i + 1)) = 0 := h1
      omega
  rw [(lanes_byteOf x).1, lval_congr (g := fun _ => 0) hall]
  rfl

example : countOnesPrinted ⟨true, .p64, true⟩ 0x1F = .ok 16 ∧ countOnesPrinted ⟨true, .p64, true⟩ 0xF = .ok 0 ∧
    countOnesPrinted ⟨true, .p64, true⟩ 0x1FFFF0 = .ok 17 := by decide

/-! ### the second line of Algorithm 2 -/

/-- The printed second line on one byte. -/
def bwS2x (b : Nat) : Nat := (bwS1 b &&& 0x33) + ((b >>> 2) &&& 0x33)

/-- What the printed line counts too much: the ones at positions 3 and 7. -/
def bwExtra (b : Nat) : Nat := (b.testBit 3).toNat + (b.testBit 7).toNat

theorem bw_byte_x : ∀ b < 256, bwS2x b % 16 ≤ 5 ∧ bwS2x b / 16 ≤ 5 ∧ bwS2x b % 16 + bwS2x b / 16 = pcByte b + bwExtra b ∧
    pcByte b ≤ 8 ∧ bwExtra b ≤ 2 ∧ (bwExtra b = 0 → bwS2x b = bwS2 b) := by decide +kernel

theorem bw_sideways_x (c : Cfg) (x : BitVec 64) : ∃ x1 x2 y,
    subB c x ((x &&& 0xAAAAAAAAAAAAAAAA) >>> 1) = .ok x1 ∧
    addB c (x1 &&& 0x3333333333333333) ((x >>> 2) &&& 0x3333333333333333) = .ok x2 ∧
    addB c x2 (x2 >>> 4) = .ok y ∧ Lanes (y &&& 0x0F0F0F0F0F0F0F0F) (fun i => pcByte (byteOf x i) + bwExtra (byteOf x i)) := by
  have hx := lanes_byteOf x
  have hA : Lanes 0xAAAAAAAAAAAAAAAA (fun _ => 0xAA) := lanes_const (by decide) rfl
  have h3 : Lanes 0x3333333333333333 (fun _ => 0x33) := lanes_const (by decide) rfl
  have hF : Lanes 0x0F0F0F0F0F0F0F0F (fun _ => 15) := lanes_const (by decide) rfl
  have hb := fun i (hi : i < 8) => bw_byte _ (hx.2 i hi)
  have hn := fun i (hi : i < 8) => bw_byte_x _ (hx.2 i hi)
  obtain ⟨x1, e1, l1⟩ := Lanes.sub (c := c) hx ((hx.and hA).shr (k := 1) (fun i hi => (hb i hi).1)) (fun i hi => (hb i hi).2.1)
  have l1 : Lanes x1 (fun i => bwS1 (byteOf x i)) := l1
  have l2 := hx.shr_and (k := 2) (by decide) h3 (fun _ _ => by decide)
  obtain ⟨x2, e2, l3⟩ := Lanes.add (c := c) (l1.and h3) l2 (fun i hi => by
    have := hn i hi
    show bwS2x (byteOf x i) < 256
    omega)
  have l3 : Lanes x2 (fun i => bwS2x (byteOf x i)) := l3
  have hd : ∀ i < 8, bwS2x (byteOf x i) + bwS2x (byteOf x i) / 16 + 16 * (if i + 1 < 8 then bwS2x (byteOf x (i + 1)) % 16 else 0) < 256 := by
    intro i hi
    have h := hn i hi
    split
    · rename_i h8
      have h' := hn (i + 1) h8
      omega
    · omega
  have hs := lval_shift4 8 (fun i => bwS2x (byteOf x i))
  have hlt : x2.toNat + (x2 >>> 4).toNat < 2 ^ 64 := by
    rw [BitVec.toNat_ushiftRight, l3.1, hs]
    exact lval_lt64 hd
  have l4 : Lanes (x2 + x2 >>> 4) _ := ⟨by rw [BitVec.toNat_add, Nat.mod_eq_of_lt hlt, BitVec.toNat_ushiftRight, l3.1, hs], hd⟩
  refine ⟨x1, x2, x2 + x2 >>> 4, e1, e2, by unfold addB; rw [if_pos hlt], (l4.and hF).congr ?_⟩
  intro i hi
  have h := hn i hi
  rw [show (15 : Nat) = 2 ^ 4 - 1 from rfl, Nat.and_two_pow_sub_one_eq_mod]
  show (_ + _ / 16 + 16 * (if _ then _ else _)) % 2 ^ 4 = _
  omega

theorem lanes_unique {x y : BitVec 64} {f : Nat → Nat} (hx : Lanes x f) (hy : Lanes y f) : x = y :=
  BitVec.eq_of_toNat_eq (hx.1.trans hy.1.symm)

theorem byteOf_testBit (x : BitVec 64) {i j : Nat} (hj : j < 8) : (byteOf x i).testBit j = x.getLsbD (8 * i + j) := by
  unfold byteOf BitVec.getLsbD
  rw [show (256 : Nat) = 2 ^ 8 from rfl, ← Nat.pow_mul, Nat.testBit_mod_two_pow, Nat.testBit_div_two_pow, decide_eq_true hj,
    Nat.add_comm, Bool.true_and]

theorem bwExtra_zero_iff (x : BitVec 64) : (∀ p < 64, p % 4 = 3 → x.getLsbD p = false) ↔ ∀ i < 8, bwExtra (byteOf x i) = 0 := by
  constructor
  · intro h i hi
    unfold bwExtra
    rw [byteOf_testBit x (by decide), byteOf_testBit x (by decide), h _ (by omega) (by omega), h _ (by omega) (by omega)]
    rfl
  · intro h p hp h4
    have h' := h (p / 8) (by omega)
    unfold bwExtra at h'
    rw [byteOf_testBit x (by decide), byteOf_testBit x (by decide)] at h'
    have : p % 8 = 3 ∨ p % 8 = 7 := by omega
    rcases this with e | e
    · rw [show p = 8 * (p / 8) + 3 by omega]
      cases hb : x.getLsbD (8 * (p / 8) + 3)
      · rfl
      · rw [hb] at h'; simp at h'
    · rw [show p = 8 * (p / 8) + 7 by omega]
      cases hb : x.getLsbD (8 * (p / 8) + 7)
      · rfl
      · rw [hb] at h'; simp at h'

/-- C145. The remark about line 2 of Algorithm 2: as printed, the algorithm does the same as the code for words
without a one at any position `3, 7, 11, …, 63` … -/
theorem C145_line_same (c : Cfg) (r : Nat) (x : BitVec 64) (hx : ∀ p < 64, p % 4 = 3 → x.getLsbD p = false) :
    select1Printed c r x = select1Raw c r x := by
  have h0 := (bwExtra_zero_iff x).1 hx
  obtain ⟨x1, x2, y, e1, e2, e3, l⟩ := bw_sideways c x
  obtain ⟨x1', x2', y', e1', e2', e3', l'⟩ := bw_sideways_x c x
  obtain rfl : x1' = x1 := by rw [e1] at e1'; injection e1' with h; exact h.symm
  have ey := lanes_unique (l'.congr (g := fun i => pcByte (byteOf x i)) (fun i hi => by rw [h0 i hi]; rfl)) l
  unfold select1Printed select1Raw
  simp only
  rw [e1', Res.ok_bind, Res.ok_bind, e2', Res.ok_bind, e3', Res.ok_bind, e2, Res.ok_bind, e3, Res.ok_bind, ey]

theorem psum_pos {f g : Nat → Nat} {n : Nat} (h : ∀ i ≤ n, f i ≤ g i) : psum f n ≤ psum g n := by
  induction n with
  | zero => exact h 0 (Nat.le_refl _)
  | succ n ih =>
    have h1 := ih (fun i hi => h i (by omega))
    have h2 := h (n + 1) (Nat.le_refl _)
    show psum f n + f (n + 1) ≤ psum g n + g (n + 1)
    omega

theorem psum_strict {f g : Nat → Nat} {n j : Nat} (h : ∀ i ≤ n, f i ≤ g i) (hj : j ≤ n) (hlt : f j < g j) : psum f n < psum g n := by
  induction n with
  | zero =>
    obtain rfl : j = 0 := by omega
    exact hlt
  | succ n ih =>
    have h2 := h (n + 1) (Nat.le_refl _)
    show psum f n + f (n + 1) < psum g n + g (n + 1)
    by_cases hjn : j ≤ n
    · have := ih (fun i hi => h i (by omega)) hjn
      omega
    · obtain rfl : j = n + 1 := by omega
      have := psum_pos (f := f) (g := g) (n := n) (fun i hi => h i (by omega))
      omega

/-- … and for every other word it is wrong: asked for the one after the last, it answers with a position. -/
theorem C145_line_wrong (c : Cfg) (x : BitVec 64) {p : Nat} (hp : p < 64) (h4 : p % 4 = 3) (hx : x.getLsbD p = true) :
    ∃ q, select1Printed c ((blockBits x).count true) x = .ok q ∧ q ≤ 64 ∧
      select1Raw c ((blockBits x).count true) x = .ok 72 := by
  have hcnt : (blockBits x).count true ≤ 64 := Nat.le_trans List.count_le_length (by simp [blockBits, natBits])
  have husz := c.le_pow_usz
  generalize hr : (blockBits x).count true = r at *
  have hraw : select1Raw c r x = .ok 72 := by
    obtain ⟨q, hq, hs⟩ := select1Raw_ok c x (r := r) (by omega)
    rw [hq]
    by_cases h : q = 72
    · rw [h]
    · rw [if_neg h] at hs
      exfalso
      obtain ⟨h1, h2⟩ := hs
      have hsplit : (blockBits x).count true = ((blockBits x).take q).count true + ((blockBits x).drop q).count true := by
        rw [← List.count_append, List.take_append_drop]
      have hpos : 0 < ((blockBits x).drop q).count true := by
        refine List.count_pos_iff.2 (List.mem_of_getElem? (i := 0) ?_)
        rw [List.getElem?_drop]
        exact h1
      unfold occ at h2
      omega
  have hrn : (BitVec.ofNat 64 r).toNat = r := by rw [BitVec.toNat_ofNat, Nat.mod_eq_of_lt (by omega)]
  obtain ⟨x1, x2, y, e1, e2, e3, l⟩ := bw_sideways_x c x
  let F := psum (fun i => pcByte (byteOf x i) + bwExtra (byteOf x i))
  have h80 : F 7 ≤ 10 * (7 + 1) := psum_le (f := fun i => pcByte (byteOf x i) + bwExtra (byteOf x i)) (b := 10) (fun i hi => by
    have := bw_byte_x _ ((lanes_byteOf x).2 i hi)
    show pcByte (byteOf x i) + bwExtra (byteOf x i) ≤ 10
    omega) (by decide)
  have ls : Lanes ((y &&& 0x0F0F0F0F0F0F0F0F) * bwL8) F := l.mulL8 (show F 7 < 256 by omega)
  have hmono : ∀ i j, i ≤ j → F i ≤ F j := fun i j h => psum_mono _ h
  have hgt : r < F 7 := by
    rw [← hr, ← count_bytesOnes]
    unfold bytesOnes
    refine psum_strict (j := p / 8) (fun i _ => Nat.le_add_right _ _) (by omega) ?_
    have : ¬ bwExtra (byteOf x (p / 8)) = 0 := by
      intro h
      unfold bwExtra at h
      rw [byteOf_testBit x (by decide), byteOf_testBit x (by decide)] at h
      have hcase : p = 8 * (p / 8) + 3 ∨ p = 8 * (p / 8) + 7 := by omega
      rcases hcase with e | e
      · rw [← e, hx] at h; simp at h
      · rw [← e, hx] at h; simp at h
    omega
  obtain ⟨m, t, f1, ht, hcmp, h53, -⟩ := le8_search c ls (r := BitVec.ofNat 64 r) hmono (by omega) (by omega)
  rw [hrn] at hcmp
  have ht7 : t ≤ 7 := by
    have := hcmp 7 (by decide)
    omega
  have hprev := prev_byte ((y &&& 0x0F0F0F0F0F0F0F0F) * bwL8) _ ht h53
  have hthis := this_byte x _ h53
  have hbase : ∃ base, (if t = 0 ∨ t = 8 then 0 else byteOf ((y &&& 0x0F0F0F0F0F0F0F0F) * bwL8) (t - 1)) = base ∧ base ≤ r := by
    refine ⟨_, rfl, ?_⟩
    split
    · exact Nat.zero_le _
    · rw [ls.byteOf (by omega)]
      exact (hcmp (t - 1) (by omega)).2 (by omega)
  obtain ⟨base, hbeq, hble⟩ := hbase
  rw [hbeq] at hprev
  have hsub : ∃ lw, subB c (BitVec.ofNat 64 r) (wrappingShr64 (((y &&& 0x0F0F0F0F0F0F0F0F) * bwL8) <<< 8) (((m >>> 7) * bwL8) >>> 53) &&& 0xFF) = .ok lw ∧
      lw.toNat = r - base := by
    refine ⟨_, by unfold subB; rw [if_pos (by rw [hprev, hrn]; exact hble)], ?_⟩
    rw [BitVec.toNat_sub_of_le (by rw [BitVec.le_def, hprev, hrn]; exact hble), hprev, hrn]
  obtain ⟨lw, f2, hlw⟩ := hsub
  obtain ⟨nz, f3, lnz⟩ := byte_ranks c (y := wrappingShr64 x (((m >>> 7) * bwL8) >>> 53) &&& 0xFF)
    (by rw [hthis]; exact Nat.mod_lt _ (by decide))
  rw [hthis] at lnz
  have hq8 : ∀ k, ones (natBits 8 (byteOf x (t % 8))) k ≤ 8 := fun k => by
    have := ones_le_length (natBits 8 (byteOf x (t % 8))) k
    simpa [natBits] using this
  obtain ⟨m2, t2, f4, ht2, -, -, h56⟩ := le8_search c lnz (r := lw) (fun i j h => ones_mono _ (by omega))
    (by have := hq8 (7 + 1); omega) (by omega)
  have hadd : ∃ p, addB c (((m >>> 7) * bwL8) >>> 53) (((m2 >>> 7) * bwL8) >>> 56) = .ok p ∧ p.toNat = 8 * t + t2 := by
    refine ⟨_, by unfold addB; rw [if_pos (by omega)], ?_⟩
    rw [BitVec.toNat_add, h53, h56, Nat.mod_eq_of_lt (by omega)]
  obtain ⟨q, f5, hq⟩ := hadd
  refine ⟨8 * t + t2, ?_, by omega, hraw⟩
  unfold select1Printed
  simp only
  rw [e1, Res.ok_bind, e2, Res.ok_bind, e3, Res.ok_bind, f1, Res.ok_bind, f2, Res.ok_bind, f3, Res.ok_bind, f4, Res.ok_bind, f5,
    Res.ok_bind, hq, asUsize, Nat.mod_eq_of_lt (by omega)]

example : select1Printed ⟨true, .p64, true⟩ 1 0x1008 = .ok 8 ∧ select1Raw ⟨true, .p64, true⟩ 1 0x1008 = .ok 12 ∧
    select1Printed ⟨true, .p64, true⟩ 1 0x1004 = .ok 12 ∧ select1Printed ⟨true, .p64, true⟩ 2 0x1008 = .ok 12 := by decide

/-! Each theorem of this file that has hypotheses is applied to concrete data in `Verif/Instances/Paper.lean`. -/

end Succinct
