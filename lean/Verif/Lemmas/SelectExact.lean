import Verif.Lemmas.BroadwordSelect
/-! `select1_raw` for large `r`. -/
namespace Succinct
open Spec

/-- What the signed comparison of lanes makes of `s ≤ y` for `s < 128`. -/
def lane8 (s y : Nat) : Bool := if y < 128 then decide (s ≤ y) else decide (y - 128 < s)

theorem psum_countP (P : Nat → Bool) (n : Nat) :
    psum (fun i => if P i = true then 1 else 0) n = (List.range (n + 1)).countP P := by
  induction n with
  | zero => show (if P 0 = true then 1 else 0) = _; rw [List.range_succ]; simp
  | succ n ih =>
    show psum _ n + (if P (n + 1) = true then 1 else 0) = _
    rw [ih, List.range_succ (n := n + 1), List.countP_append, List.countP_singleton]

theorem le8_counts (c : Cfg) {s : BitVec 64} (y : BitVec 64) {F : Nat → Nat} (hs : Lanes s F) (hF : ∀ i < 8, F i < 128) :
    ∃ m t, le8 c s y = .ok m ∧ t = (List.range 8).countP (fun i => lane8 (F i) (byteOf y i)) ∧ t ≤ 8 ∧
      (((m >>> 7) * bwL8) >>> 53).toNat = 8 * t ∧ (((m >>> 7) * bwL8) >>> 56).toNat = t := by
  obtain ⟨m, e, l⟩ := le8_lanes c s y
  have l2 := l.shr (k := 7) (fun i hi => by unfold le8Byte; split <;> rfl)
  have l3 := l2.congr (g := fun i => if lane8 (F i) (byteOf y i) = true then 1 else 0)
    (fun i hi => by
      have hy : byteOf y i < 256 := (lanes_byteOf y).2 i hi
      have hFi := hF i hi
      rw [hs.byteOf hi]
      generalize byteOf y i = b at *
      generalize F i = a at *
      unfold le8Byte lane8
      by_cases hb : b < 128
      · rw [if_pos hb]
        by_cases hab : a ≤ b
        · rw [if_pos (show (a % 128 ≤ b % 128 ↔ (a < 128 ↔ b < 128)) by omega), if_pos (by simpa using hab)]; rfl
        · rw [if_neg (show ¬(a % 128 ≤ b % 128 ↔ (a < 128 ↔ b < 128)) by omega), if_neg (by simpa using hab)]; rfl
      · rw [if_neg hb]
        by_cases hab : b - 128 < a
        · rw [if_pos (show (a % 128 ≤ b % 128 ↔ (a < 128 ↔ b < 128)) by omega), if_pos (by simpa using hab)]; rfl
        · rw [if_neg (show ¬(a % 128 ≤ b % 128 ↔ (a < 128 ↔ b < 128)) by omega), if_neg (by simpa using hab)]; rfl)
  have h7 := psum_ind_le (fun i => lane8 (F i) (byteOf y i) = true) 7
  have h6 := psum_ind_le (fun i => lane8 (F i) (byteOf y i) = true) 6
  have l4 := l3.mulL8 (by omega)
  exact ⟨m, _, e, psum_countP (fun i => lane8 (F i) (byteOf y i)) 7, h7, shr_53 l4 (by omega), l4.top⟩

theorem byteOf_bcast (r i : Nat) (hi : i < 8) : byteOf (BitVec.ofNat 64 r * bwL8) i = r * 0x0101010101010101 / 256 ^ i % 256 := by
  unfold byteOf
  rw [BitVec.toNat_mul, BitVec.toNat_ofNat, show bwL8.toNat = 0x0101010101010101 from rfl, Nat.mod_mul_mod]
  have e : (2 : Nat) ^ 64 = 256 ^ i * 256 ^ (8 - i) := by
    rw [← Nat.pow_add, show i + (8 - i) = 8 from by omega]
  rw [e, Nat.mod_mul_right_div_self]
  exact Nat.mod_mod_of_dvd _ (Nat.dvd_of_pow_dvd (show 1 ≤ 8 - i by omega) (Nat.dvd_refl _))

theorem select1Raw_exact (c : Cfg) (x : BitVec 64) {r : Nat} (h64 : 64 ≤ r) (hr : r < 2 ^ c.usz) :
    ∃ b l k, b = (List.range 8).countP (fun i => lane8 (ones (blockBits x) (8 * (i + 1))) (r * 0x0101010101010101 / 256 ^ i % 256)) ∧
      l = r - (if b = 0 ∨ b = 8 then 0 else ones (blockBits x) (8 * b)) ∧
      k = (List.range 8).countP (fun i => lane8 (ones (natBits 8 (byteOf x (b % 8))) (i + 1)) (l * 0x0101010101010101 / 256 ^ i % 256)) ∧
      b ≤ 8 ∧ k ≤ 8 ∧ select1Raw c r x = .ok (8 * b + k) := by
  have husz := c.le_pow_usz
  have hu64 : 2 ^ c.usz ≤ 2 ^ 64 := Nat.pow_le_pow_right (by decide) c.usz_le
  have hrn : (BitVec.ofNat 64 r).toNat = r := by rw [BitVec.toNat_ofNat, Nat.mod_eq_of_lt (by omega)]
  obtain ⟨x1, x2, y, e1, e2, e3, l⟩ := bw_sideways c x
  have hle := bytesOnes_le x (i := 7) (by decide)
  have ls : Lanes ((y &&& 0x0F0F0F0F0F0F0F0F) * bwL8) (bytesOnes x) := l.mulL8 (show bytesOnes x 7 < 256 by omega)
  obtain ⟨m, t, f1, ht, ht8, h53, -⟩ := le8_counts c (BitVec.ofNat 64 r * bwL8) ls (fun i hi => by
    have := bytesOnes_le x hi; omega)
  have hprev := prev_byte ((y &&& 0x0F0F0F0F0F0F0F0F) * bwL8) _ ht8 h53
  have hprev' : (wrappingShr64 (((y &&& 0x0F0F0F0F0F0F0F0F) * bwL8) <<< 8) (((m >>> 7) * bwL8) >>> 53) &&& 0xFF).toNat =
      if t = 0 ∨ t = 8 then 0 else ones (blockBits x) (8 * t) := by
    rw [hprev]
    split
    · rfl
    · rw [ls.byteOf (by omega), bytesOnes_eq x (by omega)]
      congr 1; omega
  generalize hbase : (if t = 0 ∨ t = 8 then 0 else ones (blockBits x) (8 * t)) = base at hprev'
  have hble : base ≤ r := by
    rw [← hbase]
    split
    · omega
    · have := ones_le_length (blockBits x) (8 * t)
      have e : (blockBits x).length = 64 := by simp [blockBits, natBits]
      omega
  obtain ⟨lw, f2, hlw⟩ : ∃ lw, subB c (BitVec.ofNat 64 r) (wrappingShr64 (((y &&& 0x0F0F0F0F0F0F0F0F) * bwL8) <<< 8) (((m >>> 7) * bwL8) >>> 53) &&& 0xFF) = .ok lw ∧
      lw.toNat = r - base := by
    refine ⟨_, by unfold subB; rw [if_pos (by rw [hprev', hrn]; exact hble)], ?_⟩
    rw [BitVec.toNat_sub_of_le (by rw [BitVec.le_def, hprev', hrn]; exact hble), hprev', hrn]
  have hlw' : lw = BitVec.ofNat 64 (r - base) := by rw [← hlw, BitVec.ofNat_toNat]; simp
  have hthis := this_byte x _ h53
  obtain ⟨nz, f3, lnz⟩ := byte_ranks c (y := wrappingShr64 x (((m >>> 7) * bwL8) >>> 53) &&& 0xFF)
    (by rw [hthis]; exact Nat.mod_lt _ (by decide))
  rw [hthis] at lnz
  obtain ⟨m2, t2, f4, ht2, ht28, -, h56⟩ := le8_counts c (lw * bwL8) lnz (fun i hi => by
    have := ones_le_length (natBits 8 (byteOf x (t % 8))) (i + 1)
    have e : (natBits 8 (byteOf x (t % 8))).length = 8 := by simp [natBits]
    omega)
  have hadd : ∃ p, addB c (((m >>> 7) * bwL8) >>> 53) (((m2 >>> 7) * bwL8) >>> 56) = .ok p ∧ p.toNat = 8 * t + t2 := by
    refine ⟨_, by unfold addB; rw [if_pos (by omega)], ?_⟩
    rw [BitVec.toNat_add, h53, h56, Nat.mod_eq_of_lt (by omega)]
  obtain ⟨p, f5, hp⟩ := hadd
  refine ⟨t, r - base, t2, ?_, by rw [hbase], ?_, ht8, ht28, ?_⟩
  · rw [ht]
    apply List.countP_congr
    intro i hi
    rw [byteOf_bcast r i (by simpa using hi), bytesOnes_eq x (by simpa using hi)]
  · rw [ht2, hlw']
    apply List.countP_congr
    intro i hi
    rw [byteOf_bcast _ i (by simpa using hi)]
  · unfold select1Raw
    simp only
    rw [e1, Res.ok_bind, e2, Res.ok_bind, e3, Res.ok_bind, f1, Res.ok_bind, f2, Res.ok_bind, f3, Res.ok_bind, f4, Res.ok_bind, f5,
      Res.ok_bind, hp, asUsize, Nat.mod_eq_of_lt (by omega)]

end Succinct
