import Verif.Model.Storage
/-! Helper lemmas about the model of `storage.rs`. -/
namespace Succinct

theorem IsBlk.pos (h : IsBlk w) : 0 < w := by obtain ⟨k, -, -, rfl⟩ := h; exact Nat.two_pow_pos k
theorem IsBlk.le (h : IsBlk w) : w ≤ 65536 := by
  obtain ⟨k, h, -, rfl⟩ := h; exact Nat.pow_le_pow_right (n := 2) (by decide) (Nat.le_of_lt_succ h)
theorem IsBlk.ge (h : IsBlk w) : 8 ≤ w := by
  obtain ⟨k, -, h, rfl⟩ := h; exact Nat.pow_le_pow_right (n := 2) (by decide) h
theorem IsBlk.usz (c : Cfg) : IsBlk c.usz := by
  rcases c.usz_cases with h | h
  · exact ⟨5, by decide, by decide, h⟩
  · exact ⟨6, by decide, by decide, h⟩
theorem isBlk8 : IsBlk 8 := by decide
theorem isBlk64 : IsBlk 64 := by decide

theorem IsBlk.list (h : IsBlk w) : w = 8 ∨ w = 16 ∨ w = 32 ∨ w = 64 ∨ w = 128 ∨ w = 256 ∨ w = 512 ∨ w = 1024 ∨ w = 2048 ∨
    w = 4096 ∨ w = 8192 ∨ w = 16384 ∨ w = 32768 ∨ w = 65536 := by
  obtain ⟨k, h1, h2, rfl⟩ := h
  have : ∀ k < 17, 3 ≤ k → 2 ^ k = 8 ∨ 2 ^ k = 16 ∨ 2 ^ k = 32 ∨ 2 ^ k = 64 ∨ 2 ^ k = 128 ∨ 2 ^ k = 256 ∨ 2 ^ k = 512 ∨
    2 ^ k = 1024 ∨ 2 ^ k = 2048 ∨ 2 ^ k = 4096 ∨ 2 ^ k = 8192 ∨ 2 ^ k = 16384 ∨ 2 ^ k = 32768 ∨ 2 ^ k = 65536 := by decide
  exact this k h1 h2

set_option hygiene false in
/-- Go through the widths of blocks. -/
macro "blk_cases " h:ident : tactic => `(tactic|
  rcases IsBlk.list $h with rfl | rfl | rfl | rfl | rfl | rfl | rfl | rfl | rfl | rfl | rfl | rfl | rfl | rfl)

theorem Cfg.le_pow_usz (c : Cfg) : 2 ^ 32 ≤ 2 ^ c.usz :=
  Nat.pow_le_pow_right (by omega) (by rcases c.usz_cases with h | h <;> omega)
theorem Cfg.pow_usz_le (c : Cfg) : 2 ^ c.usz ≤ 2 ^ 64 :=
  Nat.pow_le_pow_right (by omega) c.usz_le

theorem IsBlk.lt_usz (h : IsBlk w) (c : Cfg) : w < 2 ^ c.usz := by
  have := h.le; have := c.le_pow_usz; omega

theorem lgNbits_eq (c : Cfg) (h : IsBlk w) : ∃ k, lgNbits c w = .ok k ∧ w = 2 ^ k ∧ k ≤ 16 := by
  obtain ⟨k, h2, h1, rfl⟩ := h
  refine ⟨k, ?_, rfl, by omega⟩
  obtain ⟨d, p, a⟩ := c
  have : ∀ k < 17, 3 ≤ k → lgNbits ⟨d, p, a⟩ (2 ^ k) = .ok k := by cases d <;> cases a <;> cases p <;> decide +kernel
  exact this k (by omega) h1

theorem divNbits_eq (c : Cfg) (h : IsBlk w) (i : Nat) : divNbits c w i = .ok (i / w % 2 ^ c.usz) := by
  obtain ⟨k, hk, rfl, hk6⟩ := lgNbits_eq c h
  simp [divNbits, hk, shrN_ok (show k < 64 by omega), asUsize]

theorem checkedDivNbits_eq (c : Cfg) (h : IsBlk w) (i : Nat) :
    checkedDivNbits c w i = .ok (toUsize c (i / w)) := by
  obtain ⟨k, hk, rfl, hk6⟩ := lgNbits_eq c h
  simp [checkedDivNbits, hk, shrN_ok (show k < 64 by omega)]

theorem mulNbits_eq (c : Cfg) (h : IsBlk w) (i : Nat) : mulNbits c w i = .ok (i * w % 2 ^ 64) := by
  obtain ⟨k, hk, rfl, hk6⟩ := lgNbits_eq c h
  simp [mulNbits, hk, shlN, show k < 64 by omega, Nat.shiftLeft_eq]

theorem mulNbits_ok (c : Cfg) (h : IsBlk w) {i : Nat} (hi : i * w < 2 ^ 64) :
    mulNbits c w i = .ok (i * w) := by
  rw [mulNbits_eq c h, Nat.mod_eq_of_lt hi]

/-- the all-ones-below-`k` block -/
def maskB (w k : Nat) : BitVec w := BitVec.ofNat w (2 ^ k - 1)

@[simp] theorem getLsbD_maskB (w k i : Nat) : (maskB w k).getLsbD i = (decide (i < w) && decide (i < k)) := by
  simp [maskB, BitVec.getLsbD_ofNat, Nat.testBit_two_pow_sub_one]

theorem maskB_toNat {w k : Nat} (h : k ≤ w) : (maskB w k).toNat = 2 ^ k - 1 := by
  have : 2 ^ k ≤ 2 ^ w := Nat.pow_le_pow_right (by omega) h
  have : 0 < 2 ^ k := Nat.two_pow_pos k
  simp [maskB]; apply Nat.mod_eq_of_lt; omega

theorem lowMask_ok (c : Cfg) (h : IsBlk w) {k : Nat} (hk : k ≤ w) : lowMask c w k = .ok (maskB w k) := by
  have hw := h.pos
  have hw64 := h.le
  have hu := c.le_pow_usz
  unfold lowMask
  rw [debugAssert_true hk, divNbits_eq c h]
  have hk32 : k % 2 ^ 32 = k := Nat.mod_eq_of_lt (by omega)
  simp only [hk32, Res.ok_bind]
  have hlt : k % w < w := Nat.mod_lt _ hw
  have h1 : ((1 : BitVec w) <<< (k % w)).toNat = 2 ^ (k % w) := by
    have hp : 2 ^ (k % w) < 2 ^ w := Nat.pow_lt_pow_right (by omega) hlt
    have h1w : 1 % 2 ^ w = 1 := Nat.mod_eq_of_lt (Nat.one_lt_two_pow (by omega))
    simp [h1w, Nat.shiftLeft_eq, Nat.mod_eq_of_lt hp]
  have hone : (1 : BitVec w).toNat = 1 := by
    have h1w : 1 % 2 ^ w = 1 := Nat.mod_eq_of_lt (Nat.one_lt_two_pow (by omega))
    simp [h1w]
  have hsub : subB c ((1 : BitVec w) <<< (k % w)) 1 = .ok (maskB w (k % w)) := by
    have hp : 0 < 2 ^ (k % w) := Nat.two_pow_pos _
    have hp : 2 ^ (k % w) < 2 ^ w := Nat.pow_lt_pow_right (by omega) hlt
    unfold subB
    rw [h1, hone, if_pos (by omega)]
    congr 1
    apply BitVec.eq_of_toNat_eq
    rw [BitVec.toNat_sub_of_le (by rw [BitVec.le_def, h1, hone]; omega), h1, hone, maskB_toNat (by omega)]
  rw [hsub]
  simp only [Res.ok_bind]
  by_cases hkw : k = w
  · subst hkw
    have e1 : k / k % 2 ^ c.usz &&& 1 = 1 := by
      rw [Nat.div_self hw, Nat.mod_eq_of_lt (by omega)]; rfl
    rw [e1]
    have : mulB c (BitVec.ofNat k 1) (~~~ 0) = .ok (~~~ (0 : BitVec k)) := by
      unfold mulB
      have h1w : 1 % 2 ^ k = 1 := Nat.mod_eq_of_lt (Nat.one_lt_two_pow (by omega))
      rw [BitVec.toNat_ofNat, h1w, if_pos (by have := (~~~ (0 : BitVec k)).isLt; omega)]
      simp
    rw [this]
    simp only [Res.ok_bind]
    congr 1
    apply BitVec.eq_of_getLsbD_eq
    intro i hi
    simp [hi]
  · have hklt : k < w := by omega
    have e1 : k / w % 2 ^ c.usz &&& 1 = 0 := by
      rw [Nat.div_eq_of_lt hklt]; simp
    rw [e1]
    have : mulB c (BitVec.ofNat w 0) (~~~ 0) = .ok (0 : BitVec w) := by
      unfold mulB
      simp
    rw [this, Nat.mod_eq_of_lt hklt]
    simp

theorem lowMaskDefault_ok (c : Cfg) (h : IsBlk w) {k : Nat} (hk : k ≤ w) :
    lowMaskDefault c w k = .ok (maskB w k) := by
  have hw := h.pos
  unfold lowMaskDefault
  rw [debugAssert_true hk]
  simp only [Res.ok_bind]
  split
  · next hkw =>
    subst hkw
    congr 1
    apply BitVec.eq_of_getLsbD_eq
    intro i hi
    simp [hi]
  · next hkw =>
    have hlt : k < w := by omega
    have h1w : 1 % 2 ^ w = 1 := Nat.mod_eq_of_lt (Nat.one_lt_two_pow (by omega))
    have hp : 2 ^ k < 2 ^ w := Nat.pow_lt_pow_right (by omega) hlt
    have h1 : ((1 : BitVec w) <<< k).toNat = 2 ^ k := by
      simp [h1w, Nat.shiftLeft_eq, Nat.mod_eq_of_lt hp]
    have hone : (1 : BitVec w).toNat = 1 := by simp [h1w]
    rw [shlB_ok hlt]
    simp only [Res.ok_bind]
    have hp0 : 0 < 2 ^ k := Nat.two_pow_pos _
    unfold subB
    rw [h1, hone, if_pos (by omega)]
    congr 1
    apply BitVec.eq_of_toNat_eq
    rw [BitVec.toNat_sub_of_le (by rw [BitVec.le_def, h1, hone]; omega), h1, hone, maskB_toNat (by omega)]

theorem modNbits_eq (c : Cfg) (h : IsBlk w) (i : Nat) : modNbits c w i = .ok (i % w) := by
  have hlu := h.lt_usz c
  obtain ⟨k, hk, rfl, hk6⟩ := lgNbits_eq c h
  simp only [modNbits, lgNbitsMask, hk, lowMask_ok c isBlk64 (show k ≤ 64 by omega), Res.ok_bind,
    maskB_toNat (show k ≤ 64 by omega), Nat.and_two_pow_sub_one_eq_mod, asUsize]
  congr 1
  apply Nat.mod_eq_of_lt
  have := Nat.mod_lt i (Nat.two_pow_pos k)
  omega

theorem lastBlockBits_eq (c : Cfg) (h : IsBlk w) (n : Nat) :
    lastBlockBits c w n = .ok (if n % w = 0 then w else n % w) := by
  simp only [lastBlockBits, modNbits_eq c h, Res.ok_bind]
  split <;> rfl

theorem ceilDivNbits_eq (c : Cfg) (h : IsBlk w) {i : Nat} (hi : i + (w - 1) < 2 ^ 64) :
    ceilDivNbits c w i = .ok ((i + (w - 1)) / w % 2 ^ c.usz) := by
  have := h.pos
  simp only [ceilDivNbits, subN_ok (show 1 ≤ w by omega), Res.ok_bind, addN_ok hi, divNbits_eq c h]

theorem checkedCeilDivNbits_eq (c : Cfg) (h : IsBlk w) {i : Nat} (hi : i + (w - 1) < 2 ^ 64) :
    checkedCeilDivNbits c w i = .ok (toUsize c ((i + (w - 1)) / w)) := by
  have := h.pos
  simp only [checkedCeilDivNbits, subN_ok (show 1 ≤ w by omega), Res.ok_bind, addN_ok hi,
    checkedDivNbits_eq c h]

theorem addrNew_eq (c : Cfg) (h : IsBlk w) (i : Nat) :
    Address.new c w i = if i / w < 2 ^ c.usz then .ok ⟨i / w, i % w⟩ else .panic := by
  simp only [Address.new, checkedDivNbits_eq c h, modNbits_eq c h, toUsize, Res.ok_bind]
  split <;> simp

theorem addrNew_ok (c : Cfg) (h : IsBlk w) {i : Nat} (hi : i / w < 2 ^ c.usz) :
    Address.new c w i = .ok ⟨i / w, i % w⟩ := by
  rw [addrNew_eq c h, if_pos hi]

/-! ### bits and fields of a block -/

theorem nthMask_ok (c : Cfg) {k : Nat} (h : k < w) : nthMask c w k = .ok ((1 : BitVec w) <<< k) := by
  simp [nthMask, shlB_ok h]

theorem getLsbD_one_shl {w k i : Nat} : ((1 : BitVec w) <<< k).getLsbD i = (decide (i < w) && decide (i = k)) := by
  have : (1 : BitVec w).getLsbD (i - k) = (decide (0 < w) && decide (i - k = 0)) := by
    simp [BitVec.getLsbD_one]
  rw [BitVec.getLsbD_shiftLeft, this]
  by_cases h1 : i < w <;> by_cases h2 : i = k <;> by_cases h3 : i < k <;> simp [h1, h2, h3] <;> omega

theorem and_nth_ne_zero {x : BitVec w} {k : Nat} (hk : k < w) : (x &&& ((1 : BitVec w) <<< k) != 0) = x.getLsbD k := by
  rw [Bool.eq_iff_iff]
  constructor
  · intro h
    rcases hx : x.getLsbD k with _ | _
    · exfalso
      have : x &&& (1 : BitVec w) <<< k = 0 := by
        apply BitVec.eq_of_getLsbD_eq
        intro i hi
        rw [BitVec.getLsbD_and, getLsbD_one_shl]
        by_cases hik : i = k
        · subst hik; simp [hx]
        · simp [hik]
      rw [this] at h; simp at h
    · rfl
  · intro h
    rw [bne_iff_ne]
    intro h0
    have := congrArg (fun b => b.getLsbD k) h0
    simp only [BitVec.getLsbD_and, getLsbD_one_shl, h] at this
    simp [hk] at this

theorem blkGetBit_eq (c : Cfg) (x : BitVec w) (i : Nat) :
    blkGetBit c x i = if i < w then .ok (x.getLsbD i) else .panic := by
  unfold blkGetBit
  by_cases h : i < w
  · rw [assertR_true h, nthMask_ok c h, if_pos h]
    simp only [Res.ok_bind]
    rw [and_nth_ne_zero h]
  · simp [h]

theorem blkWithBit_eq (c : Cfg) (x : BitVec w) {i : Nat} (v : Bool) (h : i < w) :
    ∃ y, blkWithBit c x i v = .ok y ∧
      ∀ j, y.getLsbD j = if j = i then v else x.getLsbD j := by
  unfold blkWithBit
  rw [assertR_true h, nthMask_ok c h]
  simp only [Res.ok_bind]
  cases v with
  | true =>
    refine ⟨_, rfl, fun j => ?_⟩
    rw [BitVec.getLsbD_or, getLsbD_one_shl]
    by_cases hj : j = i <;> simp [hj, h]
  | false =>
    refine ⟨_, rfl, fun j => ?_⟩
    rw [BitVec.getLsbD_and, BitVec.getLsbD_not, getLsbD_one_shl]
    by_cases hj : j = i
    · simp [hj]
    · by_cases hw : j < w
      · simp [hj, hw]
      · simp [hj, hw, BitVec.getLsbD_of_ge x j (by omega)]

theorem blkGetBits_eq (c : Cfg) (h : IsBlk w) (x : BitVec w) {start len : Nat} (hl : start + len ≤ w) :
    ∃ y, blkGetBits c x start len = .ok y ∧
      ∀ j, y.getLsbD j = (decide (j < len) && x.getLsbD (start + j)) := by
  unfold blkGetBits
  have hlu := h.lt_usz c
  rw [addN_ok (by omega), Res.ok_bind, assertR_true hl, Res.ok_bind]
  split
  · next h0 => subst h0; exact ⟨0, rfl, fun j => by simp⟩
  · next h0 =>
    rw [shrB_ok (by omega), lowMask_ok c h (by omega)]
    refine ⟨_, rfl, fun j => ?_⟩
    simp only [BitVec.getLsbD_and, BitVec.getLsbD_ushiftRight, getLsbD_maskB]
    by_cases hj : j < len
    · simp [hj, show j < w by omega]
    · simp [hj]

theorem blkWithBits_eq (c : Cfg) (h : IsBlk w) (x : BitVec w) {start len : Nat} (v : BitVec w)
    (hl : start + len ≤ w) :
    ∃ y, blkWithBits c x start len v = .ok y ∧
      ∀ j, y.getLsbD j = if start ≤ j ∧ j < start + len then v.getLsbD (j - start) else x.getLsbD j := by
  unfold blkWithBits
  have hlu := h.lt_usz c
  rw [addN_ok (by omega), Res.ok_bind, assertR_true hl, Res.ok_bind]
  split
  · next h0 => subst h0; exact ⟨x, rfl, fun j => by rw [if_neg (by omega)]⟩
  · next h0 =>
    rw [lowMask_ok c h (by omega), Res.ok_bind, shlB_ok (by omega), Res.ok_bind, shlB_ok (by omega)]
    refine ⟨_, rfl, fun j => ?_⟩
    simp only [BitVec.getLsbD_or, BitVec.getLsbD_and, BitVec.getLsbD_not, BitVec.getLsbD_shiftLeft,
      getLsbD_maskB]
    by_cases hw : j < w
    · by_cases h1 : j < start
      · simp [h1, hw, show ¬ (start ≤ j) by omega]
      · by_cases h2 : j < start + len
        · rw [if_pos ⟨by omega, h2⟩]
          simp [h1, hw, show j - start < w by omega, show j - start < len by omega]
        · rw [if_neg (by omega)]
          simp [h1, hw, show ¬ j - start < len by omega]
    · rw [if_neg (by omega)]
      simp [hw, BitVec.getLsbD_of_ge x j (by omega)]

/-- out-of-range fields panic in every build (the wrapped sum of a release build is excluded by
the operands being `usize`s that a caller can only supply below `2^usz`). -/
theorem blkGetBits_panic (c : Cfg) (x : BitVec w) {start len : Nat} (hl : w < start + len)
    (hs : start + len < 2 ^ c.usz) : blkGetBits c x start len = .panic := by
  unfold blkGetBits
  rw [addN_ok hs]
  simp [assertR_false (show ¬ start + len ≤ w by omega)]

theorem blkWithBits_panic (c : Cfg) (x v : BitVec w) {start len : Nat} (hl : w < start + len)
    (hs : start + len < 2 ^ c.usz) : blkWithBits c x start len v = .panic := by
  unfold blkWithBits
  rw [addN_ok hs]
  simp [assertR_false (show ¬ start + len ≤ w by omega)]

end Succinct
