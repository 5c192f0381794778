import Verif.Lemmas.Broadword
/-! `select1_raw`. -/
namespace Succinct
open Spec

theorem shr_53 {x : BitVec 64} {g : Nat → Nat} (h : Lanes x g) (h6 : g 6 < 32) : (x >>> 53).toNat = 8 * g 7 := by
  have e : lval 8 g = (g 0 + 256 * (g 1 + 256 * (g 2 + 256 * (g 3 + 256 * (g 4 + 256 * (g 5 + 256 * (g 6 + 256 * (g 7 + 256 * 0)))))))) := rfl
  rw [BitVec.toNat_ushiftRight, h.1, e, Nat.shiftRight_eq_div_pow]
  have := h.2 0; have := h.2 1; have := h.2 2; have := h.2 3; have := h.2 4; have := h.2 5
  omega

theorem psum_ind_le (P : Nat → Prop) [DecidablePred P] (n : Nat) : psum (fun i => if P i then 1 else 0) n ≤ n + 1 := by
  induction n with
  | zero => show (if P 0 then 1 else 0) ≤ 1; split <;> omega
  | succ n ih =>
    show psum _ n + (if P (n + 1) then 1 else 0) ≤ _
    split <;> omega

/-- Counting how many members of an increasing sequence are at most `r` finds where it exceeds `r`. -/
theorem psum_ind_mono {F : Nat → Nat} {r : Nat} (hF : ∀ i j, i ≤ j → F i ≤ F j) (n : Nat) :
    ∀ i ≤ n, (F i ≤ r ↔ i < psum (fun i => if F i ≤ r then 1 else 0) n) := by
  induction n with
  | zero =>
    intro i hi
    have : i = 0 := by omega
    subst this
    show _ ↔ 0 < (if F 0 ≤ r then 1 else 0)
    split <;> omega
  | succ n ih =>
    intro i hi
    have hle := psum_ind_le (fun i => F i ≤ r) n
    have hn := ih n (Nat.le_refl _)
    show _ ↔ i < psum _ n + (if F (n + 1) ≤ r then 1 else 0)
    by_cases h : F (n + 1) ≤ r
    · rw [if_pos h]
      have h1 := hF n (n + 1) (by omega)
      have h2 := hF i (n + 1) hi
      omega
    · rw [if_neg h]
      rcases Nat.lt_or_ge n i with hlt | hge
      · have : i = n + 1 := by omega
        subst this; omega
      · rw [ih i hge]; omega

/-- The lanes of a comparison with a broadcast byte, shifted down to 0 or 1 and added up. -/
theorem le8_bcast (c : Cfg) {s r : BitVec 64} {F : Nat → Nat} (hs : Lanes s F) (hr : r.toNat < 256) :
    ∃ m t, le8 c s (r * bwL8) = .ok m ∧ t = psum (fun i => if (F i % 128 ≤ r.toNat % 128 ↔ (F i < 128 ↔ r.toNat < 128)) then 1 else 0) 7 ∧
      (((m >>> 7) * bwL8) >>> 53).toNat = 8 * t ∧ (((m >>> 7) * bwL8) >>> 56).toNat = t := by
  obtain ⟨m, e, l⟩ := le8_lanes c s (r * bwL8)
  have l1 := l.congr (g := fun i => le8Byte (F i) r.toNat) (fun i hi => by rw [hs.byteOf hi, (lanes_bcast hr).byteOf hi])
  have l2 := l1.shr (k := 7) (fun i hi => by unfold le8Byte; split <;> rfl)
  have l3 := l2.congr (g := fun i => if (F i % 128 ≤ r.toNat % 128 ↔ (F i < 128 ↔ r.toNat < 128)) then 1 else 0)
    (fun i hi => by unfold le8Byte; split <;> rfl)
  have h7 := psum_ind_le (fun i => (F i % 128 ≤ r.toNat % 128 ↔ (F i < 128 ↔ r.toNat < 128))) 7
  have h6 := psum_ind_le (fun i => (F i % 128 ≤ r.toNat % 128 ↔ (F i < 128 ↔ r.toNat < 128))) 6
  have l4 := l3.mulL8 (by omega)
  exact ⟨m, _, e, rfl, shr_53 l4 (by omega), l4.top⟩

/-- The byte of `s << 8` selected by `b = 8*t`. -/
theorem prev_byte (s b : BitVec 64) {t : Nat} (ht : t ≤ 8) (hb : b.toNat = 8 * t) :
    (wrappingShr64 (s <<< 8) b &&& 0xFF).toNat = if t = 0 ∨ t = 8 then 0 else byteOf s (t - 1) := by
  unfold wrappingShr64 byteOf
  rw [BitVec.toNat_and, BitVec.toNat_ushiftRight, BitVec.toNat_shiftLeft, hb, show (0xFF : BitVec 64).toNat = 2 ^ 8 - 1 from rfl,
    Nat.and_two_pow_sub_one_eq_mod, Nat.shiftLeft_eq, Nat.shiftRight_eq_div_pow]
  have : t = 0 ∨ t = 1 ∨ t = 2 ∨ t = 3 ∨ t = 4 ∨ t = 5 ∨ t = 6 ∨ t = 7 ∨ t = 8 := by omega
  rcases this with h | h | h | h | h | h | h | h | h <;> subst h <;> simp <;> omega

/-- The byte of `x` selected by `b = 8*t`. -/
theorem this_byte (x b : BitVec 64) {t : Nat} (hb : b.toNat = 8 * t) :
    (wrappingShr64 x b &&& 0xFF).toNat = byteOf x (t % 8) := by
  unfold wrappingShr64 byteOf
  rw [BitVec.toNat_and, BitVec.toNat_ushiftRight, hb, show (0xFF : BitVec 64).toNat = 2 ^ 8 - 1 from rfl,
    Nat.and_two_pow_sub_one_eq_mod, Nat.shiftRight_eq_div_pow]
  have h1 : 8 * t % 2 ^ 32 % 64 = 8 * (t % 8) := by omega
  rw [h1, Nat.pow_mul]

/-- Spreading the bits of a byte over the lanes and counting them. -/
theorem byte_ranks (c : Cfg) {y : BitVec 64} (hy : y.toNat < 256) :
    ∃ nz, uNz8 c ((y * bwL8) &&& 0x8040201008040201) = .ok nz ∧
      Lanes ((nz >>> 7) * bwL8) (fun i => ones (natBits 8 y.toNat) (i + 1)) := by
  obtain ⟨nz, e, l⟩ := uNz8_lanes c ((y * bwL8) &&& 0x8040201008040201)
  have hp : Lanes 0x8040201008040201 (fun i => 2 ^ i) :=
    ⟨by decide, fun i hi => Nat.pow_lt_pow_right (a := 2) (n := 8) (by decide) hi⟩
  have hand := (lanes_bcast hy).and hp
  refine ⟨nz, e, ?_⟩
  have l1 := l.congr (g := fun i => if y.toNat.testBit i then 128 else 0) (fun i hi => by
    rw [hand.byteOf hi]
    have : y.toNat &&& 2 ^ i = if y.toNat.testBit i then 2 ^ i else 0 := by
      apply Nat.eq_of_testBit_eq
      intro j
      rw [Nat.testBit_and, Nat.testBit_two_pow]
      by_cases hj : i = j
      · subst hj
        cases y.toNat.testBit i <;> simp
      · rw [decide_eq_false hj, Bool.and_false]
        split
        · rw [Nat.testBit_two_pow, decide_eq_false hj]
        · exact (Nat.zero_testBit j).symm
    rw [this]
    have h2 : 2 ^ i ≠ 0 := by have := Nat.pow_pos (n := i) (by decide : 0 < 2); omega
    cases y.toNat.testBit i <;> simp)
  have l2 := l1.shr (k := 7) (fun i hi => by split <;> rfl)
  have l3 := l2.congr (g := fun i => if y.toNat.testBit i then 1 else 0) (fun i hi => by split <;> rfl)
  have h7 := psum_ind_le (fun i => y.toNat.testBit i = true) 7
  refine (l3.mulL8 (by omega)).congr ?_
  intro i
  induction i with
  | zero =>
    intro _
    rw [ones_succ _ (by simp [natBits])]
    show (if y.toNat.testBit 0 then 1 else 0) = 0 + _
    have hb : (natBits 8 y.toNat)[0]'(by simp [natBits]) = y.toNat.testBit 0 := by simp [natBits]
    rw [hb, Nat.zero_add]
    cases y.toNat.testBit 0 <;> rfl
  | succ i ih =>
    intro hi
    rw [ones_succ _ (by simpa [natBits] using hi), ← ih (by omega)]
    show _ + (if y.toNat.testBit (i + 1) then 1 else 0) = _
    have hb : (natBits 8 y.toNat)[i + 1]'(by simpa [natBits] using hi) = y.toNat.testBit (i + 1) := by simp [natBits]
    rw [hb]
    cases y.toNat.testBit (i + 1) <;> rfl

/-- One step of the search: the number of entries of an increasing table that are at most `r`. -/
theorem le8_search (c : Cfg) {s r : BitVec 64} {F : Nat → Nat} (hs : Lanes s F) (hF : ∀ i j, i ≤ j → F i ≤ F j)
    (h7 : F 7 < 128) (hr : r.toNat < 128) :
    ∃ m t, le8 c s (r * bwL8) = .ok m ∧ t ≤ 8 ∧ (∀ i < 8, (F i ≤ r.toNat ↔ i < t)) ∧
      (((m >>> 7) * bwL8) >>> 53).toNat = 8 * t ∧ (((m >>> 7) * bwL8) >>> 56).toNat = t := by
  obtain ⟨m, t, e, ht, h53, h56⟩ := le8_bcast c hs (r := r) (by omega)
  have he : psum (fun i => if (F i % 128 ≤ r.toNat % 128 ↔ (F i < 128 ↔ r.toNat < 128)) then 1 else 0) 7 =
      psum (fun i => if F i ≤ r.toNat then 1 else 0) 7 := by
    have hcong : ∀ n ≤ 7, psum (fun i => if (F i % 128 ≤ r.toNat % 128 ↔ (F i < 128 ↔ r.toNat < 128)) then 1 else 0) n =
      psum (fun i => if F i ≤ r.toNat then 1 else 0) n := by
      have hone : ∀ i ≤ 7, (if (F i % 128 ≤ r.toNat % 128 ↔ (F i < 128 ↔ r.toNat < 128)) then 1 else 0) =
          (if F i ≤ r.toNat then 1 else 0) := by
        intro i hi
        have hFi := hF i 7 hi
        have : (F i % 128 ≤ r.toNat % 128 ↔ (F i < 128 ↔ r.toNat < 128)) ↔ F i ≤ r.toNat := by
          rw [Nat.mod_eq_of_lt (by omega), Nat.mod_eq_of_lt hr]
          constructor
          · intro h; exact h.2 ⟨fun _ => hr, fun _ => by omega⟩
          · intro h; exact ⟨fun _ => ⟨fun _ => hr, fun _ => by omega⟩, fun _ => h⟩
        split <;> split <;> first | rfl | (exfalso; simp_all)
      intro n
      induction n with
      | zero => intro h; exact hone 0 h
      | succ n ih =>
        intro h
        show psum _ n + _ = psum _ n + _
        rw [ih (by omega)]
        exact congrArg _ (hone (n + 1) h)
    exact hcong 7 (Nat.le_refl _)
  rw [he] at ht
  subst ht
  exact ⟨m, _, e, psum_ind_le _ 7, fun i hi => psum_ind_mono hF 7 i (by omega), h53, h56⟩

theorem isSelect_of_ones {bits : List Bool} {k p : Nat} (h1 : ones bits p = k) (h2 : ones bits (p + 1) = k + 1) :
    IsSelect true bits k (some p) := by
  have hp : p < bits.length := by
    rcases Nat.lt_or_ge p bits.length with h | h
    · exact h
    · unfold ones at h1 h2
      rw [List.take_of_length_le (by omega)] at h1 h2
      omega
  refine ⟨?_, h1⟩
  rw [ones_succ bits hp] at h2
  rw [List.getElem?_eq_getElem hp]
  cases hb : bits[p]
  · rw [hb] at h2; simp at h2; omega
  · rfl

/-- `select1_raw` for `r < 128`. -/
theorem select1Raw_ok (c : Cfg) (x : BitVec 64) {r : Nat} (hr : r < 128) :
    ∃ q, select1Raw c r x = .ok q ∧ IsSelect true (blockBits x) r (if q = 72 then none else some q) := by
  have husz := c.le_pow_usz
  have hrn : (BitVec.ofNat 64 r).toNat = r := by rw [BitVec.toNat_ofNat, Nat.mod_eq_of_lt (by omega)]
  obtain ⟨x1, x2, y, e1, e2, e3, l⟩ := bw_sideways c x
  have h64 := bytesOnes_le x (i := 7) (by decide)
  have ls : Lanes ((y &&& 0x0F0F0F0F0F0F0F0F) * bwL8) (bytesOnes x) := l.mulL8 (show bytesOnes x 7 < 256 by omega)
  have hmono : ∀ i j, i ≤ j → bytesOnes x i ≤ bytesOnes x j := fun i j h => psum_mono _ h
  obtain ⟨m, t, f1, ht, hcmp, h53, -⟩ := le8_search c ls (r := BitVec.ofNat 64 r) hmono (by omega) (by omega)
  rw [hrn] at hcmp
  have hprev := prev_byte ((y &&& 0x0F0F0F0F0F0F0F0F) * bwL8) _ ht h53
  have hthis := this_byte x _ h53
  -- ones before byte `t`, at most `r`
  have hbase : ∃ base, (if t = 0 ∨ t = 8 then 0 else byteOf ((y &&& 0x0F0F0F0F0F0F0F0F) * bwL8) (t - 1)) = base ∧ base ≤ r ∧
      (t < 8 → base = ones (blockBits x) (8 * t)) ∧ (t = 8 → base = 0) := by
    refine ⟨_, rfl, ?_, ?_, ?_⟩
    · split
      · exact Nat.zero_le _
      · rw [ls.byteOf (by omega)]
        exact (hcmp (t - 1) (by omega)).2 (by omega)
    · intro h8
      split
      · rename_i h
        have : t = 0 := by omega
        subst this; rfl
      · rw [ls.byteOf (by omega), bytesOnes_eq x (by omega)]
        congr 1; omega
    · rintro rfl; simp
  obtain ⟨base, hbeq, hble, hb1, hb2⟩ := hbase
  rw [hbeq] at hprev
  -- the subtraction
  have hsub : ∃ lw, subB c (BitVec.ofNat 64 r) (wrappingShr64 (((y &&& 0x0F0F0F0F0F0F0F0F) * bwL8) <<< 8) (((m >>> 7) * bwL8) >>> 53) &&& 0xFF) = .ok lw ∧
      lw.toNat = r - base := by
    refine ⟨_, by unfold subB; rw [if_pos (by rw [hprev, hrn]; exact hble)], ?_⟩
    rw [BitVec.toNat_sub_of_le (by rw [BitVec.le_def, hprev, hrn]; exact hble), hprev, hrn]
  obtain ⟨lw, f2, hlw⟩ := hsub
  obtain ⟨nz, f3, lnz⟩ := byte_ranks c (y := wrappingShr64 x (((m >>> 7) * bwL8) >>> 53) &&& 0xFF)
    (by rw [hthis]; exact Nat.mod_lt _ (by decide))
  rw [hthis] at lnz
  have hq8 : ∀ k, ones (natBits 8 (byteOf x (t % 8))) k ≤ 8 := fun k => by
    have := ones_le_length (natBits 8 (byteOf x (t % 8))) k
    simpa [natBits] using this
  obtain ⟨m2, t2, f4, ht2, hcmp2, -, h56⟩ := le8_search c lnz (r := lw) (fun i j h => ones_mono _ (by omega))
    (by have := hq8 (7 + 1); omega) (by omega)
  rw [hlw] at hcmp2
  have hadd : ∃ p, addB c (((m >>> 7) * bwL8) >>> 53) (((m2 >>> 7) * bwL8) >>> 56) = .ok p ∧ p.toNat = 8 * t + t2 := by
    refine ⟨_, by unfold addB; rw [if_pos (by omega)], ?_⟩
    rw [BitVec.toNat_add, h53, h56, Nat.mod_eq_of_lt (by omega)]
  obtain ⟨p, f5, hp⟩ := hadd
  refine ⟨8 * t + t2, ?_, ?_⟩
  · unfold select1Raw
    simp only
    rw [e1, Res.ok_bind, e2, Res.ok_bind, e3, Res.ok_bind, f1, Res.ok_bind, f2, Res.ok_bind, f3, Res.ok_bind, f4, Res.ok_bind, f5,
      Res.ok_bind, hp, asUsize, Nat.mod_eq_of_lt (by omega)]
  · rcases Nat.lt_or_ge t 8 with h8 | h8
    · have hb1 := hb1 h8
      rw [Nat.mod_eq_of_lt h8] at hcmp2
      have hgt := mt (hcmp t h8).1 (Nat.lt_irrefl _)
      rw [bytesOnes_eq x h8] at hgt
      have hby := fun k (hk : k ≤ 8) => ones_byte x (i := t) (k := k) h8 hk
      have h78 := hby 8 (Nat.le_refl _)
      rw [show 8 * (t + 1) = 8 * t + 8 by omega] at hgt
      have ht27 : t2 ≤ 7 := by
        have := hcmp2 7 (by decide)
        rw [show 7 + 1 = 8 from rfl] at this
        omega
      rw [if_neg (by omega)]
      have g1 := mt (hcmp2 t2 (by omega)).1 (Nat.lt_irrefl _)
      have g2 : ones (natBits 8 (byteOf x t)) t2 ≤ r - base := by
        cases t2 with
        | zero => exact Nat.zero_le _
        | succ t2 => exact (hcmp2 t2 (by omega)).2 (by omega)
      have g3 : ones (natBits 8 (byteOf x t)) (t2 + 1) ≤ ones (natBits 8 (byteOf x t)) t2 + 1 := by
        rw [ones_succ _ (by simp [natBits]; omega)]
        cases (natBits 8 (byteOf x t))[t2]'(by simp [natBits]; omega) <;> simp
      have k1 := hby t2 (by omega)
      have k2 := hby (t2 + 1) (by omega)
      refine isSelect_of_ones ?_ ?_
      · rw [k1]; omega
      · rw [show 8 * t + t2 + 1 = 8 * t + (t2 + 1) by omega, k2]; omega
    · have h8 : t = 8 := by omega
      subst h8
      have hb2 := hb2 rfl
      have hlast := (hcmp 7 (by decide)).2 (by decide)
      have h0 := (hcmp 0 (by decide)).2 (by decide)
      have hall : ones (natBits 8 (byteOf x (8 % 8))) 8 ≤ r := by
        have e := ones_byte x (i := 0) (k := 8) (by decide) (by decide)
        rw [bytesOnes_eq x (by decide)] at h0
        rw [show 8 * 0 + 8 = 8 * (0 + 1) from rfl] at e
        rw [show 8 % 8 = 0 from rfl]
        have e0 : ones (blockBits x) (8 * 0) = 0 := rfl
        omega
      have ht2' : t2 = 8 := by
        have := hcmp2 7 (by decide)
        rw [show 7 + 1 = 8 from rfl] at this
        omega
      subst ht2'
      rw [if_pos rfl]
      rw [bytesOnes_eq x (by decide)] at hlast
      show (blockBits x).count true ≤ r
      unfold ones at hlast
      rw [List.take_of_length_le (by simp [blockBits, natBits])] at hlast
      exact hlast

/-- `select1_raw` for `192 ≤ r < 256` is 0 on every word. -/
theorem select1Raw_zero (c : Cfg) (x : BitVec 64) {r : Nat} (h1 : 192 ≤ r) (h2 : r < 256) : select1Raw c r x = .ok 0 := by
  have husz := c.le_pow_usz
  have hrn : (BitVec.ofNat 64 r).toNat = r := by rw [BitVec.toNat_ofNat, Nat.mod_eq_of_lt (by omega)]
  have hz : ∀ F : Nat → Nat, (∀ i < 8, F i ≤ 64) → psum (fun i => if (F i % 128 ≤ r % 128 ↔ (F i < 128 ↔ r < 128)) then 1 else 0) 7 = 0 := by
    intro F hF
    have hind : ∀ i < 8, (if (F i % 128 ≤ r % 128 ↔ (F i < 128 ↔ r < 128)) then 1 else 0) = 0 := by
      intro i hi
      have hFi := hF i hi
      apply if_neg
      rw [Nat.mod_eq_of_lt (by omega)]
      intro h
      have := (h.1 (by omega)).1 (by omega)
      omega
    simp only [psum]
    rw [hind 0, hind 1, hind 2, hind 3, hind 4, hind 5, hind 6, hind 7] <;> omega
  obtain ⟨x1, x2, y, e1, e2, e3, l⟩ := bw_sideways c x
  have h64 := bytesOnes_le x (i := 7) (by decide)
  have ls : Lanes ((y &&& 0x0F0F0F0F0F0F0F0F) * bwL8) (bytesOnes x) := l.mulL8 (show bytesOnes x 7 < 256 by omega)
  obtain ⟨m, t, f1, ht, h53, -⟩ := le8_bcast c ls (r := BitVec.ofNat 64 r) (by omega)
  rw [hrn, hz _ (fun i hi => bytesOnes_le x hi)] at ht
  subst ht
  have hprev := prev_byte ((y &&& 0x0F0F0F0F0F0F0F0F) * bwL8) _ (Nat.zero_le 8) h53
  have hthis := this_byte x _ h53
  have hsub : ∃ lw, subB c (BitVec.ofNat 64 r) (wrappingShr64 (((y &&& 0x0F0F0F0F0F0F0F0F) * bwL8) <<< 8) (((m >>> 7) * bwL8) >>> 53) &&& 0xFF) = .ok lw ∧
      lw.toNat = r := by
    rw [if_pos (Or.inl rfl)] at hprev
    refine ⟨_, by unfold subB; rw [if_pos (by rw [hprev]; exact Nat.zero_le _)], ?_⟩
    rw [BitVec.toNat_sub_of_le (by rw [BitVec.le_def, hprev]; exact Nat.zero_le _), hprev, hrn, Nat.sub_zero]
  obtain ⟨lw, f2, hlw⟩ := hsub
  obtain ⟨nz, f3, lnz⟩ := byte_ranks c (y := wrappingShr64 x (((m >>> 7) * bwL8) >>> 53) &&& 0xFF)
    (by rw [hthis]; exact Nat.mod_lt _ (by decide))
  obtain ⟨m2, t2, f4, ht2, -, h56⟩ := le8_bcast c lnz (r := lw) (by omega)
  rw [hlw, hz _ (fun i hi => by
    have := ones_le_length (natBits 8 (wrappingShr64 x (((m >>> 7) * bwL8) >>> 53) &&& 0xFF).toNat) (i + 1)
    have h8 : (natBits 8 (wrappingShr64 x (((m >>> 7) * bwL8) >>> 53) &&& 0xFF).toNat).length = 8 := by simp [natBits]
    omega)] at ht2
  subst ht2
  have hadd : ∃ p, addB c (((m >>> 7) * bwL8) >>> 53) (((m2 >>> 7) * bwL8) >>> 56) = .ok p ∧ p.toNat = 0 := by
    refine ⟨_, by unfold addB; rw [if_pos (by omega)], ?_⟩
    rw [BitVec.toNat_add, h53, h56]
  obtain ⟨p, f5, hp⟩ := hadd
  unfold select1Raw
  simp only
  rw [e1, Res.ok_bind, e2, Res.ok_bind, e3, Res.ok_bind, f1, Res.ok_bind, f2, Res.ok_bind, f3, Res.ok_bind, f4, Res.ok_bind, f5,
    Res.ok_bind, hp]
  rfl

theorem le8_count (c : Cfg) (s y : BitVec 64) : ∃ m t, le8 c s y = .ok m ∧ t ≤ 8 ∧
    (((m >>> 7) * bwL8) >>> 53).toNat = 8 * t ∧ (((m >>> 7) * bwL8) >>> 56).toNat = t := by
  obtain ⟨m, e, l⟩ := le8_lanes c s y
  have l2 := l.shr (k := 7) (fun i hi => by unfold le8Byte; split <;> rfl)
  have l3 := l2.congr (g := fun i => if (byteOf s i % 128 ≤ byteOf y i % 128 ↔ (byteOf s i < 128 ↔ byteOf y i < 128)) then 1 else 0)
    (fun i hi => by unfold le8Byte; split <;> rfl)
  have h7 := psum_ind_le (fun i => (byteOf s i % 128 ≤ byteOf y i % 128 ↔ (byteOf s i < 128 ↔ byteOf y i < 128))) 7
  have h6 := psum_ind_le (fun i => (byteOf s i % 128 ≤ byteOf y i % 128 ↔ (byteOf s i < 128 ↔ byteOf y i < 128))) 6
  have l4 := l3.mulL8 (by omega)
  exact ⟨m, _, e, h7, shr_53 l4 (by omega), l4.top⟩

/-- `select1_raw` never panics, and its result is at most 72. -/
theorem select1Raw_total (c : Cfg) (x : BitVec 64) {r : Nat} (hr : r < 2 ^ c.usz) : ∃ q, select1Raw c r x = .ok q ∧ q ≤ 72 := by
  rcases Nat.lt_or_ge r 128 with h | h
  · obtain ⟨q, h1, h2⟩ := select1Raw_ok c x h
    refine ⟨q, h1, ?_⟩
    by_cases h72 : q = 72
    · omega
    · rw [if_neg h72] at h2
      have := (List.getElem?_eq_some_iff.1 h2.1).1
      simp [blockBits, natBits] at this; omega
  · have husz := c.le_pow_usz
    have hu64 : 2 ^ c.usz ≤ 2 ^ 64 := Nat.pow_le_pow_right (by decide) (by unfold Cfg.usz; split <;> decide)
    have hrn : (BitVec.ofNat 64 r).toNat = r := by rw [BitVec.toNat_ofNat, Nat.mod_eq_of_lt (by omega)]
    obtain ⟨x1, x2, y, e1, e2, e3, l⟩ := bw_sideways c x
    have h64 := bytesOnes_le x (i := 7) (by decide)
    have ls : Lanes ((y &&& 0x0F0F0F0F0F0F0F0F) * bwL8) (bytesOnes x) := l.mulL8 (show bytesOnes x 7 < 256 by omega)
    obtain ⟨m, t, f1, ht, h53, -⟩ := le8_count c ((y &&& 0x0F0F0F0F0F0F0F0F) * bwL8) (BitVec.ofNat 64 r * bwL8)
    have hprev := prev_byte ((y &&& 0x0F0F0F0F0F0F0F0F) * bwL8) _ ht h53
    have hple : (wrappingShr64 (((y &&& 0x0F0F0F0F0F0F0F0F) * bwL8) <<< 8) (((m >>> 7) * bwL8) >>> 53) &&& 0xFF).toNat ≤ r := by
      rw [hprev]
      split
      · exact Nat.zero_le _
      · rw [ls.byteOf (by omega)]
        have := bytesOnes_le x (i := t - 1) (by omega)
        omega
    obtain ⟨lw, f2⟩ : ∃ lw, subB c (BitVec.ofNat 64 r) (wrappingShr64 (((y &&& 0x0F0F0F0F0F0F0F0F) * bwL8) <<< 8) (((m >>> 7) * bwL8) >>> 53) &&& 0xFF) = .ok lw :=
      ⟨_, by unfold subB; rw [if_pos (by rw [hrn]; exact hple)]⟩
    obtain ⟨nz, f3, -⟩ := byte_ranks c (y := wrappingShr64 x (((m >>> 7) * bwL8) >>> 53) &&& 0xFF)
      (by rw [this_byte x _ h53]; exact Nat.mod_lt _ (by decide))
    obtain ⟨m2, t2, f4, ht2, -, h56⟩ := le8_count c ((nz >>> 7) * bwL8) (lw * bwL8)
    have hadd : ∃ p, addB c (((m >>> 7) * bwL8) >>> 53) (((m2 >>> 7) * bwL8) >>> 56) = .ok p ∧ p.toNat = 8 * t + t2 := by
      refine ⟨_, by unfold addB; rw [if_pos (by omega)], ?_⟩
      rw [BitVec.toNat_add, h53, h56, Nat.mod_eq_of_lt (by omega)]
    obtain ⟨p, f5, hp⟩ := hadd
    refine ⟨8 * t + t2, ?_, by omega⟩
    unfold select1Raw
    simp only
    rw [e1, Res.ok_bind, e2, Res.ok_bind, e3, Res.ok_bind, f1, Res.ok_bind, f2, Res.ok_bind, f3, Res.ok_bind, f4, Res.ok_bind, f5,
      Res.ok_bind, hp, asUsize, Nat.mod_eq_of_lt (by omega)]

end Succinct
