import Verif.Lemmas.Rank
import Verif.Lemmas.IntVector
import Verif.Props.Storage
/-! `JacobsonRank`. -/
namespace Succinct
open Spec

theorem fits_of_inMemory (c : Cfg) {n x : Nat} (h : InMemory c.usz n) (hx : x ≤ n + n / 2 + 1000) : Fits c.usz 64 x := by
  have hm : blocksFor 64 x * 64 < x + 64 := blocksFor_mul_lt (by omega)
  unfold InMemory at h
  refine ⟨?_, ?_⟩
  · rcases c.usz_cases with hu | hu <;> rw [hu] at h <;> simp at h <;> omega
  · rcases c.usz_cases with hu | hu <;> rw [hu] at h ⊢ <;> simp at h <;> omega

/-- What `JacobsonRank::new` builds. -/
structure JacobsonOk (c : Cfg) (w : Nat) (S : Type) (blk : Nat → BitVec w) (m spl kl ks : Nat) (j : Jacobson S) : Prop where
  pos : 0 < spl
  size : j.largeBlockSize = w * spl
  large : IR c 64 kl j.largeBlockRanks ((List.range ((m + spl - 1) / spl)).map (fun i => prefixOnes blk (i * spl)) ++ [prefixOnes blk m])
  small : IR c 64 ks j.smallBlockRanks ((List.range m).map (fun i => prefixOnes blk i - prefixOnes blk (i / spl * spl)) ++
    [prefixOnes blk m - prefixOnes blk ((m - 1) / spl * spl)])

/-- Loop invariant of `JacobsonRank::new`. -/
structure JacobsonInv (c : Cfg) {w : Nat} (blk : Nat → BitVec w) (spl kl ks i : Nat) (l : Jacobson.Loop) : Prop where
  large : IR c 64 kl l.large ((List.range ((i + spl - 1) / spl)).map (fun i => prefixOnes blk (i * spl)))
  small : IR c 64 ks l.small ((List.range i).map (fun i => prefixOnes blk i - prefixOnes blk (i / spl * spl)))
  current : l.current = prefixOnes blk i
  last : l.last = prefixOnes blk ((i - 1) / spl * spl)
  index : l.index = i % spl

theorem excess_le (blk : Nat → BitVec w) {spl a b : Nat} (hab : a ≤ b) (hb : b ≤ a + spl) :
    prefixOnes blk b - prefixOnes blk a ≤ w * spl := by
  obtain ⟨d, rfl⟩ := Nat.exists_eq_add_of_le hab
  have h1 := prefixOnes_le blk a d
  have h2 := Nat.mul_le_mul_right w (show d ≤ spl by omega)
  rw [Nat.mul_comm spl] at h2
  omega

theorem div_facts {spl i : Nat} (h : 0 < spl) : i / spl * spl ≤ i ∧ i < i / spl * spl + spl := by
  have h1 := Nat.div_add_mod i spl
  have h2 := Nat.mod_lt i h
  rw [Nat.mul_comm] at h1
  omega

theorem ceil_of_dvd {spl i : Nat} (h : 0 < spl) (hi : i % spl = 0) : (i + spl - 1) / spl = i / spl := by
  obtain ⟨q, r, hr, h0, h1, h2⟩ := divmod_cases spl i h
  rw [h2] at hi
  rw [h1, h0, hi, show q * spl + 0 + spl - 1 = q * spl + (spl - 1) by omega, mul_add_div' (by omega)]

theorem ceil_of_not_dvd {spl i : Nat} (h : 0 < spl) (hi : i % spl ≠ 0) :
    (i + spl - 1) / spl = i / spl + 1 ∧ (i - 1) / spl = i / spl := by
  obtain ⟨q, r, hr, h0, h1, h2⟩ := divmod_cases spl i h
  rw [h2] at hi
  rw [h1, h0]
  constructor
  · rw [show q * spl + r + spl - 1 = (q + 1) * spl + (r - 1) by rw [Nat.succ_mul]; omega, mul_add_div' (by omega)]
  · rw [show q * spl + r - 1 = q * spl + (r - 1) by omega, mul_add_div' (by omega)]

theorem ofNat64_toNat {x : Nat} (h : x < 2 ^ 64) : (BitVec.ofNat 64 x).toNat = x := by
  rw [BitVec.toNat_ofNat, Nat.mod_eq_of_lt h]

section
variable {c : Cfg} {w : Nat} {S : Type} {o : BitVecOps w S} {s : S} {bits : List Bool} {blk : Nat → BitVec w}
  {spl kl ks i : Nat} {l : Jacobson.Loop}

theorem jacobson_step (hb : BlocksOf o s bits blk) (hn : bits.length + w < 2 ^ 64)
    (hpre : ∀ i < blocksFor w bits.length, prefixOnes blk i ≤ bits.length) (hspl : 0 < spl)
    (hu : spl < 2 ^ c.usz)
    (hkl : bits.length < 2 ^ kl) (hks : w * spl < 2 ^ ks)
    (hfl : Fits c.usz 64 (((blocksFor w bits.length + spl - 1) / spl + 1) * kl))
    (hfs : Fits c.usz 64 ((blocksFor w bits.length + 1) * ks))
    (hi : i < blocksFor w bits.length) (hl : JacobsonInv c blk spl kl ks i l) :
    ∃ l', Jacobson.step c o s spl i l = .ok l' ∧ JacobsonInv c blk spl kl ks (i + 1) l' := by
  have hpi := hpre i (by omega)
  have hdf := div_facts (i := i) hspl
  -- the large block entry
  have hlarge : ∃ l1, (if l.index = 0 then do
        let large ← l.large.push c (BitVec.ofNat 64 l.current)
        .ok { l with large := large, last := l.current } else Res.ok l) = .ok l1 ∧
      IR c 64 kl l1.large ((List.range ((i + 1 + spl - 1) / spl)).map (fun i => prefixOnes blk (i * spl))) ∧
      l1.small = l.small ∧ l1.current = l.current ∧ l1.index = l.index ∧ l1.last = prefixOnes blk (i / spl * spl) := by
    have hc1 : (i + 1 + spl - 1) / spl = i / spl + 1 := by
      rw [show i + 1 + spl - 1 = i + spl by omega, Nat.add_div_right _ hspl]
    by_cases h0 : l.index = 0
    · rw [if_pos h0]
      have hd0 : i % spl = 0 := by rw [← hl.index]; exact h0
      have hmul : i / spl * spl = i := by
        have := Nat.div_add_mod i spl
        rw [Nat.mul_comm, hd0] at this; omega
      have hlen : ((List.range ((i + spl - 1) / spl)).map (fun i => prefixOnes blk (i * spl))).length = i / spl := by
        rw [List.length_map, List.length_range, ceil_of_dvd hspl hd0]
      obtain ⟨s', h1, h2⟩ := hl.large.push_ok isBlk64 (BitVec.ofNat 64 l.current) (by
          rw [hlen, ← Nat.succ_mul]
          apply hfl.mono
          apply Nat.mul_le_mul_right
          have : i / spl ≤ (blocksFor w bits.length + spl - 1) / spl := Nat.div_le_div_right (by omega)
          omega)
        (by rw [hl.current, ofNat64_toNat (by omega)]; omega)
      refine ⟨{ l with large := s', last := l.current }, by rw [h1, Res.ok_bind], ?_, rfl, rfl, rfl, ?_⟩
      · rw [hc1, List.range_succ, List.map_append, List.map_singleton, hmul]
        rw [ceil_of_dvd hspl hd0, ofNat64_toNat (by rw [hl.current]; omega), hl.current] at h2
        exact h2
      · rw [hmul]; exact hl.current
    · rw [if_neg h0]
      have hd0 : i % spl ≠ 0 := by rw [← hl.index]; exact h0
      obtain ⟨e1, e2⟩ := ceil_of_not_dvd hspl hd0
      refine ⟨l, rfl, ?_, rfl, rfl, rfl, ?_⟩
      · rw [hc1, ← e1]; exact hl.large
      · rw [hl.last, e2]
  obtain ⟨l1, h1, h2, h3, h4, h5, h6⟩ := hlarge
  unfold Jacobson.step
  rw [h1, Res.ok_bind]
  have hle : l1.last ≤ l1.current := by
    rw [h6, h4, hl.current]; exact prefixOnes_mono blk hdf.1
  rw [subN_ok hle, Res.ok_bind]
  have hex : l1.current - l1.last = prefixOnes blk i - prefixOnes blk (i / spl * spl) := by rw [h4, h6, hl.current]
  obtain ⟨s', g1, g2⟩ := hl.small.push_ok isBlk64 (BitVec.ofNat 64 (l1.current - l1.last)) (by
      rw [List.length_map, List.length_range, ← Nat.succ_mul]
      apply hfs.mono
      apply Nat.mul_le_mul_right
      omega)
    (by
      rw [hex, ofNat64_toNat (by omega)]
      have := excess_le blk hdf.1 (by omega : i ≤ i / spl * spl + spl)
      omega)
  have hco := countOnes_le (blk i)
  have hmod := Nat.mod_lt i hspl
  rw [h3, g1, Res.ok_bind, hb.get i hi, Res.ok_bind, h4, hl.current, addN_ok (by omega), Res.ok_bind, h5, hl.index,
    addN_ok (by omega), Res.ok_bind]
  refine ⟨_, rfl, h2, ?_, rfl, ?_, ?_⟩
  · rw [List.range_succ, List.map_append, List.map_singleton]
    rw [hex, ofNat64_toNat (by omega)] at g2
    exact g2
  · rw [Nat.add_sub_cancel]; exact h6
  · show (if i % spl + 1 = spl then 0 else i % spl + 1) = (i + 1) % spl
    have hsum : (i + 1) % spl = (i % spl + 1) % spl := by rw [Nat.mod_add_mod]
    rw [hsum]
    split
    · rename_i he; rw [he, Nat.mod_self]
    · rename_i he; exact (Nat.mod_eq_of_lt (by omega)).symm

theorem withCapacity_ok (c : Cfg) {k n : Nat} (h1 : 1 ≤ k) (h2 : k ≤ 64) (hf : Fits c.usz 64 (n * k)) :
    ∃ s, IV.withCapacity c 64 k n = .ok s ∧ IR c 64 k s [] :=
  ivInit_ok c isBlk64 h1 h2 (.withCapacity n) hf

theorem IsCeilLg.pow_le {x n : Nat} (h : IsCeilLg x n) (hn : 0 < n) : 2 ^ (n - 1) < x := by
  rcases Nat.lt_or_ge (2 ^ (n - 1)) x with h1 | h1
  · exact h1
  · have := h.2 _ h1; omega

theorem lg_bounds {n lg w lbs : Nat} (hn : n ≤ 2 ^ 63) (hlg : IsCeilLg n lg) (hw : w ≤ 64) (hlbs : lbs < lg * lg + w) :
    lg ≤ 63 ∧ lbs + 1 ≤ 2 ^ 12 := by
  have h1 : lg ≤ 63 := hlg.2 63 hn
  have h2 := Nat.mul_le_mul h1 h1
  exact ⟨h1, by omega⟩

theorem large_bits_le {n lg lbs kl m : Nat} (h1 : 1 ≤ lg) (h63 : lg ≤ 63) (hn : n ≤ 2 ^ lg) (hlbs : lg * lg ≤ lbs) (hk : kl ≤ lg + 1)
    (hm : m ≤ n / lbs + 2) : m * kl ≤ n + 1000 := by
  have hsq : 1 ≤ lg * lg := Nat.mul_le_mul h1 h1
  have hd : n / lbs ≤ n / (lg * lg) := Nat.div_le_div_left hlbs (by omega)
  have h2 : m * kl ≤ (n / (lg * lg) + 2) * (lg + 1) := Nat.mul_le_mul (by omega) hk
  rw [Nat.add_mul] at h2
  rcases Nat.lt_or_ge lg 2 with hlt | hge
  · have : lg = 1 := by omega
    subst this
    simp at h2 hn
    omega
  · have h3 : lg + 1 ≤ lg * lg := by
      have := Nat.mul_le_mul_right lg hge
      omega
    have h4 : n / (lg * lg) * (lg + 1) ≤ n / (lg * lg) * (lg * lg) := Nat.mul_le_mul_left _ h3
    have h5 := Nat.div_mul_le_self n (lg * lg)
    omega

/-- Construction of `JacobsonRank`, where the last block may have any bits behind the end. -/
theorem jacobson_new_any {R : S → List Bool → Prop} (hw : IsBlk w) (hl : BVLaw c o R) (hbl : BVBlockRead o R)
    (hR : R s bits) (hmem : InMemory c.usz bits.length) (h2 : 2 ≤ bits.length) :
    ∃ blk lg spl kl ks, BlocksOf o s bits blk ∧
      IsCeilLg bits.length lg ∧ IsCeilDiv (lg * lg) w spl ∧ IsCeilLg (bits.length + 1) kl ∧ IsCeilLg (w * spl + 1) ks ∧
      (prefixOnes blk (blocksFor w bits.length) < 2 ^ kl → ∃ j, Jacobson.new c o s = .ok j ∧ j.bitStore = s ∧
        JacobsonOk c w S blk (blocksFor w bits.length) spl kl ks j) ∧
      (2 ^ kl ≤ prefixOnes blk (blocksFor w bits.length) → Jacobson.new c o s = .panic) := by
  have hwp := hw.pos
  have hw8 := hw.ge
  have hw64 := hw.le
  have hn63 : bits.length ≤ 2 ^ 63 := by
    unfold InMemory at hmem; split at hmem <;> omega
  have husz := c.le_pow_usz
  obtain ⟨blk, hblk⟩ := hbl.blocks hwp hR
  have hpre : ∀ i < blocksFor w bits.length, prefixOnes blk i ≤ bits.length := fun i hi => by
    rw [← hblk.ones_mul (Nat.le_of_lt ((lt_blocksFor hwp).1 hi))]
    exact ones_le_length _ _
  have hpm : prefixOnes blk (blocksFor w bits.length) ≤ bits.length + w := by
    rcases hm : blocksFor w bits.length with _ | m
    · simp [prefixOnes]
    · have h1 := hpre m (by omega)
      have h2 := countOnes_le (blk m)
      show prefixOnes blk m + countOnes (blk m) ≤ _
      omega
  obtain ⟨lg, hlg, -, hlgc⟩ := C04_ceil_lg c isBlk64 (BitVec.ofNat 64 bits.length)
  rw [ofNat64_toNat (by omega)] at hlgc
  have hlg1 : 1 ≤ lg := by
    rcases Nat.eq_zero_or_pos lg with h0 | h0
    · have := hlgc.1; rw [h0] at this; omega
    · exact h0
  have hlg63 : lg ≤ 63 := hlgc.2 63 hn63
  have hsq1 : 1 ≤ lg * lg := Nat.mul_le_mul hlg1 hlg1
  have hsq : lg * lg ≤ 63 * 63 := Nat.mul_le_mul hlg63 hlg63
  obtain ⟨spl, hspl, hsplc⟩ := C05_ceil_div_partial (w := c.usz) c (lg * lg) w hwp (by omega)
  have hsp0 : 0 < spl := by
    rcases Nat.eq_zero_or_pos spl with h0 | h0
    · have := hsplc.1; rw [h0] at this; omega
    · exact h0
  have hlbs1 : lg * lg ≤ w * spl := by rw [Nat.mul_comm w]; exact hsplc.1
  have hlbs2 : w * spl < lg * lg + w := by
    rcases Nat.lt_or_ge (w * spl) (lg * lg + w) with h | h
    · exact h
    · have := hsplc.2 (spl - 1) (by rw [Nat.sub_mul, Nat.mul_comm spl]; omega)
      omega
  have hsplw : spl ≤ w * spl := Nat.le_mul_of_pos_left _ hwp
  obtain ⟨kl, hkl, -, hklc⟩ := C04_ceil_lg c isBlk64 (BitVec.ofNat 64 (bits.length + 1))
  rw [ofNat64_toNat (by omega)] at hklc
  obtain ⟨ks, hks, -, hksc⟩ := C04_ceil_lg c (IsBlk.usz c) (BitVec.ofNat c.usz (w * spl + 1))
  rw [BitVec.toNat_ofNat, Nat.mod_eq_of_lt (by omega)] at hksc
  have hkl1 : 1 ≤ kl := by
    rcases Nat.eq_zero_or_pos kl with h0 | h0
    · have := hklc.1; rw [h0] at this; omega
    · exact h0
  have hkl64 : kl ≤ lg + 1 := hklc.2 (lg + 1) (by have := hlgc.1; rw [Nat.pow_succ]; omega)
  have hks1 : 1 ≤ ks := by
    rcases Nat.eq_zero_or_pos ks with h0 | h0
    · have := hksc.1; rw [h0] at this; omega
    · exact h0
  have hks17 : ks ≤ 17 := hksc.2 17 (by omega)
  have hks12 : w ≤ 64 → ks ≤ 12 := fun h => hksc.2 12 (by omega)
  -- capacities
  have hlcap : Fits c.usz 64 ((bits.length / (w * spl) + 1) * kl) := by
    apply fits_of_inMemory c hmem
    have := large_bits_le hlg1 hlg63 hlgc.1 hlbs1 hkl64 (show bits.length / (w * spl) + 1 ≤ bits.length / (w * spl) + 2 by omega)
    omega
  have hdw8 : bits.length / w ≤ bits.length / 8 := Nat.div_le_div_left hw8 (by omega)
  have hscap : ∀ m, m ≤ bits.length / w + 2 → Fits c.usz 64 (m * ks) := by
    intro m hm
    apply fits_of_inMemory c hmem
    by_cases h : w ≤ 64
    · have := Nat.mul_le_mul (show m ≤ bits.length / 8 + 2 by omega) (hks12 h)
      omega
    · have : bits.length / w ≤ bits.length / 65 := Nat.div_le_div_left (by omega) (by omega)
      have := Nat.mul_le_mul (show m ≤ bits.length / 65 + 2 by omega) hks17
      omega
  obtain ⟨il, hil, hilR⟩ := withCapacity_ok c hkl1 (by omega) hlcap
  obtain ⟨is, his, hisR⟩ := withCapacity_ok c hks1 (by omega) (hscap (bits.length / w + 1) (by omega))
  have hbf : blocksFor w bits.length ≤ bits.length / w + 1 := by
    rw [blocksFor_le hwp]
    have h1 := Nat.div_add_mod bits.length w
    have h2 := Nat.mod_lt bits.length hwp
    rw [Nat.mul_comm] at h1
    rw [Nat.succ_mul]
    omega
  have hlast : (blocksFor w bits.length + spl - 1) / spl + 1 ≤ bits.length / (w * spl) + 2 := by
    have h1 : (blocksFor w bits.length + spl - 1) / spl ≤ bits.length / (w * spl) + 1 := by
      rw [Nat.div_le_iff_le_mul_add_pred hsp0]
      have h2 : blocksFor w bits.length ≤ spl * (bits.length / (w * spl) + 1) := by
        rw [blocksFor_le hwp]
        have h3 := Nat.div_add_mod bits.length (w * spl)
        have h4 := Nat.mod_lt bits.length (show 0 < w * spl by omega)
        rw [show spl * (bits.length / (w * spl) + 1) * w = w * spl * (bits.length / (w * spl)) + w * spl by
          rw [Nat.mul_right_comm, Nat.mul_comm spl w, Nat.mul_succ]]
        omega
      omega
    omega
  have hfl : Fits c.usz 64 (((blocksFor w bits.length + spl - 1) / spl + 1) * kl) := by
    apply fits_of_inMemory c hmem
    have := large_bits_le hlg1 hlg63 hlgc.1 hlbs1 hkl64 hlast
    omega
  have hfs : Fits c.usz 64 ((blocksFor w bits.length + 1) * ks) := hscap _ (by omega)
  -- the loop
  have hinv0 : JacobsonInv c blk spl kl ks 0 ⟨il, is, 0, 0, 0⟩ := by
    refine ⟨?_, hisR, rfl, by simp [prefixOnes], by simp⟩
    rw [Nat.div_eq_of_lt (by omega)]; exact hilR
  obtain ⟨l, hloop, hinv⟩ := forRange_inv (f := Jacobson.step c o s spl) (JacobsonInv c blk spl kl ks) (Nat.zero_le (blocksFor w bits.length)) hinv0
    (fun i l _ hi hl => jacobson_step hblk (by omega) hpre hsp0 (by omega) (by have := hklc.1; omega)
      (by have := hksc.1; omega) hfl hfs hi hl)
  have hnew : Jacobson.new c o s = (do
      let large ← l.large.push c (BitVec.ofNat 64 l.current)
      let excess ← subN c 64 l.current l.last
      let small ← l.small.push c (BitVec.ofNat 64 excess)
      .ok ⟨s, w * spl, large, small⟩) := by
    unfold Jacobson.new
    rw [hl.bitLen hR, Res.ok_bind, hlg, Res.ok_bind, mulN_ok (by omega), Res.ok_bind, hspl, Res.ok_bind, mulN_ok (by omega),
      Res.ok_bind, divN_ok (by omega), Res.ok_bind, addN_ok (by have := Nat.div_le_self bits.length (w * spl); omega),
      Res.ok_bind, divN_ok hwp, Res.ok_bind, addN_ok (by omega), Res.ok_bind, addN_ok (by omega), Res.ok_bind, hkl,
      Res.ok_bind, addN_ok (by omega), Res.ok_bind, hks, Res.ok_bind, hil, Res.ok_bind, his, Res.ok_bind, hbl.blockLen hR,
      Res.ok_bind, hloop, Res.ok_bind]
  refine ⟨blk, lg, spl, kl, ks, hblk, hlgc, hsplc, hklc, hksc, fun hlt => ?_, fun hge => ?_⟩
  · obtain ⟨fl, hfl1, hfl2⟩ := hinv.large.push_ok isBlk64 (BitVec.ofNat 64 l.current)
      (by rw [List.length_map, List.length_range, ← Nat.succ_mul]; exact hfl)
      (by rw [hinv.current, ofNat64_toNat (by omega)]; exact hlt)
    have hdf := div_facts (i := blocksFor w bits.length - 1) hsp0
    have hle : l.last ≤ l.current := by
      rw [hinv.last, hinv.current]; exact prefixOnes_mono blk (by omega)
    have hex : l.current - l.last ≤ w * spl := by
      rw [hinv.last, hinv.current]; exact excess_le blk (by omega) (by omega)
    obtain ⟨fs, hfs1, hfs2⟩ := hinv.small.push_ok isBlk64 (BitVec.ofNat 64 (l.current - l.last))
      (by rw [List.length_map, List.length_range, ← Nat.succ_mul]; exact hfs)
      (by rw [ofNat64_toNat (by omega)]; have := hksc.1; omega)
    refine ⟨⟨s, w * spl, fl, fs⟩, ?_, rfl, ⟨hsp0, rfl, ?_, ?_⟩⟩
    · rw [hnew, hfl1, Res.ok_bind, subN_ok hle, Res.ok_bind, hfs1, Res.ok_bind]
    · rw [ofNat64_toNat (by rw [hinv.current]; omega), hinv.current] at hfl2
      exact hfl2
    · rw [ofNat64_toNat (by omega), hinv.last, hinv.current] at hfs2
      exact hfs2
  · rw [hnew, hinv.large.push_panic isBlk64 _ (by rw [hinv.current, ofNat64_toNat (by omega)]; omega)]
    rfl

/-- Construction of `JacobsonRank`. -/
theorem jacobson_new_ok {R : S → List Bool → Prop} (hw : IsBlk w) (hl : BVLaw c o R) (hbl : BVBlockRead o R)
    (hpad : BVPadLaw o R) (hR : R s bits) (hmem : InMemory c.usz bits.length) (h2 : 2 ≤ bits.length) :
    ∃ blk j lg spl kl ks, BlocksOf o s bits blk ∧ Jacobson.new c o s = .ok j ∧ j.bitStore = s ∧
      JacobsonOk c w S blk (blocksFor w bits.length) spl kl ks j ∧
      IsCeilLg bits.length lg ∧ IsCeilDiv (lg * lg) w spl ∧ IsCeilLg (bits.length + 1) kl ∧ IsCeilLg (w * spl + 1) ks := by
  obtain ⟨blk, lg, spl, kl, ks, hblk, h3, h4, h5, h6, h7, -⟩ := jacobson_new_any hw hl hbl hR hmem h2
  obtain ⟨j, hj, hs, hok⟩ := h7 (by have := hblk.prefix_le hw.pos hpad hR (Nat.le_refl _); have := h5.1; omega)
  exact ⟨blk, j, lg, spl, kl, ks, hblk, hj, hs, hok, h3, h4, h5, h6⟩

/-- Queries. -/
theorem jacobson_rank1_ok {R : S → List Bool → Prop} (hw : IsBlk w) (hl : BVLaw c o R) {j : Jacobson S}
    (hR : R j.bitStore bits) (hblk : BlocksOf o j.bitStore bits blk)
    (hj : JacobsonOk c w S blk (blocksFor w bits.length) spl kl ks j) {p : Nat} (hp : p < bits.length) :
    Jacobson.rank1 c o j p = .ok (ones bits (p + 1)) := by
  have hwp := hw.pos
  have hsp := hj.pos
  have hf := hl.fits hR
  have hlt := hf.lt hwp
  have hpw : p / w < blocksFor w bits.length := by
    rw [lt_blocksFor hwp]
    have := Nat.div_mul_le_self p w; omega
  have hdd : p / (w * spl) = p / w / spl := (Nat.div_div_eq_div_mul p w spl).symm
  have hceil : p / w / spl < (blocksFor w bits.length + spl - 1) / spl := by
    have h1 := div_facts (i := p / w) hsp
    rw [Nat.lt_iff_add_one_le, Nat.le_div_iff_mul_le hsp, Nat.succ_mul]
    omega
  obtain ⟨x, hx, hxv⟩ := hj.large.get_ok isBlk64 (i := p / w / spl) (by
    rw [List.length_append, List.length_map, List.length_range]; omega)
  obtain ⟨y, hy, hyv⟩ := hj.small.get_ok isBlk64 (i := p / w) (by
    rw [List.length_append, List.length_map, List.length_range]; omega)
  rw [List.getElem_append_left (by rw [List.length_map, List.length_range]; exact hceil), List.getElem_map, List.getElem_range] at hxv
  rw [List.getElem_append_left (by rw [List.length_map, List.length_range]; exact hpw), List.getElem_map, List.getElem_range] at hyv
  have hmono := prefixOnes_mono blk (div_facts (i := p / w) hsp).1
  have hsplit := hblk.ones_split hwp hp
  have hle := ones_le_length bits (p + 1)
  unfold Jacobson.rank1
  rw [hl.bitLen hR, Res.ok_bind, assertR_true hp, Res.ok_bind, hj.size, divN_ok (Nat.mul_pos hwp hsp), Res.ok_bind,
    addrNew_ok c hw (hf.div_lt hwp hp), Res.ok_bind, hdd, hx, Res.ok_bind]
  simp only
  rw [hy, Res.ok_bind, hblk.get _ hpw, Res.ok_bind, primRank1_ok c hw _ (Nat.mod_lt _ hwp), Res.ok_bind, hxv, hyv,
    addN_ok (by omega), Res.ok_bind, addN_ok (by omega), hsplit]
  congr 1
  omega

end

end Succinct
