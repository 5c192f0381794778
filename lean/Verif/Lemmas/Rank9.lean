import Verif.Lemmas.Rank
/-! `Rank9`. -/
namespace Succinct
open Spec

/-- The bit position of level-2 field `t`; field 0 is the unused top bit. -/
def l2pos (t : Nat) : Nat := if t = 0 then 63 else (t - 1) * 9

theorem level2Shift_ok (c : Cfg) {t : Nat} (ht : t < 8) : Rank9.level2Shift c t = .ok (l2pos t) := by
  obtain ⟨d, p, a⟩ := c
  have h : ∀ t < 8, ∀ d p a, Rank9.level2Shift ⟨d, p, a⟩ t = .ok (l2pos t) := by
    intro t ht d p
    have : t = 0 ∨ t = 1 ∨ t = 2 ∨ t = 3 ∨ t = 4 ∨ t = 5 ∨ t = 6 ∨ t = 7 := by omega
    rcases this with h | h | h | h | h | h | h | h <;> subst h <;> cases d <;> cases a <;> cases p <;> decide
  exact h t ht d p a

theorem l2pos_lt {t : Nat} (ht : t < 8) : l2pos t < 64 := by unfold l2pos; split <;> omega

theorem getLsbD_1FF (j : Nat) : (0x1FF : BitVec 64).getLsbD j = decide (j < 9) := by
  have : (0x1FF : BitVec 64) = maskB 64 9 := by decide
  rw [this, getLsbD_maskB]
  by_cases h : j < 9 <;> simp [h] <;> omega

/-- The value of field `t`. -/
def l2field (l : BitVec 64) (t : Nat) : BitVec 64 := (l >>> l2pos t) &&& 0x1FF

theorem level2Get_ok (c : Cfg) (l : BitVec 64) {t : Nat} (ht : t < 8) : Rank9.level2Get c l t = .ok (l2field l t) := by
  unfold Rank9.level2Get
  rw [debugAssert_true ht, Res.ok_bind, level2Shift_ok c ht, Res.ok_bind, shrB_ok (l2pos_lt ht)]
  rfl

theorem getLsbD_l2field (l : BitVec 64) (t j : Nat) : (l2field l t).getLsbD j = (l.getLsbD (l2pos t + j) && decide (j < 9)) := by
  unfold l2field
  rw [BitVec.getLsbD_and, BitVec.getLsbD_ushiftRight, getLsbD_1FF]

theorem level2Set_ok (c : Cfg) (l v : BitVec 64) {t : Nat} (ht : t < 8) : ∃ l', Rank9.level2Set c l t v = .ok l' ∧
    ∀ j < 64, l'.getLsbD j = if l2pos t ≤ j ∧ j < l2pos t + 9 then v.getLsbD (j - l2pos t) else l.getLsbD j := by
  unfold Rank9.level2Set
  rw [debugAssert_true ht, Res.ok_bind, level2Shift_ok c ht, Res.ok_bind, shlB_ok (l2pos_lt ht), Res.ok_bind,
    shlB_ok (l2pos_lt ht), Res.ok_bind]
  refine ⟨_, rfl, fun j hj => ?_⟩
  rw [BitVec.getLsbD_or, BitVec.getLsbD_and, BitVec.getLsbD_not, BitVec.getLsbD_shiftLeft, BitVec.getLsbD_shiftLeft,
    BitVec.getLsbD_and, getLsbD_1FF]
  by_cases h1 : l2pos t ≤ j
  · by_cases h2 : j < l2pos t + 9
    · rw [if_pos ⟨h1, h2⟩]
      have h3 : j - l2pos t < 9 := by omega
      have h4 : ¬ j < l2pos t := by omega
      simp [hj, h3, h4]
    · rw [if_neg (by omega)]
      have h3 : ¬ j - l2pos t < 9 := by omega
      simp [hj, h3]
  · rw [if_neg (by omega)]
    have h4 : j < l2pos t := by omega
    simp [hj, h4]

/-- Setting field `t` of the packed counters changes that field only. -/
theorem l2field_set (c : Cfg) (l v : BitVec 64) {t : Nat} (ht : t < 8) (h0 : 0 < t) (hv : v.toNat < 512) :
    ∃ l', Rank9.level2Set c l t v = .ok l' ∧ l2field l' t = v ∧ ∀ u < 8, u ≠ t → l2field l' u = l2field l u := by
  obtain ⟨l', h1, h2⟩ := level2Set_ok c l v ht
  have hpt : l2pos t = (t - 1) * 9 := by unfold l2pos; rw [if_neg (by omega)]
  refine ⟨l', h1, ?_, ?_⟩
  · apply BitVec.eq_of_getLsbD_eq
    intro j hj
    rw [getLsbD_l2field]
    by_cases hj9 : j < 9
    · rw [h2 _ (by omega), if_pos (by omega)]
      simp [hj9]
    · have : v.getLsbD j = false := by
        rw [BitVec.getLsbD]
        apply Nat.testBit_lt_two_pow
        exact Nat.lt_of_lt_of_le hv (Nat.pow_le_pow_right (n := 2) (by decide) (show 9 ≤ j by omega))
      rw [this]; simp [hj9]
  · intro u hu hne
    apply BitVec.eq_of_getLsbD_eq
    intro j hj
    rw [getLsbD_l2field, getLsbD_l2field]
    by_cases hj9 : j < 9
    · by_cases h64 : l2pos u + j < 64
      · rw [h2 _ h64, if_neg]
        rw [hpt]
        unfold l2pos
        split <;> omega
      · rw [BitVec.getLsbD_of_ge _ _ (by omega), BitVec.getLsbD_of_ge _ _ (by omega)]
    · simp [hj9]

/-- What a cell must contain once the counts of all words before `i` are stored. -/
structure CellOk (blk : Nat → BitVec 64) (i q : Nat) (cell : Rank9Cell) : Prop where
  level1 : cell.level1 = prefixOnes blk (8 * q)
  level2 : ∀ t < 8, 8 * q + t < i → (l2field cell.level2 t).toNat = prefixOnes blk (8 * q + t) - prefixOnes blk (8 * q)
  rest : ∀ t < 8, i ≤ 8 * q + t → l2field cell.level2 t = 0

structure Rank9Pre (blk : Nat → BitVec 64) (i : Nat) (l : Rank9.Loop) : Prop where
  len : l.result.length = (i + 7) / 8
  cells : ∀ q cell, l.result[q]? = some cell → CellOk blk i q cell
  l1 : l.level1Count = prefixOnes blk i
  l2 : l.level2Count = prefixOnes blk i - prefixOnes blk ((i - 1) / 8 * 8)

theorem storeCounts_ok (c : Cfg) {blk : Nat → BitVec 64} {l : Rank9.Loop} (h : Rank9Pre blk i l) :
    ∃ l', Rank9.storeCounts c i l = .ok l' ∧ l'.result.length = i / 8 + 1 ∧
      (∀ q cell, l'.result[q]? = some cell → CellOk blk (i + 1) q cell) ∧
      l'.level1Count = prefixOnes blk i ∧ l'.level2Count = prefixOnes blk i - prefixOnes blk (i / 8 * 8) := by
  have hlen := h.len
  unfold Rank9.storeCounts
  by_cases h0 : i % 8 = 0
  · simp only [h0, if_true]
    refine ⟨_, rfl, ?_, ?_, h.l1, ?_⟩
    · show (l.result ++ _).length = _
      rw [List.length_append, hlen]; simp; omega
    · intro q cell hq
      rw [List.getElem?_append] at hq
      split at hq
      · rename_i hlt
        have hc := h.cells q cell hq
        exact ⟨hc.level1, fun t ht hti => hc.level2 t ht (by omega), fun t ht hti => hc.rest t ht (by omega)⟩
      · rename_i hlt
        have hq8 : q = (i + 7) / 8 := by
          rcases Nat.lt_or_ge (q - l.result.length) 1 with h1 | h1
          · omega
          · rw [List.getElem?_eq_none (by simpa using h1)] at hq; cases hq
        rw [show q - l.result.length = 0 by omega] at hq
        have hcell : (⟨l.level1Count, 0⟩ : Rank9Cell) = cell := by simpa using hq
        subst hcell
        have hi8 : 8 * q = i := by omega
        refine ⟨by rw [hi8]; exact h.l1, fun t ht hti => ?_, fun t ht hti => by simp [l2field]⟩
        have ht0 : t = 0 := by omega
        subst ht0
        simp [l2field]
    · show 0 = _
      have : i / 8 * 8 = i := by omega
      rw [this]; omega
  · simp only [h0, if_false]
    have hi8 : (i + 7) / 8 = i / 8 + 1 := by omega
    have hb : i / 8 < l.result.length := by omega
    have hdf : i / 8 * 8 ≤ i := by omega
    have h18 : (i - 1) / 8 = i / 8 := by omega
    have hl2 := h.l2
    rw [h18] at hl2
    have hbound : l.level2Count < 512 := by
      rw [hl2]
      have := prefixOnes_le blk (i / 8 * 8) (i % 8)
      rw [show i / 8 * 8 + i % 8 = i by omega] at this
      omega
    have hv : (BitVec.ofNat 64 l.level2Count).toNat = l.level2Count := by
      rw [BitVec.toNat_ofNat, Nat.mod_eq_of_lt (by omega)]
    obtain ⟨l2, e1, e2, e3⟩ := l2field_set c (l.result[i / 8]).level2 (BitVec.ofNat 64 l.level2Count) (t := i % 8)
      (by omega) (by omega) (by omega)
    unfold vecGet vecSet
    rw [List.getElem?_eq_getElem hb, expectR_some, Res.ok_bind, e1, Res.ok_bind, if_pos hb, Res.ok_bind]
    refine ⟨_, rfl, ?_, ?_, h.l1, hl2⟩
    · show (l.result.set _ _).length = _
      rw [List.length_set]; omega
    · intro q cell hq
      rw [List.getElem?_set] at hq
      split at hq
      · rename_i hqe
        have hcell := Option.some.inj hq
        subst hcell
        have hc := h.cells (i / 8) _ (List.getElem?_eq_getElem hb)
        rw [← hqe]
        refine ⟨hc.level1, fun t ht hti => ?_, fun t ht hti => ?_⟩
        rotate_left
        · show l2field l2 _ = _
          rw [e3 t ht (by omega)]
          exact hc.rest t ht (by omega)
        by_cases hte : t = i % 8
        · subst hte
          show (l2field l2 _).toNat = _
          rw [e2, hv, hl2, show 8 * (i / 8) + i % 8 = i by omega, Nat.mul_comm]
        · show (l2field l2 _).toNat = _
          rw [e3 t ht hte]
          exact hc.level2 t ht (by omega)
      · rename_i hqe
        have hc := h.cells q cell hq
        have hqlt : q < l.result.length := by
          rcases Nat.lt_or_ge q l.result.length with h1 | h1
          · exact h1
          · rw [List.getElem?_eq_none h1] at hq; cases hq
        exact ⟨hc.level1, fun t ht hti => hc.level2 t ht (by omega), fun t ht hti => hc.rest t ht (by omega)⟩

section
variable {c : Cfg} {S : Type} {o : BitVecOps 64 S} {s : S} {bits : List Bool} {blk : Nat → BitVec 64}

theorem rank9_step (hb : BlocksOf o s bits blk) (hm : blocksFor 64 bits.length * 64 < 2 ^ 64)
    (hi : i < blocksFor 64 bits.length) (h : Rank9Pre blk i l) :
    ∃ l', Rank9.step c o s i l = .ok l' ∧ Rank9Pre blk (i + 1) l' := by
  obtain ⟨l1, h1, h2, h3, h4, h5⟩ := storeCounts_ok c h
  have hco := countOnes_le (blk i)
  have hpi := prefixOnes_le blk 0 i
  rw [Nat.zero_add] at hpi
  have h00 : prefixOnes blk 0 = 0 := rfl
  have hmono := prefixOnes_mono blk (show i / 8 * 8 ≤ i by omega)
  unfold Rank9.step
  rw [h1, Res.ok_bind, hb.get i hi, Res.ok_bind]
  simp only
  rw [h4, addN_ok (by omega), Res.ok_bind, h5, addN_ok (by omega), Res.ok_bind]
  refine ⟨_, rfl, ?_, h3, rfl, ?_⟩
  · show l1.result.length = _
    omega
  · show prefixOnes blk i - _ + countOnes (blk i) = prefixOnes blk i + countOnes (blk i) - _
    rw [Nat.add_sub_cancel]; omega

/-- What `Rank9::new` builds. -/
structure Rank9Ok (blk : Nat → BitVec 64) (m : Nat) (r : Rank9 S) : Prop where
  len : r.counts.length = m / 8 + 1
  cells : ∀ q cell, r.counts[q]? = some cell → CellOk blk (m + 1) q cell

theorem rank9_new_ok {R : S → List Bool → Prop} (hbl : BVBlockRead o R) (hR : R s bits) (hf : Fits c.usz 64 bits.length)
    (hu : blocksFor 64 bits.length + 8 < 2 ^ c.usz) :
    ∃ blk r, BlocksOf o s bits blk ∧ Rank9.new c o s = .ok r ∧ r.bitStore = s ∧ Rank9Ok blk (blocksFor 64 bits.length) r := by
  obtain ⟨blk, hblk⟩ := hbl.blocks (by omega) hR
  have hm := hf.1
  obtain ⟨l, h1, h2⟩ := forRange_inv (f := Rank9.step c o s) (Rank9Pre blk) (Nat.zero_le (blocksFor 64 bits.length))
    (s := Rank9.Loop.mk [] 0 0) ⟨rfl, fun q cell hq => by simp at hq, rfl, by simp [prefixOnes]⟩
    (fun i l _ hi hl => rank9_step hblk (by omega) hi hl)
  obtain ⟨l', g1, g2, g3, -, -⟩ := storeCounts_ok c h2
  refine ⟨blk, ⟨s, l'.result⟩, hblk, ?_, rfl, g2, g3⟩
  unfold Rank9.new ceilDiv
  rw [hbl.blockLen hR, Res.ok_bind, addN_ok hu, Res.ok_bind, subN_ok (by omega), Res.ok_bind, divN_ok (by omega),
    Res.ok_bind, addN_ok (by omega), Res.ok_bind, Res.ok_bind, h1, Res.ok_bind, Res.ok_bind, g1, Res.ok_bind]

theorem rank9_rank1_ok {r : Rank9 S} (hf : Fits c.usz 64 bits.length) (hblk : BlocksOf o r.bitStore bits blk)
    (hr : Rank9Ok blk (blocksFor 64 bits.length) r) {p : Nat} (hp : p < bits.length) :
    Rank9.rank1 c o r p = .ok (ones bits (p + 1)) := by
  have hlt := hf.lt (by omega : 0 < 64)
  have hpw : p / 64 < blocksFor 64 bits.length := by rw [lt_blocksFor (by omega)]; omega
  have hu := hf.2
  have hbb : p / 512 = p / 64 / 8 := by omega
  have hlen := hr.len
  have hq : p / 64 / 8 < r.counts.length := by omega
  have hc := hr.cells _ _ (List.getElem?_eq_getElem hq)
  have hl1 := hc.level1
  have hl2 := hc.level2 (p / 64 % 8) (by omega) (by omega)
  rw [show 8 * (p / 64 / 8) + p / 64 % 8 = p / 64 by omega] at hl2
  have hmono := prefixOnes_mono blk (show 8 * (p / 64 / 8) ≤ p / 64 by omega)
  have hsplit := hblk.ones_split (by omega) hp
  have hle := ones_le_length bits (p + 1)
  unfold Rank9.rank1 toUsize vecGet
  rw [if_pos (by omega), expectR_some, Res.ok_bind, if_pos (by omega), expectR_some, Res.ok_bind, hbb,
    List.getElem?_eq_getElem hq, expectR_some, Res.ok_bind,
    level2Get_ok c _ (by omega), Res.ok_bind, hblk.get _ hpw, Res.ok_bind, primRank1_ok c isBlk64 _ (by omega), Res.ok_bind,
    hl1, hl2, addN_ok (by omega), Res.ok_bind, addN_ok (by omega), hsplit]
  congr 1
  omega

end

end Succinct
