import Verif.Lemmas.Law
/-! Default methods built from bit-level methods, and the `Vec<bool>` and primitive instances. -/
namespace Succinct
open Spec

theorem and_one_ne_zero (x : BitVec w) (hw : 0 < w) : (x &&& 1 != 0) = x.getLsbD 0 := by
  have := and_nth_ne_zero (x := x) (k := 0) hw
  simpa using this

/-- default `get_block` from `get_bit` -/
theorem dfltGetBlock_ok (h : IsBlk w) {bitLen blockLen : S → Res Nat} {getBit : S → Nat → Res Bool} {s : S}
    {n : Nat} {f : Nat → Bool} (hf : Fits c.usz w n) (hlen : bitLen s = .ok n)
    (hbl : blockLen s = .ok (blocksFor w n)) (hget : ∀ i < n, getBit s i = .ok (f i)) {pos : Nat}
    (hpos : pos < blocksFor w n) :
    ∃ b : BitVec w, dfltGetBlock c bitLen blockLen getBit s pos = .ok b ∧
      ∀ j, b.getLsbD j = (decide (j < w) && decide (pos * w + j < n) && f (pos * w + j)) := by
  have hw := h.pos
  have hw8 := h.ge
  have hlt := (lt_blocksFor hw).1 hpos
  have hf1 := hf.lt hw
  unfold dfltGetBlock
  rw [hbl, Res.ok_bind, assertR_true hpos, Res.ok_bind, mulN_ok (by omega), Res.ok_bind]
  obtain ⟨⟨r, m⟩, hrm, hr, -⟩ := forRange_inv (lo := 0) (hi := w) (s := ((0 : BitVec w), (1 : BitVec w)))
    (f := fun i (result, mask) => do
      let p ← addN c 64 (pos * w) i
      let n ← bitLen s
      let b ← (if p < n then do
          let p ← addN c 64 (pos * w) i
          getBit s p
        else .ok false)
      let result := if b then result ||| mask else result
      let mask ← shlB c mask 1
      .ok (result, mask))
    (fun i st => (∀ j, st.1.getLsbD j = (decide (j < i) && decide (j < w) && decide (pos * w + j < n) && f (pos * w + j)))
        ∧ st.2 = (1 : BitVec w) <<< i)
    (Nat.zero_le _) ⟨by simp, by simp⟩ (by
      rintro k ⟨r, m⟩ _ hk ⟨hr, hm⟩
      simp only at hr hm
      subst hm
      simp only
      rw [addN_ok (by omega), Res.ok_bind, hlen, Res.ok_bind]
      have hshl : ((1 : BitVec w) <<< k) <<< 1 = (1 : BitVec w) <<< (k + 1) := by
        rw [← BitVec.shiftLeft_add]
      have hkj : ∀ j, ¬ j = k → (decide (j < k + 1) = decide (j < k)) := by
        intro j hj; apply decide_eq_decide.2; omega
      by_cases hn : pos * w + k < n
      · rw [if_pos hn, Res.ok_bind, hget _ hn, Res.ok_bind, shlB_ok (by omega), hshl]
        refine ⟨_, rfl, fun j => ?_, rfl⟩
        simp only
        by_cases hj : j = k
        · subst hj
          cases hfj : f (pos * w + j)
          · simp [hr]
          · simp [hk, hn]
        · split
          · rw [BitVec.getLsbD_or, getLsbD_one_shl, hr, hkj j hj]; simp [hj]
          · rw [hr, hkj j hj]
      · rw [if_neg hn, Res.ok_bind, shlB_ok (by omega), hshl]
        refine ⟨_, rfl, fun j => ?_, rfl⟩
        simp only [Bool.false_eq_true, if_false]
        by_cases hj : j = k
        · subst hj; rw [hr]; simp [hn]
        · rw [hr, hkj j hj])
  rw [hrm]
  refine ⟨r, rfl, fun j => ?_⟩
  have := hr j
  simp only at this
  rw [this]
  simp

/-- default `set_block` from `set_bit` -/
theorem dfltSetBlock_ok (h : IsBlk w) {o : BitVecOps w S} {setBit : S → Nat → Bool → Res S}
    {R : S → List Bool → Prop}
    (hfits : ∀ {s bits}, R s bits → Fits c.usz w bits.length)
    (hlen : ∀ {s bits}, R s bits → o.bitLen s = .ok bits.length)
    (hbl : ∀ {s bits}, R s bits → o.blockLen s = .ok (blocksFor w bits.length))
    (hset : ∀ {s bits}, R s bits → ∀ i v, i < bits.length → ∃ s', setBit s i v = .ok s' ∧ R s' (bits.set i v))
    {s : S} {bits : List Bool} (hR : R s bits) {pos : Nat} (v : BitVec w) (hpos : pos < blocksFor w bits.length) :
    ∃ s', dfltSetBlock c o.bitLen o.blockLen setBit s pos v = .ok s' ∧
      R s' (overwrite bits (pos * w) ((blockBits v).take (bits.length - pos * w))) := by
  have hw := h.pos
  have hw8 := h.ge
  have hlt := (lt_blocksFor hw).1 hpos
  have hf := hfits hR
  have hf1 := hf.lt hw
  have hf2 := hf.2
  unfold dfltSetBlock
  rw [addN_ok (by omega), Res.ok_bind, hbl hR, Res.ok_bind]
  have hlim : (if pos + 1 = blocksFor w bits.length then do
        let n ← o.bitLen s
        lastBlockBits c w n
      else .ok w) = Res.ok (min w (bits.length - pos * w)) := by
    split
    · next he =>
      rw [hlen hR, Res.ok_bind, lastBlockBits_eq c h]
      congr 1
      have h2 : bits.length ≤ (pos + 1) * w := (blocksFor_le hw).1 (by omega)
      rw [Nat.succ_mul] at h2
      rw [show bits.length = pos * w + (bits.length - pos * w) by omega]
      by_cases hfull : bits.length - pos * w = w
      · rw [hfull, show pos * w + w = (pos + 1) * w by rw [Nat.succ_mul], Nat.mul_mod_left, if_pos rfl]; 
        rw [Nat.succ_mul]; omega
      · rw [mul_add_mod' (by omega), if_neg (by omega)]; omega
    · next he =>
      have h2 : ¬ bits.length ≤ (pos + 1) * w := by
        rw [← blocksFor_le hw]; omega
      rw [Nat.succ_mul] at h2
      congr 1; omega
  rw [hlim, Res.ok_bind]
  rw [mulNbits_ok c h (by omega), Res.ok_bind]
  obtain ⟨⟨s1, v1⟩, hrun, hR1, -⟩ := forRange_inv (lo := 0) (hi := min w (bits.length - pos * w)) (s := (s, v))
    (f := fun i (s, value) => do
      let bit := value &&& 1 != 0
      let p ← addN c 64 (pos * w) i
      let s ← setBit s p bit
      let value ← shrB c value 1
      .ok (s, value))
    (fun i st => R st.1 (overwrite bits (pos * w) ((blockBits v).take i)) ∧ st.2 = v >>> i)
    (Nat.zero_le _) ⟨by simpa [overwrite] using hR, by simp⟩ (by
      rintro k ⟨s1, v1⟩ _ hk ⟨hR1, hv1⟩
      simp only at hR1 hv1
      subst hv1
      have hle : pos * w + ((blockBits v).take k).length ≤ bits.length := by simp; omega
      have hle' : pos * w + ((blockBits v).take (k+1)).length ≤ bits.length := by simp; omega
      obtain ⟨s2, hs2, hR2⟩ := hset hR1 (pos * w + k) ((v >>> k).getLsbD 0) (by rw [length_overwrite hle]; omega)
      simp only
      rw [addN_ok (by omega), Res.ok_bind, and_one_ne_zero _ hw, hs2, Res.ok_bind, shrB_ok (by omega)]
      refine ⟨_, rfl, ?_, by simp [BitVec.shiftRight_add]⟩
      have : overwrite bits (pos * w) ((blockBits v).take (k+1)) =
          (overwrite bits (pos * w) ((blockBits v).take k)).set (pos * w + k) ((v >>> k).getLsbD 0) := by
        apply bits_ext
        · rw [length_overwrite hle', List.length_set, length_overwrite hle]
        intro i hi
        rw [length_overwrite hle'] at hi
        rw [getD_overwrite hle', getD_set _ _ _ _ (by rw [length_overwrite hle]; omega), getD_overwrite hle]
        simp only [List.length_take, length_blockBits, List.getElem?_take]
        by_cases hi2 : i = pos * w + k
        · subst hi2
          rw [if_pos (by omega), if_pos (by omega), if_pos rfl, getD_blockBits]
          simp
        · rw [if_neg hi2]
          by_cases hi3 : pos * w ≤ i ∧ i < pos * w + min k w
          · rw [if_pos (by omega), if_pos (by omega), if_pos hi3, if_pos (by omega)]
          · rw [if_neg (by omega), if_neg hi3]
      rw [this]; exact hR2)
  rw [hrun]
  refine ⟨s1, rfl, ?_⟩
  have : (blockBits v).take (min w (bits.length - pos * w)) = (blockBits v).take (bits.length - pos * w) := by
    rw [List.take_eq_take_iff]; simp; omega
  rw [← this]; exact hR1

theorem dfltSetBlock_panic (h : IsBlk w) {o : BitVecOps w S} {setBit : S → Nat → Bool → Res S}
    {R : S → List Bool → Prop}
    (hbl : ∀ {s bits}, R s bits → o.blockLen s = .ok (blocksFor w bits.length))
    (hlen : ∀ {s bits}, R s bits → o.bitLen s = .ok bits.length)
    (hset : ∀ {s bits}, R s bits → ∀ i v, bits.length ≤ i → i < 2 ^ 64 → setBit s i v = .panic)
    {s : S} {bits : List Bool} (hR : R s bits) {pos : Nat} (v : BitVec w) (hpos : blocksFor w bits.length ≤ pos)
    (hp : pos * w < 2 ^ 64) :
    dfltSetBlock c o.bitLen o.blockLen setBit s pos v = .panic := by
  have hw := h.pos
  have key : ∀ lim, 0 < lim → (do
      let start ← mulNbits c w pos
      let r ← forRange 0 lim (s, v) fun i (s, value) => do
        let bit := value &&& 1 != 0
        let p ← addN c 64 start i
        let s ← setBit s p bit
        let value ← shrB c value 1
        .ok (s, value)
      Res.ok r.1) = Res.panic := by
    intro lim hl
    rw [mulNbits_ok c h hp, Res.ok_bind]
    have h1 := (blocksFor_le hw).1 hpos
    obtain ⟨l, rfl⟩ : ∃ l, lim = l + 1 := ⟨lim - 1, by omega⟩
    simp only [forRange, Nat.sub_zero, forLoop]
    rw [addN_ok (by omega), Res.ok_bind, hset hR _ _ (by omega) (by omega)]
    rfl
  unfold dfltSetBlock
  rcases h1 : addN c c.usz pos 1 with p1 | _ | _
  · rw [Res.ok_bind, hbl hR, Res.ok_bind]
    by_cases he : p1 = blocksFor w bits.length
    · rw [if_pos he, hlen hR, Res.ok_bind, lastBlockBits_eq c h, Res.ok_bind]
      apply key
      split <;> omega
    · rw [if_neg he, Res.ok_bind]
      exact key _ hw
  · rfl
  · simp only [addN, overflow] at h1
    split at h1
    · cases h1
    · split at h1 <;> cases h1

/-! ### default `align_block` and `push_block` -/

theorem dfltAlignBlock_ok (h : IsBlk w) {bitLen : S → Res Nat} {pushBit : S → Bool → Res S}
    {R : S → List Bool → Prop} {Fit : Nat → Prop} (hmono : ∀ {m n}, Fit n → m ≤ n → Fit m)
    (hlen : ∀ {s bits}, R s bits → bitLen s = .ok bits.length)
    (hpush : ∀ {s bits}, R s bits → ∀ v, Fit (bits.length + 1) → ∃ s', pushBit s v = .ok s' ∧ R s' (bits ++ [v]))
    {s : S} {bits : List Bool} (hR : R s bits) (v : Bool) (hfit : Fit (blocksFor w bits.length * w)) :
    ∃ s', dfltAlignBlock c w bitLen pushBit s v = .ok s' ∧
      R s' (bits ++ List.replicate (blocksFor w bits.length * w - bits.length) v) := by
  have hw := h.pos
  generalize hd : blocksFor w bits.length * w - bits.length = d
  have hle := le_blocksFor_mul bits.length hw
  have hlt := blocksFor_mul_lt (n := bits.length) hw
  induction d generalizing s bits with
  | zero =>
    refine ⟨s, ?_, by simpa using hR⟩
    rw [dfltAlignBlock, hlen hR, Res.ok_bind, modNbits_eq c h, Res.ok_bind, if_neg]
    rw [show bits.length = blocksFor w bits.length * w by omega, Nat.mul_mod_left]; simp
  | succ d ih =>
    rw [dfltAlignBlock, hlen hR, Res.ok_bind, modNbits_eq c h, Res.ok_bind]
    have hne : bits.length % w ≠ 0 := by
      intro h0
      have hdvd : bits.length / w * w = bits.length := Nat.div_mul_cancel (Nat.dvd_of_mod_eq_zero h0)
      have := blocksFor_mul w (bits.length / w) hw
      rw [hdvd] at this
      rw [this] at hd
      omega
    rw [if_pos hne]
    obtain ⟨s1, hs1, hR1⟩ := hpush hR v (hmono hfit (by omega))
    have hbl : blocksFor w (bits ++ [v]).length = blocksFor w bits.length := by
      apply Nat.le_antisymm
      · rw [blocksFor_le hw]; simp; omega
      · exact blocksFor_mono (by simp)
    obtain ⟨s2, hs2, hR2⟩ := ih hR1 (by rw [hbl]; exact hfit)
      (by rw [hbl]; simp only [List.length_append, List.length_singleton]; omega)
      (by rw [hbl]; simp only [List.length_append, List.length_singleton]; omega)
      (by rw [hbl]; simp only [List.length_append, List.length_singleton]; omega)
    refine ⟨s2, by rw [hs1, Res.ok_bind, hs2], ?_⟩
    simpa [List.replicate_succ] using hR2

theorem dfltPushBlock_ok (h : IsBlk w) {alignBlock pushBit : S → Bool → Res S}
    {R : S → List Bool → Prop} {Fit : Nat → Prop} (hmono : ∀ {m n}, Fit n → m ≤ n → Fit m)
    (hpush : ∀ {s bits}, R s bits → ∀ v, Fit (bits.length + 1) → ∃ s', pushBit s v = .ok s' ∧ R s' (bits ++ [v]))
    (halign : ∀ {s bits}, R s bits → ∀ v, Fit (blocksFor w bits.length * w) →
      ∃ s', alignBlock s v = .ok s' ∧ R s' (bits ++ List.replicate (blocksFor w bits.length * w - bits.length) v))
    {s : S} {bits : List Bool} (hR : R s bits) (b : BitVec w) (hfit : Fit (blocksFor w bits.length * w + w)) :
    ∃ s', dfltPushBlock c alignBlock pushBit s b = .ok s' ∧
      R s' (bits ++ List.replicate (blocksFor w bits.length * w - bits.length) false ++ blockBits b) := by
  have hw := h.pos
  have hw8 := h.ge
  have hle := le_blocksFor_mul bits.length hw
  unfold dfltPushBlock
  obtain ⟨s0, hs0, hR0⟩ := halign hR false (hmono hfit (by omega))
  rw [hs0, Res.ok_bind]
  generalize hB : bits ++ List.replicate (blocksFor w bits.length * w - bits.length) false = B at *
  have hBl : B.length = blocksFor w bits.length * w := by rw [← hB]; simp; omega
  obtain ⟨⟨s1, v1⟩, hrun, hR1, -⟩ := forRange_inv (lo := 0) (hi := w) (s := (s0, b))
    (f := fun _ (s, value) => do
      let s ← pushBit s (value &&& 1 != 0)
      let value ← shrB c value 1
      .ok (s, value))
    (fun i st => R st.1 (B ++ (blockBits b).take i) ∧ st.2 = b >>> i)
    (Nat.zero_le _) ⟨by simpa using hR0, by simp⟩ (by
      rintro k ⟨s1, v1⟩ _ hk ⟨hR1, hv1⟩
      simp only at hR1 hv1
      subst hv1
      obtain ⟨s2, hs2, hR2⟩ := hpush hR1 ((b >>> k).getLsbD 0) (hmono hfit (by simp; omega))
      simp only
      rw [and_one_ne_zero _ hw, hs2, Res.ok_bind, shrB_ok (by omega)]
      refine ⟨_, rfl, ?_, by simp [BitVec.shiftRight_add]⟩
      have : (blockBits b).take (k + 1) = (blockBits b).take k ++ [(b >>> k).getLsbD 0] := by
        rw [List.take_add_one, getElem?_blockBits, if_pos hk]
        simp
      rw [this, ← List.append_assoc]; exact hR2)
  rw [hrun]
  refine ⟨s1, rfl, ?_⟩
  rw [List.take_of_length_le (by simp)] at hR1
  exact hR1

end Succinct
