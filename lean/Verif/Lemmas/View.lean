import Verif.Spec.View
import Verif.Props.Slice
import Verif.Lemmas.BitBuffer
import Verif.Lemmas.IntVector
/-! Reading and writing through slices of slices. -/
namespace Succinct
open Spec

/-- the Rust range -/
def Spec.Rng.arg (r : Rng) : RangeArg :=
  match r.lo, r.hi with
  | some a, some b => .range a b
  | none, some b => .to b
  | some a, none => .from a
  | none, none => .full

theorem Rng.within (r : Rng) (n : Nat) : r.arg.Within n (r.ends n).1 (r.ends n).2 := by
  rcases r with ⟨_ | _, _ | _⟩ <;> exact ⟨rfl, rfl⟩

def rdRun (o : BitVecOps w S) (s : S) : RdOp → Res (BvOut w)
  | .len => do .ok (.num (← o.bitLen s))
  | .bit i => do .ok (.bit (← o.getBit s i))
  | .bits p n => do .ok (.block (← o.getBits s p n))

def wrRun (o : BitVecMutOps w S) (s : S) : WrOp w → Res S
  | .bit i b => o.setBit s i b
  | .bits p n x => o.setBits s p n x

/-- `BitSlice::new` with the first range, `slice` with the others, then the call; without ranges a call on the vector itself. -/
def readThrough (c : Cfg) (o : BitVecOps w S) (d : S) (rs : List Rng) (op : RdOp) : Res (BvOut w) :=
  match rs with
  | [] => rdRun o d op
  | r :: rs => do
    let s ← flatSlice c o d r.arg (rs.map (·.arg))
    rdRun (sliceBitVec c o) s op

/-- The same with `BitSliceMut::new` and `slice_mut`. -/
def writeThrough (c : Cfg) (o : BitVecMutOps w S) (d : S) (rs : List Rng) (op : WrOp w) : Res S :=
  match rs with
  | [] => wrRun o d op
  | r :: rs => do
    let s ← flatSlice c o.toBitVecOps d r.arg (rs.map (·.arg))
    let s ← wrRun (sliceBitVecMut c o) s op
    .ok s.data

theorem foldlM_slice (c : Cfg) (L : Nat) (hL : L < 2 ^ 64) (rs : List Rng) (s : Slice S) (hs : s.start + s.len ≤ L)
    (hok : cutOk s.len rs) : (rs.map (·.arg)).foldlM (Slice.slice c) s =
      expectR ((cut s.start s.len rs).map fun p => ⟨s.data, p.1, p.2⟩) ∧
    ∀ p, cut s.start s.len rs = some p → p.1 + p.2 ≤ L := by
  induction rs generalizing s with
  | nil => exact ⟨rfl, fun p hp => by cases hp; exact hs⟩
  | cons r rs ih =>
    rw [List.map_cons, List.foldlM_cons, slice_slice_eq s (Rng.within r s.len), cut]
    split
    · next hb =>
      obtain ⟨h1, h2⟩ := hok hb
      have := ih ⟨s.data, s.start + (r.ends s.len).1, (r.ends s.len).2 - (r.ends s.len).1⟩ (by simp only; omega) h2
      rw [addN_ok (by omega)]
      exact this
    · exact ⟨rfl, fun p hp => by cases hp⟩

theorem flatSlice_cut {o : BitVecOps w S} (hw : IsBlk w) (hl : BVLaw c o R) {d : S} (hR : R d l) (r : Rng) (rs : List Rng)
    (hok : cutOk l.length (r :: rs)) : flatSlice c o d r.arg (rs.map (·.arg)) =
      expectR ((cut 0 l.length (r :: rs)).map fun p => ⟨d, p.1, p.2⟩) ∧
    ∀ p, cut 0 l.length (r :: rs) = some p → p.1 + p.2 ≤ l.length := by
  have hf := (hl.fits hR).lt hw.pos
  rw [flatSlice, slice_new_eq hl hR (Rng.within r l.length), cut]
  split
  · next hb =>
    obtain ⟨h1, h2⟩ := hok hb
    have := foldlM_slice c l.length (by omega) rs ⟨d, (r.ends l.length).1, (r.ends l.length).2 - (r.ends l.length).1⟩
      (by simp only; omega) h2
    rw [Nat.zero_add]
    exact this
  · exact ⟨rfl, fun p hp => by cases hp⟩

theorem rdRun_eq {o : BitVecOps w S} (hl : BVLaw c o R) {d : S} (hR : R d l) (op : RdOp) (hok : op.Ok w) :
    rdRun o d op = expectR (match op with
      | .len => some (.num l.length)
      | .bit i => l[i]?.map .bit
      | .bits p m => if p + m ≤ l.length then some (.block (BitVec.ofNat w (bitsVal ((l.drop p).take m)))) else none) := by
  cases op with
  | len => rw [rdRun, hl.bitLen hR]; rfl
  | bit i =>
    rw [rdRun, hl.getBit hR i hok]
    simp only
    cases l[i]? <;> rfl
  | bits p m =>
    obtain ⟨h1, h2, h3⟩ := hok
    rw [rdRun]
    simp only
    split
    · next h => rw [hl.getBits hR p m h1 h2 h]; rfl
    · next h => rw [hl.getBits_panic hR p m h2 h3 (by omega)]; rfl

theorem readThrough_eq {o : BitVecOps w S} (hw : IsBlk w) (hl : BVLaw c o R) {d : S} (hR : R d l) (rs : List Rng) (op : RdOp)
    (hrs : cutOk l.length rs) (hok : op.Ok w) : readThrough c o d rs op = expectR (readSpec w l rs op) := by
  cases rs with
  | nil =>
    rw [readThrough, rdRun_eq hl hR op hok]
    simp only [readSpec, cut, List.drop_zero, List.take_length]
    cases op <;> rfl
  | cons r rs =>
    obtain ⟨h1, h2⟩ := flatSlice_cut hw hl hR r rs hrs
    rw [readThrough, h1, readSpec]
    cases hc : cut 0 l.length (r :: rs) with
    | none => rfl
    | some p =>
      obtain ⟨a, n⟩ := p
      have hle := h2 _ hc
      simp only at hle
      have hs : sliceR R ⟨d, a, n⟩ (window l a n) := ⟨l, ⟨hR, .inr hle⟩, rfl⟩
      simp only [Option.map_some, expectR_some, Res.ok_bind]
      rw [rdRun_eq (slice_law hw hl) hs op hok, length_window (.inr hle)]
      cases op <;> rfl

theorem writeThrough_eq {o : BitVecMutOps w S} (hw : IsBlk w) (hl : BVLaw c o.toBitVecOps R) (hm : BVWriteLaw o R) {d : S}
    (hR : R d l) (rs : List Rng) (op : WrOp w) (hrs : cutOk l.length rs) (hok : op.Ok) :
    match writeSpec l rs op with
    | none => writeThrough c o d rs op = .panic
    | some l' => ∃ d', writeThrough c o d rs op = .ok d' ∧ R d' l' := by
  cases rs with
  | nil =>
    rw [writeThrough]
    simp only [writeSpec, cut, Nat.zero_add]
    cases op with
    | bit i b =>
      simp only [wrRun]
      by_cases h : i < l.length
      · rw [if_pos h]; exact hm.setBit hR i b h
      · rw [if_neg h]; exact hm.setBit_panic hR i b (by omega) hok
    | bits p n x =>
      obtain ⟨h1, h2, h3⟩ := hok
      simp only [wrRun]
      by_cases h : p + n ≤ l.length
      · rw [if_pos h]; exact hm.setBits hR p n x h1 h2 h
      · rw [if_neg h]; exact hm.setBits_panic hR p n x h2 h3 (by omega)
  | cons r rs =>
    obtain ⟨h1, h2⟩ := flatSlice_cut hw hl hR r rs hrs
    rw [writeThrough, h1, writeSpec]
    cases hc : cut 0 l.length (r :: rs) with
    | none => rfl
    | some p =>
      obtain ⟨a, n⟩ := p
      have hle := h2 _ hc
      simp only at hle
      have hs : SliceOn R ⟨d, a, n⟩ l := ⟨hR, .inr hle⟩
      simp only [Option.map_some, expectR_some, Res.ok_bind]
      cases op with
      | bit i b =>
        simp only
        by_cases h : i < n
        · obtain ⟨s', e1, -, -, e2⟩ := slice_setBit hw hl hm hs h b
          rw [if_pos h]
          exact ⟨s'.data, by show (Slice.setBit c o _ i b >>= _) = _; rw [e1]; rfl, e2.base⟩
        · rw [if_neg h]
          show (Slice.setBit c o _ i b >>= _) = _
          rw [slice_setBit_panic (by show n ≤ i; omega)]; rfl
      | bits p m x =>
        obtain ⟨h1, h2, h3⟩ := hok
        simp only
        by_cases h : p + m ≤ n
        · obtain ⟨s', e1, -, -, e2⟩ := slice_setBits hw hl hm hs h1 h2 h x
          rw [if_pos h]
          exact ⟨s'.data, by show (Slice.setBits c o _ p m x >>= _) = _; rw [e1]; rfl, e2.base⟩
        · rw [if_neg h]
          show (Slice.setBits c o _ p m x >>= _) = _
          rw [slice_setBits_panic (by show n < p + m; omega)]; rfl

theorem cut_le (a n : Nat) (rs : List Rng) (hok : cutOk n rs) (h : cut a n rs = some p) : p.1 + p.2 ≤ a + n := by
  induction rs generalizing a n with
  | nil => cases h; exact Nat.le_refl _
  | cons r rs ih =>
    rw [cut] at h
    split at h
    · next hb =>
      obtain ⟨h1, h2⟩ := hok hb
      have := ih _ _ h2 h
      omega
    · cases h

theorem writeSpec_length {op : WrOp w} (hok : cutOk l.length rs) (h : writeSpec l rs op = some l') : l'.length = l.length := by
  unfold writeSpec at h
  cases hc : cut 0 l.length rs with
  | none => rw [hc] at h; cases h
  | some p =>
    obtain ⟨a, n⟩ := p
    have hle := cut_le 0 _ _ hok hc
    rw [hc] at h
    simp only at h hle
    cases op with
    | bit i b =>
      simp only at h
      split at h
      · cases h; rw [List.length_set]
      · cases h
    | bits p m x =>
      simp only at h
      split at h
      · cases h; rw [length_overwrite (by rw [length_natBits]; omega)]
      · cases h

/-- Writing bits of an `IntVector` does not change its element width. -/
theorem iv_mut_law_width (c : Cfg) (h : IsBlk w) (k : Nat) :
    BVMutLaw c (ivBitVecMut c w) (fun s l => ivR c w s l ∧ s.elementBits = k) := by
  have hb := iv_block c h
  refine BVMutLaw.ofBlocks h ⟨⟨fun hR => hb.blockLen hR.1, fun hR => hb.getBlock hR.1⟩, fun hR => hb.getBlock_panic hR.1⟩
    (fun hR => hR.1.rep.fits) (fun hR => iv_bitLen c h hR.1)
    (fun {s bits} hR i v hi => by
      obtain ⟨b, hb, -, hR'⟩ := hR.1.rep.setBlock_ok h hi v
      refine ⟨{ s with base := b }, ?_, ⟨hR.1.pos, hR.1.le, hR'⟩, hR.2⟩
      show IV.setBlock c s i v = _
      unfold IV.setBlock
      rw [hb]; rfl)
    (fun {s bits} hR i v hi _ _ => by
      show IV.setBlock c s i v = _
      unfold IV.setBlock
      rw [hR.1.rep.setBlock_panic hi v]; rfl) rfl rfl

end Succinct
