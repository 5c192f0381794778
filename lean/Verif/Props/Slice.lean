import Verif.Lemmas.Slice
import Verif.Props.BitVector
/-! Properties C32–C35 (bit slices). -/
namespace Succinct
open Spec

/-- The start and end of a range argument within `0..n`. -/
def RangeArg.Within (r : RangeArg) (n a b : Nat) : Prop :=
  match r with
  | .range x y => a = x ∧ b = y
  | .to y => a = 0 ∧ b = y
  | .from x => a = x ∧ b = n
  | .full => a = 0 ∧ b = n

theorem RangeArg.within_intoRange (r : RangeArg) (n : Nat) : r.Within n (r.intoRange 0 n).1 (r.intoRange 0 n).2 := by
  cases r <;> exact ⟨rfl, rfl⟩

theorem RangeArg.Within.eq {r : RangeArg} (h : r.Within n a b) : r.intoRange 0 n = (a, b) := by
  cases r <;> obtain ⟨rfl, rfl⟩ := h <;> rfl

section
variable {S : Type} {w : Nat} {c : Cfg} {o : BitVecOps w S} {R : S → List Bool → Prop}

theorem slice_new_eq (hl : BVLaw c o R) {d : S} {B : List Bool} (hR : R d B) {r : RangeArg} (hr : r.Within B.length a b) :
    Slice.new o d r = if b ≤ B.length then .ok ⟨d, a, b - a⟩ else .panic := by
  unfold Slice.new
  rw [hl.bitLen hR, Res.ok_bind, hr.eq]
  simp only [Res.ok_bind]
  split
  · rename_i hb; rw [assertR_true hb]; rfl
  · rename_i hb; rw [assertR_false hb]; rfl

theorem slice_new_on (hl : BVLaw c o R) {d : S} {B : List Bool} (hR : R d B) {r : RangeArg} (hr : r.Within B.length a b)
    (hb : b ≤ B.length) : Slice.new o d r = .ok ⟨d, a, b - a⟩ ∧ SliceOn R ⟨d, a, b - a⟩ B :=
  ⟨by rw [slice_new_eq hl hR hr, if_pos hb], hR, by show b - a = 0 ∨ a + (b - a) ≤ B.length; omega⟩

/-- C32. Slicing a lawful base by any of the four range forms. Within the slice, bit `i` is base bit
`a+i` and a span read is the base's span read at the shifted position; everything at or past the length of
the slice panics, whatever the base holds there. -/
theorem C32_window (hw : IsBlk w) (hl : BVLaw c o R) {d : S} {B : List Bool} (hR : R d B) {r : RangeArg}
    (hr : r.Within B.length a b) (hab : a ≤ b) (hb : b ≤ B.length) :
    ∃ s, Slice.new o d r = .ok s ∧ (sliceBitVec c o).bitLen s = .ok (b - a) ∧
      (∀ i < b - a, (sliceBitVec c o).getBit s i = o.getBit d (a + i) ∧
        (sliceBitVec c o).getBit s i = expectR B[a + i]?) ∧
      (∀ i, b - a ≤ i → (sliceBitVec c o).getBit s i = .panic) ∧
      (∀ p n, p + n ≤ b - a → (sliceBitVec c o).getBits s p n = o.getBits d (a + p) n) ∧
      (∀ p n, b - a < p + n → (sliceBitVec c o).getBits s p n = .panic) := by
  obtain ⟨h1, h2⟩ := slice_new_on hl hR hr hb
  have hf := (hl.fits hR).lt hw.pos
  refine ⟨_, h1, rfl, ?_, ?_, ?_, fun p n hp => slice_getBits_panic hp⟩
  · intro i hi
    have e := slice_getBit hw hl h2 i
    rw [getElem?_window, if_pos (show i < b - a from hi)] at e
    exact ⟨by rw [hl.getBit hR _ (by omega)]; exact e, e⟩
  · intro i hi
    have e := slice_getBit hw hl h2 i
    rw [getElem?_window, if_neg (show ¬ i < b - a by omega)] at e
    exact e
  · intro p n hp
    show Slice.getBits c o _ p n = _
    unfold Slice.getBits checkedAdd
    rw [if_pos (by omega), expectR_some, Res.ok_bind, assertR_true (show p + n ≤ b - a from hp), Res.ok_bind,
      addN_ok (show a + p < 2 ^ 64 by omega)]
    rfl

/-- C32, rejection: a range whose end lies beyond the base panics; a reversed range is an empty slice. -/
theorem C32_new_out_of_bounds (hl : BVLaw c o R) {d : S} {B : List Bool} (hR : R d B) {r : RangeArg}
    (hr : r.Within B.length a b) :
    (B.length < b → Slice.new o d r = .panic) ∧
    (b ≤ B.length → b ≤ a → Slice.new o d r = .ok ⟨d, a, 0⟩) := by
  rw [slice_new_eq hl hR hr]
  constructor
  · intro hb; rw [if_neg (by omega)]
  · intro hb hab; rw [if_pos hb, Nat.sub_eq_zero_of_le hab]

/-- C32, as a law: slices of lawful bit vectors are lawful bit vectors. Applied repeatedly this covers
slices of slices of slices …. -/
theorem C32_lawful (hw : IsBlk w) (hl : BVLaw c o R) : BVLaw c (sliceBitVec c o) (sliceR R) := slice_law hw hl

end

/-- A `BitVector` sliced by `3..11`: an inner bit and span, and reads past the window. -/
example (d a : Bool) : let c : Cfg := ⟨d, .p64, a⟩
    let v : VB 8 := ⟨16, [0xB8#8, 0x05#8]⟩
    ∃ s, Slice.new (bvBitVec c 8) v (.range 3 11) = .ok s ∧
      (sliceBitVec c (bvBitVec c 8)).getBits s 1 6 = .ok 0x1B#8 ∧
      (sliceBitVec c (bvBitVec c 8)).getBit s 8 = .panic ∧ (bvBitVec c 8).getBit v 11 = .ok false := by
  refine ⟨⟨⟨16, [0xB8#8, 0x05#8]⟩, 3, 8⟩, ?_⟩
  cases d <;> cases a <;> decide

section
variable {S : Type} {w : Nat} {c : Cfg} {o : BitVecMutOps w S} {R : S → List Bool → Prop}

/-- C33. Writing through a mutable slice: the base afterwards holds the old bits with exactly the
addressed ones replaced, so nothing outside the window `a..b` changes. -/
theorem C33_write (hw : IsBlk w) (hl : BVLaw c o.toBitVecOps R) (hm : BVMutLaw c o R) {d : S} {B : List Bool} (hR : R d B)
    {r : RangeArg} (hr : r.Within B.length a b) (hab : a ≤ b) (hb : b ≤ B.length) :
    ∃ s, Slice.new o.toBitVecOps d r = .ok s ∧
      (∀ i v, i < b - a → ∃ d', (sliceBitVecMut c o).setBit s i v = .ok ⟨d', a, b - a⟩ ∧ R d' (B.set (a + i) v)) ∧
      (∀ p n (v : BitVec w), 1 ≤ n → n ≤ w → p + n ≤ b - a →
        ∃ d' B', (sliceBitVecMut c o).setBits s p n v = .ok ⟨d', a, b - a⟩ ∧ R d' B' ∧ B'.length = B.length ∧
          (∀ j, j < a + p ∨ a + p + n ≤ j → B'[j]? = B[j]?) ∧
          (∀ j < n, B'[a + p + j]? = some (v.toNat.testBit j))) ∧
      (∀ i v, b - a ≤ i → (sliceBitVecMut c o).setBit s i v = .panic) ∧
      (∀ p n v, b - a < p + n → (sliceBitVecMut c o).setBits s p n v = .panic) := by
  obtain ⟨h1, h2⟩ := slice_new_on hl hR hr hb
  refine ⟨_, h1, ?_, ?_, fun i v hi => slice_setBit_panic hi v, fun p n v hp => slice_setBits_panic hp v⟩
  · intro i v hi
    obtain ⟨⟨d', a', n'⟩, e1, e2, e3, e4⟩ := slice_setBit hw hl hm.write h2 (show i < b - a from hi) v
    obtain rfl : a' = a := e2
    obtain rfl : n' = b - a' := e3
    exact ⟨d', e1, e4.base⟩
  · intro p n v h1n hn hp
    obtain ⟨⟨d', a', n'⟩, e1, e2, e3, e4⟩ := slice_setBits hw hl hm.write h2 h1n hn (show p + n ≤ b - a from hp) v
    obtain rfl : a' = a := e2
    obtain rfl : n' = b - a' := e3
    have hlen : a' + p + (natBits n v.toNat).length ≤ B.length := by rw [length_natBits]; omega
    refine ⟨d', _, e1, e4.base, length_overwrite hlen, ?_, ?_⟩
    · intro j hj
      show (overwrite B (a' + p) _)[j]? = _
      rw [getElem?_overwrite hlen, if_neg]
      rw [length_natBits]; omega
    · intro j hj
      show (overwrite B (a' + p) _)[_]? = _
      rw [getElem?_overwrite hlen, if_pos (by rw [length_natBits]; omega), show a' + p + j - (a' + p) = j by omega,
        getElem?_natBits, if_pos hj]

/-- C33, as a law: mutable slices of writable bit vectors are writable, at any nesting depth. -/
theorem C33_lawful (hw : IsBlk w) (hl : BVLaw c o.toBitVecOps R) (hm : BVWriteLaw o R) :
    BVWriteLaw (sliceBitVecMut c o) (sliceR R) := slice_write_law hw hl hm

end

example (d a : Bool) : let c : Cfg := ⟨d, .p64, a⟩
    let v : VB 8 := ⟨16, [0xFF#8, 0xFF#8]⟩
    ∃ s, Slice.new (bvBitVec c 8) v (.range 3 13) = .ok s ∧
      (sliceBitVecMut c (bvBitVecMut c 8)).setBits s 2 6 0#8 = .ok ⟨⟨16, [0x1F#8, 0xF8#8]⟩, 3, 10⟩ := by
  refine ⟨⟨⟨16, [0xFF#8, 0xFF#8]⟩, 3, 10⟩, ?_⟩
  cases d <;> cases a <;> decide

/-! ### Composition -/

section
variable {S : Type} {w : Nat} {c : Cfg} {o : BitVecOps w S} {R : S → List Bool → Prop}

theorem slice_slice_eq (s : Slice S) {r : RangeArg} (hr : r.Within s.len a b) : Slice.slice c s r =
    if b ≤ s.len then (addN c 64 s.start a >>= fun st => .ok ⟨s.data, st, b - a⟩) else .panic := by
  unfold Slice.slice
  rw [hr.eq]
  simp only
  split
  · rename_i hb; rw [assertR_true hb]; rfl
  · rename_i hb; rw [assertR_false hb]; rfl

/-- C34. Slicing the slice `x..y` of a base by `a..b` (in any range form) gives the same struct as slicing
the base by `x+a..x+b`. -/
theorem C34_flatten (hw : IsBlk w) (hl : BVLaw c o R) {d : S} {B : List Bool} (hR : R d B)
    (hxy : x ≤ y) (hy : y ≤ B.length) {r : RangeArg} (hr : r.Within (y - x) a b) (hab : a ≤ b) (hb : b ≤ y - x) :
    (Slice.new o d (.range x y) >>= fun s => Slice.slice c s r) = Slice.new o d (.range (x + a) (x + b)) := by
  have hf := (hl.fits hR).lt hw.pos
  rw [slice_new_eq hl hR (r := .range x y) ⟨rfl, rfl⟩, if_pos hy, slice_new_eq hl hR (r := .range (x + a) (x + b)) ⟨rfl, rfl⟩,
    if_pos (by omega), Res.ok_bind, slice_slice_eq _ (show r.Within (Slice.mk d x (y - x)).len a b from hr), if_pos hb,
    addN_ok (by show x + a < _; omega), Res.ok_bind, show x + b - (x + a) = b - a by omega]

/-- C34, the four range forms: an omitted start is 0, an omitted end is the length. -/
theorem C34_range_forms (s : Slice S) (d : S) (hn : o.bitLen d = .ok n) (a b : Nat) :
    Slice.new o d (.to b) = Slice.new o d (.range 0 b) ∧ Slice.new o d (.from a) = Slice.new o d (.range a n) ∧
    Slice.new o d .full = Slice.new o d (.range 0 n) ∧
    Slice.slice c s (.to b) = Slice.slice c s (.range 0 b) ∧ Slice.slice c s (.from a) = Slice.slice c s (.range a s.len) ∧
    Slice.slice c s .full = Slice.slice c s (.range 0 s.len) := by
  refine ⟨?_, ?_, ?_, rfl, rfl, rfl⟩ <;> (unfold Slice.new; rw [hn]; rfl)

/-- Repeated `slice` calls, starting with `new`. -/
def flatSlice (c : Cfg) (o : BitVecOps w S) (d : S) (r : RangeArg) (rs : List RangeArg) : Res (Slice S) := do
  let s ← Slice.new o d r
  rs.foldlM (Slice.slice c) s

/-- Repeated `BitSlice::new`, each layer borrowing the one before: the ranges used, the type of the
outermost slice, its bit-vector operations, and the slice. -/
inductive NestedSlice (c : Cfg) {w : Nat} {S : Type} (o : BitVecOps w S) (d : S) :
    List RangeArg → (T : Type) → BitVecOps w T → T → Prop
  | base : NestedSlice c o d [] S o d
  | layer {rs T o' t r t'} : NestedSlice c o d rs T o' t → Slice.new o' t r = .ok t' →
      NestedSlice c o d (rs ++ [r]) (Slice T) (sliceBitVec c o') t'

theorem NestedSlice.lawful (hw : IsBlk w) (hl : BVLaw c o R) {d : S} {B : List Bool} (hR : R d B)
    (h : NestedSlice c o d rs T o' t) : ∃ (R' : T → List Bool → Prop) (bits : List Bool), BVLaw c o' R' ∧ R' t bits ∧
      ∀ r rs', rs = r :: rs' → ∀ s, flatSlice c o d r rs' = .ok s → sliceR R s bits := by
  induction h with
  | base => exact ⟨R, B, hl, hR, fun r rs' h => by simp at h⟩
  | @layer rs T o' t r t' hn hnew ih =>
    obtain ⟨R', bits, hl', hR', ih⟩ := ih
    have hwi := r.within_intoRange bits.length
    rw [slice_new_eq hl' hR' hwi] at hnew
    generalize (r.intoRange 0 bits.length).1 = a at hwi hnew
    generalize (r.intoRange 0 bits.length).2 = b at hwi hnew
    by_cases hb : b ≤ bits.length
    rotate_left
    · rw [if_neg hb] at hnew; simp at hnew
    rw [if_pos hb] at hnew
    have ht' : t' = ⟨t, a, b - a⟩ := (Res.ok.inj hnew).symm
    subst ht'
    have hon : SliceOn R' ⟨t, a, b - a⟩ bits := ⟨hR', by show b - a = 0 ∨ a + (b - a) ≤ _; omega⟩
    refine ⟨sliceR R', window bits a (b - a), slice_law hw hl', ⟨bits, hon, rfl⟩, ?_⟩
    intro r0 rs' hrs s hs
    rcases rs with _ | ⟨r1, rs1⟩
    · -- the first layer: both constructions are the same `new`
      obtain ⟨rfl, rfl⟩ : r = r0 ∧ rs' = [] := by simpa using hrs
      generalize hg : ([] : List RangeArg) = l at hn
      cases hn with
      | layer => simp at hg
      | base =>
      unfold flatSlice at hs
      rw [slice_new_eq hl hR (r.within_intoRange B.length)] at hs
      split at hs
      rotate_left
      · simp at hs
      have hlen : bits.length = B.length := by
        have h1 := hl'.bitLen hR'
        rw [hl.bitLen hR] at h1
        exact (Res.ok.inj h1).symm
      have hbits : bits = B := by
        apply List.ext_getElem?
        intro i
        by_cases hi : i < B.length
        · have hf := (hl.fits hR).lt hw.pos
          have h1 := hl'.getBit hR' i (by omega)
          rw [hl.getBit hR i (by omega)] at h1
          rw [List.getElem?_eq_getElem hi, List.getElem?_eq_getElem (by omega)] at h1 ⊢
          rw [expectR_some, expectR_some] at h1
          rw [Res.ok.inj h1]
        · rw [List.getElem?_eq_none (by omega), List.getElem?_eq_none (by omega)]
      subst hbits
      have hsv : s = ⟨d, a, b - a⟩ := by
        have h2 := hwi.eq
        rw [h2] at hs
        exact (Res.ok.inj hs).symm
      subst hsv
      exact ⟨bits, ⟨hR, hon.inside⟩, rfl⟩
    · obtain ⟨rfl, rfl⟩ : r1 = r0 ∧ rs' = rs1 ++ [r] := by
        simp only [List.cons_append, List.cons.injEq] at hrs
        exact ⟨hrs.1, hrs.2.symm⟩
      unfold flatSlice at hs
      obtain ⟨s0, hd, hs⟩ := Res.of_bind_ok hs
      rw [List.foldlM_append] at hs
      obtain ⟨s1, hf, hs⟩ := Res.of_bind_ok hs
      obtain ⟨B1, hon1, hb1⟩ := ih r1 rs1 rfl s1 (by unfold flatSlice; rw [hd, Res.ok_bind, hf])
      have hlen : bits.length = s1.len := by rw [hb1, length_window hon1.inside]
      rw [hlen] at hwi hb
      have hs : Slice.slice c s1 r = .ok s := by
        obtain ⟨s2, h2, h3⟩ := Res.of_bind_ok (x := Slice.slice c s1 r) (f := fun x => .ok x) hs
        rw [h2]; exact h3
      rw [slice_slice_eq _ hwi, if_pos hb] at hs
      obtain ⟨st, hst, hs⟩ := Res.of_bind_ok hs
      have hs : (⟨s1.data, st, b - a⟩ : Slice S) = s := Res.ok.inj hs
      subst hs
      by_cases hz : b - a = 0
      · refine ⟨B1, ⟨hon1.base, Or.inl hz⟩, ?_⟩
        show window bits a (b - a) = window B1 st (b - a)
        rw [hz]
        simp [window]
      · have hin := hon1.inside
        have hfits := (hl.fits hon1.base).lt hw.pos
        rw [addN_ok (by omega)] at hst
        have hst : s1.start + a = st := Res.ok.inj hst
        subst hst
        refine ⟨B1, ⟨hon1.base, by show b - a = 0 ∨ s1.start + a + (b - a) ≤ _; omega⟩, ?_⟩
        show window bits a (b - a) = window B1 (s1.start + a) (b - a)
        rw [hb1, window_window B1 (by omega)]

/-- C34, nesting: layering `BitSlice::new` over `BitSlice::new` to any depth and slicing flatly with
`slice` through the same ranges give slices with the same length, bits and span reads. -/
theorem C34_nested (hw : IsBlk w) (hl : BVLaw c o R) {d : S} {B : List Bool} (hR : R d B)
    (h : NestedSlice c o d (r :: rs) T o' t) (hs : flatSlice c o d r rs = .ok s) :
    o'.bitLen t = (sliceBitVec c o).bitLen s ∧ (∀ i < 2 ^ 64, o'.getBit t i = (sliceBitVec c o).getBit s i) ∧
    (∀ p n, 1 ≤ n → n ≤ w → p + n < 2 ^ 64 → o'.getBits t p n = (sliceBitVec c o).getBits s p n) := by
  obtain ⟨R', bits, hl', hR', hflat⟩ := h.lawful hw hl hR
  have hsl := hflat r rs rfl s hs
  have hl2 := slice_law hw hl
  refine ⟨(hl'.bitLen hR').trans (hl2.bitLen hsl).symm, fun i hi => (hl'.getBit hR' i hi).trans (hl2.getBit hsl i hi).symm, ?_⟩
  intro p n h1 hn hp
  by_cases hle : p + n ≤ bits.length
  · rw [hl'.getBits hR' p n h1 hn hle, hl2.getBits hsl p n h1 hn hle]
  · rw [hl'.getBits_panic hR' p n hn hp (by omega), hl2.getBits_panic hsl p n hn hp (by omega)]

end

example : ∃ s t, flatSlice ⟨true, .p64, true⟩ (boolVecBitVec ⟨true, .p64, true⟩) [false, true, true, false, true] (.from 1) [.to 3] = .ok s ∧
    NestedSlice ⟨true, .p64, true⟩ (boolVecBitVec ⟨true, .p64, true⟩) [false, true, true, false, true] [.from 1, .to 3] _
      (sliceBitVec ⟨true, .p64, true⟩ (sliceBitVec ⟨true, .p64, true⟩ (boolVecBitVec ⟨true, .p64, true⟩))) t ∧ s.start = 1 ∧ s.len = 3 := by
  refine ⟨⟨[false, true, true, false, true], 1, 3⟩, ⟨⟨[false, true, true, false, true], 1, 4⟩, 0, 3⟩, by decide, ?_, rfl, rfl⟩
  have h1 := NestedSlice.layer (c := ⟨true, .p64, true⟩) (NestedSlice.base (o := boolVecBitVec ⟨true, .p64, true⟩) (d := [false, true, true, false, true]))
    (r := .from 1) (t' := ⟨[false, true, true, false, true], 1, 4⟩) (by decide)
  exact NestedSlice.layer h1 (r := .to 3) (by decide)

/-! ### Blocks -/

section
variable {S : Type} {w : Nat} {c : Cfg} {o : BitVecOps w S} {R : S → List Bool → Prop} {s : Slice S} {bits : List Bool}

/-- C35 (partial). `block_len` counts the partial last block, and `get_block` is right for every full
block and panics from `block_len` on. Missing from the full claim: a partial last block panics
(`C35_partial_block_panics`), and block indices whose bit position exceeds `2^64` wrap around
(`C35_block_alias`). -/
theorem C35_blocks_partial (hw : IsBlk w) (hl : BVLaw c o R) (hs : sliceR R s bits) :
    (sliceBitVec c o).blockLen s = .ok (blocksFor w bits.length) ∧
    (∀ i, (i + 1) * w ≤ bits.length →
      (sliceBitVec c o).getBlock s i = .ok (BitVec.ofNat w (bitsVal ((bits.drop (i * w)).take w)))) ∧
    (∀ i, blocksFor w bits.length ≤ i → i * w < 2 ^ 64 → (sliceBitVec c o).getBlock s i = .panic) := by
  have hl2 := slice_law hw hl
  have hf := hl2.fits hs
  refine ⟨dfltBlockLen_ok hw (hl2.bitLen hs) hf, ?_, ?_⟩
  · intro i hi
    have h64 := hf.lt hw.pos
    rw [Nat.succ_mul] at hi
    show Slice.getBlock c o s i = _
    unfold Slice.getBlock
    rw [mulNbits_ok c hw (by omega), Res.ok_bind]
    exact hl2.getBits hs (i * w) w hw.pos (Nat.le_refl _) hi
  · intro i hi h64
    show Slice.getBlock c o s i = _
    unfold Slice.getBlock
    rw [mulNbits_ok c hw h64, Res.ok_bind]
    obtain ⟨B, hon, rfl⟩ := hs
    apply slice_getBits_panic
    have := hw.pos
    rw [length_window hon.inside] at hi
    have := le_blocksFor_mul s.len hw.pos
    have := Nat.mul_le_mul_right w hi
    omega

/-- C35, what goes wrong: whenever the length is not a multiple of the block size, reading the last block
of the slice panics although its index is below `block_len`. -/
theorem C35_partial_block_panics (hw : IsBlk w) (hl : BVLaw c o R) (hs : sliceR R s bits)
    (hpart : ¬ w ∣ bits.length) :
    bits.length / w < blocksFor w bits.length ∧ (sliceBitVec c o).getBlock s (bits.length / w) = .panic := by
  have hf := ((slice_law hw hl).fits hs).lt hw.pos
  have hmod : bits.length % w ≠ 0 := fun h => hpart (Nat.dvd_of_mod_eq_zero h)
  have hdm := Nat.div_add_mod bits.length w
  rw [Nat.mul_comm] at hdm
  refine ⟨(lt_blocksFor hw.pos).2 (by omega), ?_⟩
  show Slice.getBlock c o s _ = _
  unfold Slice.getBlock
  rw [mulNbits_ok c hw (by omega), Res.ok_bind]
  obtain ⟨B, hon, rfl⟩ := hs
  rw [length_window hon.inside] at hdm ⊢
  have := Nat.mod_lt s.len hw.pos
  exact slice_getBits_panic (by omega)

end

/-- C35, a concrete partial block: the first four bits of a `u8` bit vector. -/
theorem C35_partial_block_example (d a : Bool) : ∃ s : Slice (VB 8),
    Slice.new (bvBitVec ⟨d, .p64, a⟩ 8) ⟨8, [0xFF#8]⟩ (.range 0 4) = .ok s ∧
    (sliceBitVec ⟨d, .p64, a⟩ (bvBitVec ⟨d, .p64, a⟩ 8)).blockLen s = .ok 1 ∧
    (sliceBitVec ⟨d, .p64, a⟩ (bvBitVec ⟨d, .p64, a⟩ 8)).getBlock s 0 = .panic := by
  refine ⟨⟨⟨8, [0xFF#8]⟩, 0, 4⟩, ?_⟩
  cases d <;> cases a <;> decide

/-- C35, what goes wrong with huge indices: on a 64-bit target, a one-block slice of `u64` blocks returns
block 0 for block index 2^58, and writing that index writes block 0. -/
theorem C35_block_alias (d a : Bool) : ∃ s : Slice (VB 64),
    Slice.new (bvBitVec ⟨d, .p64, a⟩ 64) ⟨64, [5#64]⟩ .full = .ok s ∧
    (sliceBitVec ⟨d, .p64, a⟩ (bvBitVec ⟨d, .p64, a⟩ 64)).blockLen s = .ok 1 ∧
    (sliceBitVec ⟨d, .p64, a⟩ (bvBitVec ⟨d, .p64, a⟩ 64)).getBlock s (2 ^ 58) = .ok 5#64 ∧
    (sliceBitVecMut ⟨d, .p64, a⟩ (bvBitVecMut ⟨d, .p64, a⟩ 64)).setBlock s (2 ^ 58) 7#64 = .ok ⟨⟨64, [7#64]⟩, 0, 64⟩ := by
  refine ⟨⟨⟨64, [5#64]⟩, 0, 64⟩, ?_⟩
  cases d <;> cases a <;> decide

/-- C35 for `set_block`: a full block is written exactly, and indices from `block_len` on panic. The gaps are
those of `C35_blocks_partial`. -/
theorem C35_set_block_partial {S : Type} {w : Nat} {c : Cfg} {o : BitVecMutOps w S} {R : S → List Bool → Prop}
    {s : Slice S} {bits : List Bool} (hw : IsBlk w) (hl : BVLaw c o.toBitVecOps R) (hm : BVMutLaw c o R)
    (hs : sliceR R s bits) :
    (∀ i (v : BitVec w), (i + 1) * w ≤ bits.length → ∃ s', (sliceBitVecMut c o).setBlock s i v = .ok s' ∧
      sliceR R s' (overwrite bits (i * w) (blockBits v))) ∧
    (∀ i (v : BitVec w), blocksFor w bits.length ≤ i → i * w < 2 ^ 64 → (sliceBitVecMut c o).setBlock s i v = .panic) := by
  have hl2 := slice_law hw hl
  have hm2 := slice_write_law hw hl hm.write
  have hf := (hl2.fits hs).lt hw.pos
  constructor
  · intro i v hi
    rw [Nat.succ_mul] at hi
    obtain ⟨s', h1, h2⟩ := hm2.setBits hs (i * w) w v hw.pos (Nat.le_refl _) hi
    refine ⟨s', ?_, h2⟩
    show Slice.setBlock c o s i v = _
    unfold Slice.setBlock
    rw [mulNbits_ok c hw (by omega), Res.ok_bind]
    exact h1
  · intro i v hi h64
    show Slice.setBlock c o s i v = _
    unfold Slice.setBlock
    rw [mulNbits_ok c hw h64, Res.ok_bind]
    obtain ⟨B, hon, rfl⟩ := hs
    apply slice_setBits_panic
    rw [length_window hon.inside] at hi
    have := hw.pos
    have := le_blocksFor_mul s.len hw.pos
    have := Nat.mul_le_mul_right w hi
    omega

/-! Each theorem of this file that has hypotheses is applied to concrete data in `Verif/Instances/Slice.lean`. -/

end Succinct
