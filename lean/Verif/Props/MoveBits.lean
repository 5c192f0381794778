import Verif.Props.Reach
import Verif.Lemmas.Slice
/-! Property C167: copying, moving, inserting and removing bits through `get_bits` and `set_bits`, a block at a time. The programs here are
not in the crate; they call its methods only. -/
namespace Succinct
open Spec

section
variable {w : Nat} {S T : Type} (c : Cfg)

/-- `while n > 0 { let m = min(n, w); v.set_bits(d, m, u.get_bits(p, m)); d += m; p += m; n -= m }` -/
def copyBits (o : BitVecMutOps w S) (o' : BitVecOps w T) (t : T) (s : S) (d p n : Nat) : Res S :=
  if 0 < n then do
    let x ← o'.getBits t p (min n w)
    let s ← o.setBits s d (min n w) x
    let d ← addN c 64 d (min n w)
    let p ← addN c 64 p (min n w)
    let n ← subN c 64 n (min n w)
    copyBits o o' t s d p n
  else .ok s
partial_fixpoint

/-- The same within one vector. -/
def moveDown (o : BitVecMutOps w S) (s : S) (d p n : Nat) : Res S :=
  if 0 < n then do
    let x ← o.getBits s p (min n w)
    let s ← o.setBits s d (min n w) x
    let d ← addN c 64 d (min n w)
    let p ← addN c 64 p (min n w)
    let n ← subN c 64 n (min n w)
    moveDown o s d p n
  else .ok s
partial_fixpoint

/-- The same from the end: `while n > 0 { let m = min(n, w); n -= m; v.set_bits(d + n, m, v.get_bits(p + n, m)) }` -/
def moveUp (o : BitVecMutOps w S) (s : S) (d p n : Nat) : Res S :=
  if 0 < n then do
    let r ← subN c 64 n (min n w)
    let p' ← addN c 64 p r
    let d' ← addN c 64 d r
    let x ← o.getBits s p' (min n w)
    let s ← o.setBits s d' (min n w) x
    moveUp o s d p r
  else .ok s
partial_fixpoint

/-- Moves `n` bits from `p` to `d`. -/
def moveBits (o : BitVecMutOps w S) (s : S) (d p n : Nat) : Res S := if d ≤ p then moveDown c o s d p n else moveUp c o s d p n

/-- `let n = v.bit_len(); v.push_bit(b); (move the bits from i on by one); v.set_bit(i, b)` -/
def insertBit (o : BitVecPushOps w S) (s : S) (i : Nat) (b : Bool) : Res S := do
  let n ← o.bitLen s
  let s ← o.pushBit s b
  let k ← subN c 64 n i
  let j ← addN c 64 i 1
  let s ← moveBits c o.toBitVecMutOps s j i k
  o.setBit s i b

/-- `let b = v.get_bit(i); (move the bits after i by one); v.pop_bit(); b` -/
def removeBit (o : BitVecPushOps w S) (s : S) (i : Nat) : Res (Bool × S) := do
  let n ← o.bitLen s
  let b ← o.getBit s i
  let j ← addN c 64 i 1
  let k ← subN c 64 n j
  let s ← moveBits c o.toBitVecMutOps s i j k
  let (_, s) ← o.popBit s
  .ok (b, s)
end

variable {w : Nat} {S T : Type} {c : Cfg} {o : BitVecMutOps w S} {R : S → List Bool → Prop}

/-- The bits `p .. p + n`. -/
abbrev seg (bits : List Bool) (p n : Nat) : List Bool := (bits.drop p).take n

theorem seg_length {bits : List Bool} {p n : Nat} (h : p + n ≤ bits.length) : (seg bits p n).length = n := by
  rw [List.length_take, List.length_drop]; omega

theorem seg_get (bits : List Bool) (p n i : Nat) : (seg bits p n)[i]? = if i < n then bits[p + i]? else none := by
  rw [List.getElem?_take, List.getElem?_drop]

theorem seg_natBits {bits : List Bool} {p n : Nat} (h : p + n ≤ bits.length) (hn : n ≤ w) :
    natBits n (BitVec.ofNat w (bitsVal (seg bits p n))).toNat = seg bits p n := by
  have h1 := bitsVal_lt (seg bits p n)
  have h2 := natBits_bitsVal (seg bits p n)
  have h3 := Nat.pow_le_pow_right (n := 2) (by omega) hn
  rw [seg_length h] at h1 h2
  rw [BitVec.toNat_ofNat, Nat.mod_eq_of_lt (by omega), h2]

/-- Writing two adjoining pieces is writing both at once. -/
theorem overwrite_two {bits a b : List Bool} {d e : Nat} (he : e = d + a.length) (h : d + a.length + b.length ≤ bits.length) :
    overwrite (overwrite bits d a) e b = overwrite bits d (a ++ b) ∧ overwrite (overwrite bits e b) d a = overwrite bits d (a ++ b) := by
  subst he
  constructor <;>
  · apply List.ext_getElem?
    intro i
    rw [getElem?_overwrite (by rw [length_overwrite (by omega)]; omega), getElem?_overwrite (by omega),
      getElem?_overwrite (by rw [List.length_append]; omega), List.length_append, List.getElem?_append]
    by_cases h1 : d ≤ i ∧ i < d + a.length
    · simp only [h1, show i - d < a.length by omega, show d ≤ i ∧ i < d + (a.length + b.length) by omega,
        show ¬ (d + a.length ≤ i ∧ i < d + a.length + b.length) by omega, and_self, if_true, if_false]
    · by_cases h2 : d + a.length ≤ i ∧ i < d + a.length + b.length
      · rw [if_neg (c := d ≤ i ∧ i < d + a.length) h1, if_pos h2, if_pos (c := d ≤ i ∧ i < d + (a.length + b.length)) (by omega),
          if_neg (c := i - d < a.length) (by omega), show i - d - a.length = i - (d + a.length) by omega]
      · simp only [h1, h2, show ¬ (d ≤ i ∧ i < d + (a.length + b.length)) by omega, if_false]

theorem seg_add (bits : List Bool) (p m n : Nat) : seg bits p (m + n) = seg bits p m ++ seg bits (p + m) n := by
  rw [seg, List.take_add, List.drop_drop]

/-- What is written before or after a segment does not change it. -/
theorem seg_overwrite {bits a : List Bool} {d p n : Nat} (h : d + a.length ≤ bits.length) (hd : d + a.length ≤ p ∨ p + n ≤ d) :
    seg (overwrite bits d a) p n = seg bits p n := by
  apply List.ext_getElem?
  intro i
  rw [seg_get, seg_get]
  split
  · rw [getElem?_overwrite h, if_neg (by omega)]
  · rfl

/-- C167: copying from one vector to another. -/
theorem C167_copy (c : Cfg) (hw : 0 < w) {o' : BitVecOps w T} {Q : T → List Bool → Prop} (hl : BVLaw c o.toBitVecOps R) (hm : BVWriteLaw o R)
    (hl' : BVLaw c o' Q) {t : T} {src : List Bool} (ht : Q t src) {s : S} {bits : List Bool} (hs : R s bits) {d p n : Nat}
    (hd : d + n ≤ bits.length) (hp : p + n ≤ src.length) :
    ∃ s', copyBits c o o' t s d p n = .ok s' ∧ R s' (overwrite bits d (seg src p n)) := by
  induction n using Nat.strongRecOn generalizing s bits d p with
  | ind n ih =>
    have f1 := (hl.fits hs).lt hw
    have f2 := (hl'.fits ht).lt hw
    rw [copyBits]
    by_cases hn : 0 < n
    · have g := hl'.getBits ht p (min n w) (by omega) (by omega) (by omega)
      obtain ⟨s1, e1, h1⟩ := hm.setBits hs d (min n w) (BitVec.ofNat w (bitsVal (seg src p (min n w)))) (by omega) (by omega) (by omega)
      rw [seg_natBits (by omega) (by omega)] at h1
      have hsl := seg_length (bits := src) (p := p) (n := min n w) (by omega)
      obtain ⟨s', e2, h2⟩ := ih (n - min n w) (by omega) h1 (d := d + min n w) (p := p + min n w)
        (by rw [length_overwrite (by omega)]; omega) (by omega)
      refine ⟨s', ?_, ?_⟩
      · rw [if_pos hn, g, Res.ok_bind, e1, Res.ok_bind, addN_ok (by omega), Res.ok_bind, addN_ok (by omega), Res.ok_bind,
          subN_ok (by omega), Res.ok_bind, e2]
      · have hsl' := seg_length (bits := src) (p := p + min n w) (n := n - min n w) (by omega)
        rw [(overwrite_two (by rw [hsl]) (by omega)).1, ← seg_add, show min n w + (n - min n w) = n by omega] at h2
        exact h2
    · rw [if_neg hn]
      obtain rfl : n = 0 := by omega
      exact ⟨s, rfl, by simpa [overwrite] using hs⟩

theorem moveDown_ok (c : Cfg) (hw : 0 < w) (hl : BVLaw c o.toBitVecOps R) (hm : BVWriteLaw o R) {s : S} {bits : List Bool} (hs : R s bits)
    {d p n : Nat} (hdp : d ≤ p) (hp : p + n ≤ bits.length) : ∃ s', moveDown c o s d p n = .ok s' ∧ R s' (overwrite bits d (seg bits p n)) := by
  induction n using Nat.strongRecOn generalizing s bits d p with
  | ind n ih =>
    have f1 := (hl.fits hs).lt hw
    rw [moveDown]
    by_cases hn : 0 < n
    · have g := hl.getBits hs p (min n w) (by omega) (by omega) (by omega)
      obtain ⟨s1, e1, h1⟩ := hm.setBits hs d (min n w) (BitVec.ofNat w (bitsVal (seg bits p (min n w)))) (by omega) (by omega) (by omega)
      rw [seg_natBits (by omega) (by omega)] at h1
      have hsl := seg_length (bits := bits) (p := p) (n := min n w) (by omega)
      obtain ⟨s', e2, h2⟩ := ih (n - min n w) (by omega) h1 (d := d + min n w) (p := p + min n w) (by omega)
        (by rw [length_overwrite (by omega)]; omega)
      refine ⟨s', ?_, ?_⟩
      · rw [if_pos hn, g, Res.ok_bind, e1, Res.ok_bind, addN_ok (by omega), Res.ok_bind, addN_ok (by omega), Res.ok_bind,
          subN_ok (by omega), Res.ok_bind, e2]
      · have hsl' := seg_length (bits := bits) (p := p + min n w) (n := n - min n w) (by omega)
        rw [seg_overwrite (by omega) (.inl (by omega)), (overwrite_two (by rw [hsl]) (by omega)).1, ← seg_add,
          show min n w + (n - min n w) = n by omega] at h2
        exact h2
    · rw [if_neg hn]
      obtain rfl : n = 0 := by omega
      exact ⟨s, rfl, by simpa [overwrite] using hs⟩

theorem moveUp_ok (c : Cfg) (hw : 0 < w) (hl : BVLaw c o.toBitVecOps R) (hm : BVWriteLaw o R) {s : S} {bits : List Bool} (hs : R s bits)
    {d p n : Nat} (hdp : p ≤ d) (hd : d + n ≤ bits.length) : ∃ s', moveUp c o s d p n = .ok s' ∧ R s' (overwrite bits d (seg bits p n)) := by
  induction n using Nat.strongRecOn generalizing s bits with
  | ind n ih =>
    have f1 := (hl.fits hs).lt hw
    rw [moveUp]
    by_cases hn : 0 < n
    · have g := hl.getBits hs (p + (n - min n w)) (min n w) (by omega) (by omega) (by omega)
      obtain ⟨s1, e1, h1⟩ := hm.setBits hs (d + (n - min n w)) (min n w) (BitVec.ofNat w (bitsVal (seg bits (p + (n - min n w)) (min n w))))
        (by omega) (by omega) (by omega)
      rw [seg_natBits (by omega) (by omega)] at h1
      have hsl := seg_length (bits := bits) (p := p + (n - min n w)) (n := min n w) (by omega)
      obtain ⟨s', e2, h2⟩ := ih (n - min n w) (by omega) h1 (by rw [length_overwrite (by omega)]; omega)
      refine ⟨s', ?_, ?_⟩
      · rw [if_pos hn, subN_ok (by omega), Res.ok_bind, addN_ok (by omega), Res.ok_bind, addN_ok (by omega), Res.ok_bind, g, Res.ok_bind,
          e1, Res.ok_bind, e2]
      · have hsl' := seg_length (bits := bits) (p := p) (n := n - min n w) (by omega)
        rw [seg_overwrite (by omega) (.inr (by omega)), (overwrite_two (by rw [hsl']) (by omega)).2, ← seg_add,
          show n - min n w + min n w = n by omega] at h2
        exact h2
    · rw [if_neg hn]
      obtain rfl : n = 0 := by omega
      exact ⟨s, rfl, by simpa [overwrite] using hs⟩

/-- C167: moving within a vector; the two places may overlap. -/
theorem C167_move (c : Cfg) (hw : 0 < w) (hl : BVLaw c o.toBitVecOps R) (hm : BVWriteLaw o R) {s : S} {bits : List Bool} (hs : R s bits)
    {d p n : Nat} (hd : d + n ≤ bits.length) (hp : p + n ≤ bits.length) :
    ∃ s', moveBits c o s d p n = .ok s' ∧ R s' (overwrite bits d (seg bits p n)) := by
  rw [moveBits]
  split
  · exact moveDown_ok c hw hl hm hs (by assumption) hp
  · exact moveUp_ok c hw hl hm hs (by omega) hd

/-- C167: inserting a bit. -/
theorem C167_insert (c : Cfg) (hw : 0 < w) {o : BitVecPushOps w S} {Fit : Nat → Prop} (hl : BVLaw c o.toBitVecOps R) (hm : BVWriteLaw o.toBitVecMutOps R)
    (hp : BVPushLaw w o R Fit) {s : S} {bits : List Bool} (hs : R s bits) (hf : Fit (bits.length + 1)) {i : Nat} (hi : i ≤ bits.length) (b : Bool) :
    ∃ s', insertBit c o s i b = .ok s' ∧ R s' (bits.take i ++ b :: bits.drop i) := by
  obtain ⟨s1, e1, h1⟩ := hp.pushBit hs b hf
  obtain ⟨s2, e2, h2⟩ := C167_move c hw hl hm h1 (d := i + 1) (p := i) (n := bits.length - i)
    (by rw [List.length_append, List.length_singleton]; omega) (by rw [List.length_append, List.length_singleton]; omega)
  have hsl := seg_length (bits := bits ++ [b]) (p := i) (n := bits.length - i) (by rw [List.length_append, List.length_singleton]; omega)
  have hol := length_overwrite (l := bits ++ [b]) (p := i + 1) (new := seg (bits ++ [b]) i (bits.length - i))
    (by rw [List.length_append, List.length_singleton]; omega)
  rw [List.length_append, List.length_singleton] at hol
  obtain ⟨s3, e3, h3⟩ := hm.setBit h2 i b (by omega)
  have f1 := (hl.fits hs).lt hw
  refine ⟨s3, ?_, ?_⟩
  · rw [insertBit, hl.bitLen hs, Res.ok_bind, e1, Res.ok_bind, subN_ok hi, Res.ok_bind, addN_ok (by omega), Res.ok_bind, e2, Res.ok_bind, e3]
  · have : (overwrite (bits ++ [b]) (i + 1) (seg (bits ++ [b]) i (bits.length - i))).set i b = bits.take i ++ b :: bits.drop i := by
      apply List.ext_getElem?
      intro k
      rw [List.getElem?_set, hol, getElem?_overwrite (by rw [List.length_append, List.length_singleton]; omega), hsl, seg_get,
        List.getElem?_append (l₁ := bits.take i), List.length_take, Nat.min_eq_left hi, List.getElem?_take]
      by_cases hk : k < i
      · rw [if_neg (by omega), if_neg (by omega), if_pos hk, if_pos hk, List.getElem?_append_left (by omega)]
      · rw [if_neg (c := k < i) hk]
        by_cases hk' : k = i
        · subst hk'
          rw [if_pos rfl, if_pos (by omega), Nat.sub_self]; rfl
        · rw [if_neg (by omega)]
          obtain ⟨m, rfl⟩ : ∃ m, k = i + 1 + m := ⟨k - (i + 1), by omega⟩
          rw [show i + 1 + m - (i + 1) = m by omega, show i + 1 + m - i = m + 1 by omega, List.getElem?_cons_succ, List.getElem?_drop]
          by_cases hm : m < bits.length - i
          · rw [if_pos (by omega), if_pos hm, List.getElem?_append_left (by omega)]
          · rw [if_neg (by omega), List.getElem?_eq_none (by rw [List.length_append, List.length_singleton]; omega),
              List.getElem?_eq_none (by omega)]
    rw [this] at h3
    exact h3

/-- C167: removing a bit. -/
theorem C167_remove (c : Cfg) (hw : 0 < w) {o : BitVecPushOps w S} {Fit : Nat → Prop} (hl : BVLaw c o.toBitVecOps R) (hm : BVWriteLaw o.toBitVecMutOps R)
    (hp : BVPushLaw w o R Fit) {s : S} {bits : List Bool} (hs : R s bits) {i : Nat} (hi : i < bits.length) :
    ∃ s', removeBit c o s i = .ok (bits[i], s') ∧ R s' (bits.take i ++ bits.drop (i + 1)) := by
  obtain ⟨s1, e1, h1⟩ := C167_move c hw hl hm hs (d := i) (p := i + 1) (n := bits.length - (i + 1)) (by omega) (by omega)
  obtain ⟨s2, e2, h2⟩ := hp.popBit h1
  have f1 := (hl.fits hs).lt hw
  refine ⟨s2, ?_, ?_⟩
  · rw [removeBit, hl.bitLen hs, Res.ok_bind, hl.getBit hs i (by omega), List.getElem?_eq_getElem hi, expectR_some, Res.ok_bind,
      addN_ok (by omega), Res.ok_bind, subN_ok (by omega), Res.ok_bind, e1, Res.ok_bind, e2]
    rfl
  · have hsl := seg_length (bits := bits) (p := i + 1) (n := bits.length - (i + 1)) (by omega)
    have : (overwrite bits i (seg bits (i + 1) (bits.length - (i + 1)))).dropLast = bits.take i ++ bits.drop (i + 1) := by
      rw [overwrite, hsl, seg, List.take_of_length_le (l := bits.drop (i + 1)) (by rw [List.length_drop]; omega), List.dropLast_append_of_ne_nil (by
        apply List.ne_nil_of_length_pos; rw [List.length_drop]; omega)]
      have hd : (bits.drop (i + (bits.length - (i + 1)))).dropLast = [] := by
        apply List.eq_nil_of_length_eq_zero
        rw [List.length_dropLast, List.length_drop]; omega
      rw [hd, List.append_nil]
    rw [this] at h2
    exact h2

/-- C167 for `BitVector`: the vector is then exactly the one with these bits. -/
theorem C167_bit_vector (c : Cfg) (h : IsBlk w) {s : VB w} {bits : List Bool} (hs : BvReach c w s bits) :
    (∀ {t : VB w} {src : List Bool} {d p n : Nat}, BvReach c w t src → d + n ≤ bits.length → p + n ≤ src.length →
      ∃ s', copyBits c (bvBitVecMut c w) (bvBitVec c w) t s d p n = .ok s' ∧ BvReach c w s' (overwrite bits d (seg src p n))) ∧
    (∀ {d p n : Nat}, d + n ≤ bits.length → p + n ≤ bits.length →
      ∃ s', moveBits c (bvBitVecMut c w) s d p n = .ok s' ∧ BvReach c w s' (overwrite bits d (seg bits p n))) ∧
    (∀ {i : Nat} (b : Bool), i ≤ bits.length → Fits c.usz w (bits.length + 1) →
      ∃ s', insertBit c (bvBitVecPush c w) s i b = .ok s' ∧ BvReach c w s' (bits.take i ++ b :: bits.drop i)) ∧
    ∀ {i : Nat} (hi : i < bits.length), ∃ s', removeBit c (bvBitVecPush c w) s i = .ok (bits[i], s') ∧
      BvReach c w s' (bits.take i ++ bits.drop (i + 1)) := by
  have hR := hs.rep h
  refine ⟨fun ht hd hp => ?_, fun hd hp => ?_, fun b hi hf => ?_, fun hi => ?_⟩
  · obtain ⟨s', e, h'⟩ := C167_copy c h.pos (o := bvBitVecMut c w) (bv_law c h) (bv_mut_law c h).write (bv_law c h) (ht.rep h) hR hd hp
    exact ⟨s', e, bvR.reach h h'⟩
  · obtain ⟨s', e, h'⟩ := C167_move c h.pos (o := bvBitVecMut c w) (bv_law c h) (bv_mut_law c h).write hR hd hp
    exact ⟨s', e, bvR.reach h h'⟩
  · obtain ⟨s', e, h'⟩ := C167_insert c h.pos (o := bvBitVecPush c w) (bv_law c h) (bv_mut_law c h).write (bv_push_law c h) hR hf hi b
    exact ⟨s', e, bvR.reach h h'⟩
  · obtain ⟨s', e, h'⟩ := C167_remove c h.pos (o := bvBitVecPush c w) (bv_law c h) (bv_mut_law c h).write (bv_push_law c h) hR hi
    exact ⟨s', e, bvR.reach h h'⟩

/-! Each theorem of this file that has hypotheses is applied to concrete data in `Verif/Instances/MoveBits.lean`. -/

end Succinct
