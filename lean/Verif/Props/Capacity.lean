import Verif.Model.Capacity
import Verif.Props.IntVector
/-! Properties C70 and C82 (capacity). -/
namespace Succinct
open Spec

theorem change_room {A : Alloc} {s : CVB w} {b : VB w} (h : b.vec.length ≤ s.cap) :
    CVB.change A s b = { s with base := b } := by
  unfold CVB.change CVB.vecReserve
  rw [if_pos (by omega)]

/-- Pushing elements while they fit in the capacity does not reallocate. -/
theorem pushAllBits_room (c : Cfg) (h : IsBlk w) {A : Alloc} (he1 : 1 ≤ eb) (hew : eb ≤ w) (xs : List (BitVec w)) {s : CVB w} {bits : List Bool}
    (hR : VR c w eb s.base bits) (hf : Fits c.usz w (bits.length + xs.length * eb))
    (hcap : blocksFor w (bits.length + xs.length * eb) ≤ s.cap) :
    ∃ s', pushAllBits c A eb xs s = .ok s' ∧ s'.moves = s.moves ∧ s'.cap = s.cap ∧
      VR c w eb s'.base (bits ++ packBits eb (xs.map BitVec.toNat)) := by
  induction xs generalizing s bits with
  | nil => exact ⟨s, rfl, rfl, rfl, by simpa [packBits] using hR⟩
  | cons x xs ih =>
    have e : bits.length + (x :: xs).length * eb = bits.length + eb + xs.length * eb := by
      rw [List.length_cons, Nat.succ_mul]; omega
    rw [e] at hf hcap
    obtain ⟨b, h1, h2⟩ := hR.pushBits_ok h he1 hew (hf.mono (by omega)) x
    have hl : (bits ++ natBits eb x.toNat).length = bits.length + eb := by simp [natBits]
    have hb : b.vec.length ≤ s.cap := by
      rw [h2.blocks, hl]
      exact Nat.le_trans (blocksFor_mono (by omega)) hcap
    obtain ⟨s', h3, h4, h5, h6⟩ := ih (s := { s with base := b }) h2 (by rw [hl]; exact hf) (by rw [hl]; exact hcap)
    refine ⟨s', ?_, h4, h5, ?_⟩
    · rw [pushAllBits, CVB.pushBits, h1, Res.ok_bind, change_room hb]
      exact h3
    · rw [List.map_cons, packBits_cons, ← List.append_assoc]
      exact h6

/-- The same for bits. -/
theorem pushAllBit_room (c : Cfg) (h : IsBlk w) {A : Alloc} (xs : List Bool) {s : CVB w} {bits : List Bool}
    (hR : VR c w 1 s.base bits) (hf : Fits c.usz w (bits.length + xs.length))
    (hcap : blocksFor w (bits.length + xs.length) ≤ s.cap) :
    ∃ s', pushAllBit c A xs s = .ok s' ∧ s'.moves = s.moves ∧ s'.cap = s.cap ∧ VR c w 1 s'.base (bits ++ xs) := by
  induction xs generalizing s bits with
  | nil => exact ⟨s, rfl, rfl, rfl, by simpa using hR⟩
  | cons x xs ih =>
    have e : bits.length + (x :: xs).length = bits.length + 1 + xs.length := by
      rw [List.length_cons]; omega
    rw [e] at hf hcap
    obtain ⟨b, h1, h2⟩ := hR.pushBit_ok h (hf.mono (by omega)) x
    have hl : (bits ++ [x]).length = bits.length + 1 := by simp
    have hb : b.vec.length ≤ s.cap := by
      rw [h2.blocks, hl]
      exact Nat.le_trans (blocksFor_mono (by omega)) hcap
    obtain ⟨s', h3, h4, h5, h6⟩ := ih (s := { s with base := b }) h2 (by rw [hl]; exact hf) (by rw [hl]; exact hcap)
    refine ⟨s', ?_, h4, h5, ?_⟩
    · rw [pushAllBit, CVB.pushBit, h1, Res.ok_bind, change_room hb]
      exact h3
    · simpa using h6

/-- C70: after `with_capacity(n)`, `n` elements can be pushed without reallocating; `capacity()` reports at
least `n`. -/
theorem C70_with_capacity (c : Cfg) (h : IsBlk w) {A : Alloc} (hA : A.Lawful) (he1 : 1 ≤ eb) (hew : eb ≤ w) {n : Nat}
    (hf : Fits c.usz w (n * eb)) :
    ∃ s, CVB.withCapacity c A w eb n = .ok s ∧ s.base = VB.new ∧ s.moves = 0 ∧
      (s.cap * w < 2 ^ 64 → ∃ k, CVB.capacity c s eb = .ok k ∧ n ≤ k) ∧
      (∀ xs : List (BitVec w), xs.length ≤ n → ∃ s', pushAllBits c A eb xs s = .ok s' ∧ s'.moves = 0 ∧ s'.cap = s.cap) ∧
      (eb = 1 → ∀ xs : List Bool, xs.length ≤ n → ∃ s', pushAllBit c A xs s = .ok s' ∧ s'.moves = 0 ∧ s'.cap = s.cap) := by
  have hw := h.pos
  have hcap := hA.withCapacity (blocksFor w (n * eb))
  refine ⟨CVB.blockWithCapacity A (blocksFor w (n * eb)), ?_, rfl, rfl, fun hc => ?_, fun xs hx => ?_, fun he xs hx => ?_⟩
  · rw [CVB.withCapacity, lenToBlockLen_ok h hf]
    rfl
  · refine ⟨A.withCapacity (blocksFor w (n * eb)) * w / eb, ?_, ?_⟩
    · rw [CVB.capacity, mulNbits_ok c h (by exact hc), Res.ok_bind, divN_ok he1]
      rfl
    · rw [Nat.le_div_iff_mul_le he1]
      exact Nat.le_trans (le_blocksFor_mul (n * eb) hw) (Nat.mul_le_mul_right w hcap)
  · have hm : xs.length * eb ≤ n * eb := Nat.mul_le_mul_right eb hx
    obtain ⟨s', h1, h2, h3, -⟩ := pushAllBits_room c h (A := A) he1 hew xs (s := CVB.blockWithCapacity A (blocksFor w (n * eb)))
      (VR.nil c h eb) (hf.mono (by simpa using hm)) (Nat.le_trans (blocksFor_mono (by simpa using hm)) hcap)
    exact ⟨s', h1, h2, h3⟩
  · subst he
    obtain ⟨s', h1, h2, h3, -⟩ := pushAllBit_room c h (A := A) xs (s := CVB.blockWithCapacity A (blocksFor w (n * 1)))
      (VR.nil c h 1) (hf.mono (by simpa using hx)) (Nat.le_trans (blocksFor_mono (by simpa using hx)) hcap)
    exact ⟨s', h1, h2, h3⟩

/-- A vector in the sense of C70: `VR` holds of it (all reachable vectors, see `BvReach.rep`, `IvReach.rep`) and
its `Vec` is no longer than its capacity. -/
structure CapOk (c : Cfg) (w eb : Nat) (s : CVB w) (bits : List Bool) : Prop where
  rep : VR c w eb s.base bits
  room : s.base.vec.length ≤ s.cap

theorem additionalBlocks_ok (c : Cfg) (h : IsBlk w) {s : CVB w} {n : Nat} (hf : Fits c.usz w ((s.base.len + n) * eb))
    (he1 : 1 ≤ eb) : CVB.additionalBlocks c s eb n = .ok (blocksFor w ((s.base.len + n) * eb) - s.cap) := by
  have hw := h.pos
  have h1 := hf.lt hw
  have h2 : s.base.len + n ≤ (s.base.len + n) * eb := Nat.le_mul_of_pos_right _ he1
  have h3 := lenToBlockLen_ok (eb := eb) h hf
  unfold lenToBlockLen at h3
  unfold CVB.additionalBlocks
  rw [checkedAdd, if_pos (by omega), Option.bind_some]
  simp only [checkedMul] at h3 ⊢
  rw [if_pos (by omega)] at h3 ⊢
  simp only at h3 ⊢
  rw [h3]
  rfl

/-- C70: what `reserve` and `reserve_exact` achieve. They never change the contents. If the capacity already
suffices they do nothing at all. If the vector is full (its capacity in use), then afterwards there is room
for `n` more elements. Missing: vectors with spare, but insufficient, capacity, see
`C70_reserve_counterexample`; there the capacity is only known to be at least the length plus the shortfall. -/
theorem C70_reserve_partial (c : Cfg) (h : IsBlk w) {A : Alloc} (hA : A.Lawful) (he1 : 1 ≤ eb)
    {s : CVB w} {bits : List Bool} (hs : CapOk c w eb s bits) {n : Nat} (hf : Fits c.usz w (bits.length + n * eb)) :
    (∃ s', CVB.reserve c A s eb n = .ok s' ∧ CapOk c w eb s' bits ∧ s'.base = s.base ∧ s.cap ≤ s'.cap ∧
      (blocksFor w (bits.length + n * eb) ≤ s.cap → s' = s) ∧
      (s.cap = s.base.vec.length → blocksFor w (bits.length + n * eb) ≤ s'.cap) ∧
      s.base.vec.length + (blocksFor w (bits.length + n * eb) - s.cap) ≤ s'.cap) ∧
    (∃ s', CVB.reserveExact c A s eb n = .ok s' ∧ CapOk c w eb s' bits ∧ s'.base = s.base ∧ s.cap ≤ s'.cap ∧
      (blocksFor w (bits.length + n * eb) ≤ s.cap → s' = s) ∧
      (s.cap = s.base.vec.length → blocksFor w (bits.length + n * eb) ≤ s'.cap) ∧
      s.base.vec.length + (blocksFor w (bits.length + n * eb) - s.cap) ≤ s'.cap) := by
  have hroom := hs.room
  have e : (s.base.len + n) * eb = bits.length + n * eb := by rw [Nat.add_mul, hs.rep.len]
  have hab := additionalBlocks_ok c h (s := s) (n := n) (eb := eb) (by rw [e]; exact hf) he1
  rw [e] at hab
  generalize blocksFor w (bits.length + n * eb) = need at hab ⊢
  constructor
  · refine ⟨CVB.vecReserve A s (need - s.cap), by rw [CVB.reserve, hab]; rfl, ?_⟩
    unfold CVB.vecReserve
    have hg := hA.grow s.base.vec.length s.cap (need - s.cap)
    split
    · rename_i hle
      exact ⟨hs, rfl, Nat.le_refl _, fun _ => rfl, fun hc => by omega, by omega⟩
    · rename_i hle
      exact ⟨⟨hs.rep, by simp only; omega⟩, rfl, by simp only; omega, fun _ => by omega, fun hc => by simp only; omega, hg⟩
  · refine ⟨CVB.vecReserveExact A s (need - s.cap), by rw [CVB.reserveExact, hab]; rfl, ?_⟩
    unfold CVB.vecReserveExact
    have hg := hA.growExact s.base.vec.length s.cap (need - s.cap)
    split
    · rename_i hle
      exact ⟨hs, rfl, Nat.le_refl _, fun _ => rfl, fun hc => by omega, by omega⟩
    · rename_i hle
      exact ⟨⟨hs.rep, by simp only; omega⟩, rfl, by simp only; omega, fun _ => by omega, fun hc => by simp only; omega, hg⟩

/-- C70: in the two cases in which `C70_reserve_partial` promises room, the promised pushes do not
reallocate. -/
theorem C70_reserve_then_push (c : Cfg) (h : IsBlk w) {A : Alloc} (hA : A.Lawful) (he1 : 1 ≤ eb) (hew : eb ≤ w)
    {s : CVB w} {bits : List Bool} (hs : CapOk c w eb s bits) {n : Nat} (hf : Fits c.usz w (bits.length + n * eb))
    (hc : s.cap = s.base.vec.length ∨ blocksFor w (bits.length + n * eb) ≤ s.cap) (xs : List (BitVec w)) (hx : xs.length ≤ n) :
    (∃ s1 s2, CVB.reserve c A s eb n = .ok s1 ∧ pushAllBits c A eb xs s1 = .ok s2 ∧ s2.moves = s1.moves ∧ s2.cap = s1.cap) ∧
    ∃ s1 s2, CVB.reserveExact c A s eb n = .ok s1 ∧ pushAllBits c A eb xs s1 = .ok s2 ∧ s2.moves = s1.moves ∧ s2.cap = s1.cap := by
  have hm : xs.length * eb ≤ n * eb := Nat.mul_le_mul_right eb hx
  constructor
  · obtain ⟨s1, h1, h2, -, -, h3, h4, -⟩ := (C70_reserve_partial c h hA he1 hs hf).1
    have hcap : blocksFor w (bits.length + n * eb) ≤ s1.cap := by
      rcases hc with hc | hc
      · exact h4 hc
      · rw [h3 hc]; exact hc
    obtain ⟨s2, h5, h6, h7, -⟩ := pushAllBits_room c h (A := A) he1 hew xs h2.rep (hf.mono (by omega))
      (Nat.le_trans (blocksFor_mono (by omega)) hcap)
    exact ⟨s1, s2, h1, h5, h6, h7⟩
  · obtain ⟨s1, h1, h2, -, -, h3, h4, -⟩ := (C70_reserve_partial c h hA he1 hs hf).2
    have hcap : blocksFor w (bits.length + n * eb) ≤ s1.cap := by
      rcases hc with hc | hc
      · exact h4 hc
      · rw [h3 hc]; exact hc
    obtain ⟨s2, h5, h6, h7, -⟩ := pushAllBits_room c h (A := A) he1 hew xs h2.rep (hf.mono (by omega))
      (Nat.le_trans (blocksFor_mono (by omega)) hcap)
    exact ⟨s1, s2, h1, h5, h6, h7⟩

example : CVB.reserveExact ⟨true, .p64, true⟩ .exact (⟨⟨1, [5#8]⟩, 1, 0⟩ : CVB 8) 5 2 = .ok ⟨⟨1, [5#8]⟩, 2, 1⟩ ∧
    pushAllBits ⟨true, .p64, true⟩ .exact 5 [3#8, 9#8] (⟨⟨1, [5#8]⟩, 2, 1⟩ : CVB 8) = .ok ⟨⟨3, [0x65#8, 0x24#8]⟩, 2, 1⟩ := by decide

/-- C70 fails for `reserve` and `reserve_exact`: a vector of capacity 2 blocks that is empty and asked to reserve
room for 24 bits, i.e. 3 blocks, does nothing, because `Vec::reserve` counts from the length, not from the
capacity. Pushing the 17th of the 24 bits reallocates. -/
theorem C70_reserve_counterexample (d a : Bool) (p : Ptr) :
    let s : CVB 8 := CVB.blockWithCapacity .exact 2
    CVB.reserve ⟨d, p, a⟩ .exact s 1 24 = .ok s ∧ CVB.reserveExact ⟨d, p, a⟩ .exact s 1 24 = .ok s ∧ Alloc.exact.Lawful ∧
    (match pushAllBit ⟨d, p, a⟩ .exact (List.replicate 17 true) s with | .ok s' => s'.moves | _ => 0) = 1 := by
  refine ⟨?_, ?_, ⟨fun n => Nat.le_refl _, fun _ _ _ => Nat.le_refl _, fun _ _ _ => Nat.le_refl _,
    fun _ _ h => ⟨Nat.le_refl _, h⟩⟩, ?_⟩ <;> cases d <;> cases a <;> cases p <;> decide +kernel

/-- C70, exactly: with an allocator that allocates no more than it is asked for, `reserve` and `reserve_exact`
make the requested room if and only if the capacity already sufficed or the vector was full. -/
theorem C70_reserve_iff (c : Cfg) (h : IsBlk w) (he1 : 1 ≤ eb) {s : CVB w} {bits : List Bool} (hs : CapOk c w eb s bits)
    {n : Nat} (hf : Fits c.usz w (bits.length + n * eb)) :
    ∃ s', CVB.reserve c .exact s eb n = .ok s' ∧ CVB.reserveExact c .exact s eb n = .ok s' ∧
      (blocksFor w (bits.length + n * eb) ≤ s'.cap ↔
        blocksFor w (bits.length + n * eb) ≤ s.cap ∨ s.cap = s.base.vec.length) := by
  have hroom := hs.room
  have e : (s.base.len + n) * eb = bits.length + n * eb := by rw [Nat.add_mul, hs.rep.len]
  have hab := additionalBlocks_ok c h (s := s) (n := n) (eb := eb) (by rw [e]; exact hf) he1
  rw [e] at hab
  generalize blocksFor w (bits.length + n * eb) = need at hab ⊢
  refine ⟨CVB.vecReserve .exact s (need - s.cap), by rw [CVB.reserve, hab]; rfl, by rw [CVB.reserveExact, hab]; rfl, ?_⟩
  unfold CVB.vecReserve
  split
  · omega
  · simp only [Alloc.exact]
    omega

/-- C70: `block_reserve` and `block_reserve_exact` count from the length and are as documented. -/
theorem C70_block_reserve (c : Cfg) {A : Alloc} (hA : A.Lawful) {s : CVB w} {bits : List Bool} (hs : CapOk c w eb s bits)
    (n : Nat) :
    (CapOk c w eb (s.blockReserve A n) bits ∧ (s.blockReserve A n).base = s.base ∧
      s.base.vec.length + n ≤ (s.blockReserve A n).blockCapacity ∧
      (s.base.vec.length + n ≤ s.cap → s.blockReserve A n = s)) ∧
    (CapOk c w eb (s.blockReserveExact A n) bits ∧ (s.blockReserveExact A n).base = s.base ∧
      s.base.vec.length + n ≤ (s.blockReserveExact A n).blockCapacity ∧
      (s.base.vec.length + n ≤ s.cap → s.blockReserveExact A n = s)) := by
  have hr := hs.room
  have h1 := hA.grow s.base.vec.length s.cap n
  have h2 := hA.growExact s.base.vec.length s.cap n
  unfold CVB.blockReserve CVB.blockReserveExact CVB.vecReserve CVB.vecReserveExact CVB.blockCapacity
  split
  · exact ⟨⟨hs, rfl, by omega, fun _ => rfl⟩, hs, rfl, by omega, fun _ => rfl⟩
  · exact ⟨⟨⟨hs.rep, by simp only; omega⟩, rfl, h1, fun _ => by omega⟩, ⟨hs.rep, by simp only; omega⟩, rfl, h2, fun _ => by omega⟩

/-- C70: `shrink_to_fit` keeps the contents and never raises the capacity. -/
theorem C70_shrink (c : Cfg) {A : Alloc} (hA : A.Lawful) {s : CVB w} {bits : List Bool} (hs : CapOk c w eb s bits) :
    CapOk c w eb (s.shrinkToFit A) bits ∧ (s.shrinkToFit A).base = s.base ∧ (s.shrinkToFit A).cap ≤ s.cap :=
  have := hA.shrink _ _ hs.room
  ⟨⟨hs.rep, this.1⟩, rfl, this.2⟩

/-- C70: an operation never makes the `Vec` longer than its capacity, and one that does not lengthen the
`Vec` (such as `pop`, `truncate`, `clear`) keeps the capacity. -/
theorem C70_change (c : Cfg) {A : Alloc} (hA : A.Lawful) {s : CVB w} {bits bits' : List Bool} (hs : CapOk c w eb s bits)
    {b : VB w} (hb : VR c w eb b bits') :
    CapOk c w eb (CVB.change A s b) bits' ∧
      (b.vec.length ≤ s.cap → (CVB.change A s b).cap = s.cap ∧ (CVB.change A s b).moves = s.moves) := by
  have hr := hs.room
  have h1 := hA.grow s.base.vec.length s.cap (b.vec.length - s.base.vec.length)
  unfold CVB.change CVB.vecReserve
  split
  · exact ⟨⟨hb, by simp only; omega⟩, fun _ => ⟨rfl, rfl⟩⟩
  · exact ⟨⟨hb, by simp only; omega⟩, fun _ => by omega⟩

/-- C70: requests whose number of bits is not a `u64`, or whose number of blocks is not a `usize`, panic. (In
release builds a number of bits within one block of 2^64 wraps around instead: C17_release_counterexample, C99_fill_wraps.) -/
theorem C70_overflow_panics (c : Cfg) (h : IsBlk w) (A : Alloc) (s : CVB w) {n : Nat} :
    (2 ^ 64 ≤ n * eb → CVB.withCapacity c A w eb n = .panic) ∧
    (2 ^ 64 ≤ (s.base.len + n) * eb → 1 ≤ eb → CVB.reserve c A s eb n = .panic ∧ CVB.reserveExact c A s eb n = .panic) ∧
    (n * eb + w < 2 ^ 64 → 2 ^ c.usz ≤ blocksFor w (n * eb) → CVB.withCapacity c A w eb n = .panic) := by
  refine ⟨fun hn => ?_, fun hn he => ?_, fun h1 h2 => ?_⟩
  · rw [CVB.withCapacity, lenToBlockLen, checkedMul, if_neg (by omega)]
    rfl
  · have : CVB.additionalBlocks c s eb n = .panic := by
      have e : ((checkedAdd 64 s.base.len n).bind fun e => checkedMul 64 e eb) = none := by
        unfold checkedAdd
        split
        · rw [Option.bind_some, checkedMul, if_neg (by omega)]
        · rfl
      unfold CVB.additionalBlocks
      rw [e]
      rfl
    rw [CVB.reserve, CVB.reserveExact, this]
    exact ⟨rfl, rfl⟩
  · rw [CVB.withCapacity, lenToBlockLen, checkedMul, if_pos (by omega)]
    simp only
    rw [checkedCeilDivNbits_eq c h (by omega), toUsize, if_neg (by unfold blocksFor at h2; omega)]
    rfl

/-- The length after an operation. -/
def capLen (len : Nat) : CapOp w → Nat
  | .push _ => len + 1
  | .pop => len - 1
  | .truncate n => min len n
  | .clear => 0
  | .resize n _ => n
  | _ => len

/-- An operation whose result, or whose request, does not exceed the address space. -/
def capFits (c : Cfg) (eb len : Nat) : CapOp w → Prop
  | .reserve n => Fits c.usz w ((len + n) * eb)
  | .reserveExact n => Fits c.usz w ((len + n) * eb)
  | op => Fits c.usz w (capLen len op * eb)

/-- An operation that changes the contents, as opposed to one that asks for capacity or gives it back. -/
def CapOp.edits : CapOp w → Prop
  | .push _ => True
  | .pop => True
  | .truncate _ => True
  | .clear => True
  | .resize _ _ => True
  | _ => False

theorem capStep_ok (c : Cfg) (h : IsBlk w) {A : Alloc} (hA : A.Lawful) (he1 : 1 ≤ eb) (hew : eb ≤ w) {s : CVB w}
    {bits : List Bool} (hs : CapOk c w eb s bits) (op : CapOp w) (hf : capFits c eb s.base.len op) :
    ∃ s' bits', capStep c A eb s op = .ok s' ∧ CapOk c w eb s' bits' ∧ s'.base.len = capLen s.base.len op ∧
      (op.edits → blocksFor w (capLen s.base.len op * eb) ≤ s.cap → s'.cap = s.cap ∧ s'.moves = s.moves) := by
  have hl := hs.rep.len
  have key : ∀ {b : VB w} {bits' : List Bool}, VR c w eb b bits' → bits'.length = capLen s.base.len op * eb →
      CapOk c w eb (CVB.change A s b) bits' ∧ (CVB.change A s b).base.len = capLen s.base.len op ∧
      (op.edits → blocksFor w (capLen s.base.len op * eb) ≤ s.cap →
        (CVB.change A s b).cap = s.cap ∧ (CVB.change A s b).moves = s.moves) := by
    intro b bits' hb hlen
    obtain ⟨k1, k2⟩ := C70_change c hA hs hb
    refine ⟨k1, ?_, fun _ hc => k2 (by rw [hb.blocks, hlen]; exact hc)⟩
    exact Nat.eq_of_mul_eq_mul_right he1 (hb.len.trans hlen)
  have keep : op.edits = False → capLen s.base.len op = s.base.len → ∀ s' : CVB w, CapOk c w eb s' bits → s'.base = s.base →
      CapOk c w eb s' bits ∧ s'.base.len = capLen s.base.len op ∧
      (op.edits → blocksFor w (capLen s.base.len op * eb) ≤ s.cap → s'.cap = s.cap ∧ s'.moves = s.moves) := by
    intro h1 h2 s' h3 h4
    exact ⟨h3, by rw [h4, h2], fun h5 => by rw [h1] at h5; exact h5.elim⟩
  cases op with
  | push x =>
    have e : (s.base.len + 1) * eb = bits.length + eb := by rw [Nat.succ_mul, hl]
    obtain ⟨b, h1, h2⟩ := hs.rep.pushBits_ok h he1 hew (by rw [← e]; exact hf) x
    refine ⟨CVB.change A s b, _, by rw [capStep, CVB.pushBits, h1]; rfl, key h2 ?_⟩
    show _ = (s.base.len + 1) * eb
    rw [e]; simp [natBits]
  | pop =>
    by_cases hb : bits = []
    · subst hb
      have h0 : s.base.len = 0 := (hs.rep.nil_iff he1).2 rfl
      refine ⟨CVB.change A s s.base, _, by rw [capStep, CVB.popBits, hs.rep.popBits_nil he1]; rfl, key hs.rep ?_⟩
      show _ = (s.base.len - 1) * eb
      rw [h0]; simp
    · obtain ⟨b, h1, h2⟩ := hs.rep.popBits_ok h he1 hew hb
      refine ⟨CVB.change A s b, _, by rw [capStep, CVB.popBits, h1]; rfl, key h2 ?_⟩
      show _ = (s.base.len - 1) * eb
      rw [Nat.sub_mul, Nat.one_mul, hl, List.length_take]; omega
  | truncate n =>
    obtain ⟨b, h1, h2⟩ := hs.rep.truncate_eq h he1 n
    refine ⟨CVB.change A s b, _, by rw [capStep, CVB.truncate, h1]; rfl, key h2 ?_⟩
    show _ = min s.base.len n * eb
    rw [List.length_take, ← hl, ← Nat.mul_min_mul_right, Nat.min_comm]
  | clear =>
    exact ⟨CVB.change A s s.base.clear, _, rfl, key (b := s.base.clear) (VR.nil c h eb) (by simp [capLen])⟩
  | resize n x =>
    obtain ⟨b, h1, h2⟩ := hs.rep.resize_ok h he1 hew (m := n) hf x
    refine ⟨CVB.change A s b, _, by rw [capStep, CVB.resize, h1]; rfl, key h2 ?_⟩
    show _ = n * eb
    rw [List.length_append, List.length_take, ← hl, List.length_flatten, List.map_replicate, List.sum_replicate_nat,
      show (natBits eb x.toNat).length = eb by simp [natBits], Nat.mul_min_mul_right, ← Nat.add_mul]
    congr 1; omega
  | reserve n =>
    have hf' : Fits c.usz w (bits.length + n * eb) := by rw [← hl, ← Nat.add_mul]; exact hf
    obtain ⟨s', h1, h2, h3, -⟩ := (C70_reserve_partial c h hA he1 hs hf').1
    exact ⟨s', bits, h1, keep rfl rfl s' h2 h3⟩
  | reserveExact n =>
    have hf' : Fits c.usz w (bits.length + n * eb) := by rw [← hl, ← Nat.add_mul]; exact hf
    obtain ⟨s', h1, h2, h3, -⟩ := (C70_reserve_partial c h hA he1 hs hf').2
    exact ⟨s', bits, h1, keep rfl rfl s' h2 h3⟩
  | blockReserve n =>
    obtain ⟨⟨h2, h3, -⟩, -⟩ := C70_block_reserve c hA hs n
    exact ⟨_, bits, rfl, keep rfl rfl _ h2 h3⟩
  | blockReserveExact n =>
    obtain ⟨-, h2, h3, -⟩ := C70_block_reserve c hA hs n
    exact ⟨_, bits, rfl, keep rfl rfl _ h2 h3⟩
  | shrinkToFit =>
    obtain ⟨h2, h3, -⟩ := C70_shrink c hA hs
    exact ⟨_, bits, rfl, keep rfl rfl _ h2 h3⟩

/-- Every operation of the sequence satisfies `P` at the length it is applied to. -/
def capAll (P : Nat → CapOp w → Prop) : Nat → List (CapOp w) → Prop
  | _, [] => True
  | len, op :: ops => P len op ∧ capAll P (capLen len op) ops

/-- C82: after any sequence of operations that fits the address space, the length is as expected and
`capacity() ≥ len()`. -/
theorem C82_capacity_ge_len (c : Cfg) (h : IsBlk w) {A : Alloc} (hA : A.Lawful) (he1 : 1 ≤ eb) (hew : eb ≤ w) {s : CVB w}
    {bits : List Bool} (hs : CapOk c w eb s bits) (ops : List (CapOp w)) (hf : capAll (capFits c eb) s.base.len ops) :
    ∃ s', capRun c A eb ops s = .ok s' ∧ s'.base.len = ops.foldl capLen s.base.len ∧
      (s'.cap * w < 2 ^ 64 → ∃ k, CVB.capacity c s' eb = .ok k ∧ s'.base.len ≤ k) := by
  induction ops generalizing s bits with
  | nil =>
    refine ⟨s, rfl, rfl, fun hc => ⟨s.cap * w / eb, ?_, ?_⟩⟩
    · rw [CVB.capacity, mulNbits_ok c h (by exact hc), Res.ok_bind, divN_ok he1]
      rfl
    · rw [Nat.le_div_iff_mul_le he1, hs.rep.len]
      have := hs.room
      rw [hs.rep.blocks] at this
      exact Nat.le_trans (le_blocksFor_mul bits.length h.pos) (Nat.mul_le_mul_right w this)
  | cons op ops ih =>
    obtain ⟨s1, bits1, h1, h2, h3, -⟩ := capStep_ok c h hA he1 hew hs op hf.1
    obtain ⟨s', g1, g2, g3⟩ := ih h2 (by rw [h3]; exact hf.2)
    exact ⟨s', by rw [capRun, h1]; exact g1, by rw [g2, h3]; rfl, g3⟩

/-- Edits never reallocate while the length stays within what the capacity holds. -/
theorem capRun_room (c : Cfg) (h : IsBlk w) {A : Alloc} (hA : A.Lawful) (he1 : 1 ≤ eb) (hew : eb ≤ w) {n : Nat}
    (hf : Fits c.usz w (n * eb)) {s : CVB w} {bits : List Bool} (hs : CapOk c w eb s bits)
    (hcap : blocksFor w (n * eb) ≤ s.cap) (ops : List (CapOp w))
    (hops : capAll (fun len op => op.edits ∧ capLen len op ≤ n) s.base.len ops) :
    ∃ s', capRun c A eb ops s = .ok s' ∧ s'.moves = s.moves ∧ s'.cap = s.cap := by
  induction ops generalizing s bits with
  | nil => exact ⟨s, rfl, rfl, rfl⟩
  | cons op ops ih =>
    obtain ⟨⟨he, hn⟩, hops⟩ := hops
    have hm : capLen s.base.len op * eb ≤ n * eb := Nat.mul_le_mul_right eb hn
    have hfits : capFits c eb s.base.len op := by
      cases op <;> first | exact he.elim | exact hf.mono hm
    obtain ⟨s1, bits1, h1, h2, h3, h4⟩ := capStep_ok c h hA he1 hew hs op hfits
    obtain ⟨h5, h6⟩ := h4 he (Nat.le_trans (blocksFor_mono hm) hcap)
    obtain ⟨s', g1, g2, g3⟩ := ih h2 (by rw [h5]; exact hcap) (by rw [h3]; exact hops)
    exact ⟨s', by rw [capRun, h1]; exact g1, g2.trans h6, g3.trans h5⟩

/-- C82: a vector made with capacity for `n` elements does not reallocate under any sequence of `push`, `pop`,
`truncate`, `clear` and `resize`, in any order, as long as its length never exceeds `n`. -/
theorem C82_no_reallocation (c : Cfg) (h : IsBlk w) {A : Alloc} (hA : A.Lawful) (he1 : 1 ≤ eb) (hew : eb ≤ w) {n : Nat}
    (hf : Fits c.usz w (n * eb)) (ops : List (CapOp w)) (hops : capAll (fun len op => op.edits ∧ capLen len op ≤ n) 0 ops) :
    ∃ s s', CVB.withCapacity c A w eb n = .ok s ∧ capRun c A eb ops s = .ok s' ∧ s'.moves = 0 ∧ s'.cap = s.cap ∧
      s'.base.len = ops.foldl capLen 0 := by
  obtain ⟨s, h1, h2, h3, -⟩ := C70_with_capacity c h hA he1 hew hf
  have hcap : blocksFor w (n * eb) ≤ s.cap := by
    rw [CVB.withCapacity, lenToBlockLen_ok h hf] at h1
    cases h1
    exact hA.withCapacity _
  have hs : CapOk c w eb s [] := ⟨by rw [h2]; exact VR.nil c h eb, by rw [h2]; exact Nat.zero_le _⟩
  have h0 : s.base.len = 0 := by rw [h2]; rfl
  obtain ⟨s', g1, g2, g3⟩ := capRun_room c h hA he1 hew hf hs hcap ops (by rw [h0]; exact hops)
  refine ⟨s, s', h1, g1, g2.trans h3, g3, ?_⟩
  have hfits : ∀ (ops : List (CapOp w)) (len : Nat), capAll (fun len op => op.edits ∧ capLen len op ≤ n) len ops →
      capAll (capFits c eb) len ops := by
    intro ops
    induction ops with
    | nil => exact fun _ _ => trivial
    | cons op ops ih =>
      rintro len ⟨⟨he, hn⟩, hops⟩
      refine ⟨?_, ih _ hops⟩
      have hm : capLen len op * eb ≤ n * eb := Nat.mul_le_mul_right eb hn
      cases op <;> first | exact he.elim | exact hf.mono hm
  obtain ⟨s2, k1, k2, -⟩ := C82_capacity_ge_len c h hA he1 hew hs ops (hfits ops _ (by rw [h0]; exact hops))
  rw [g1] at k1
  cases k1
  rw [k2, h0]

example : ∃ s, (CVB.withCapacity ⟨true, .p64, true⟩ .exact 8 5 3 >>= capRun ⟨true, .p64, true⟩ .exact 5
    [.push 3#8, .resize 3 9#8, .pop, .truncate 1, .push 4#8, .push 5#8, .clear, .resize 3 1#8]) = .ok s ∧ s.moves = 0 ∧ s.base.len = 3 :=
  ⟨⟨⟨3, [0x21#8, 0x04#8]⟩, 2, 0⟩, by decide⟩

example : CVB.withCapacity ⟨true, .p64, true⟩ .exact 8 5 3 = .ok ⟨⟨0, []⟩, 2, 0⟩ ∧
    CVB.capacity ⟨true, .p64, true⟩ (⟨⟨0, []⟩, 2, 0⟩ : CVB 8) 5 = .ok 3 := by decide

/-- C70: a reservation reallocates once if the room is not there already, and not at all if it is. -/
theorem C70_reallocations (A : Alloc) {s : CVB w} (hroom : s.base.vec.length ≤ s.cap) (n : Nat) :
    (s.blockReserve A n).moves = s.moves + (if s.base.vec.length + n ≤ s.cap then 0 else 1) ∧
    (s.blockReserveExact A n).moves = s.moves + (if s.base.vec.length + n ≤ s.cap then 0 else 1) := by
  unfold CVB.blockReserve CVB.blockReserveExact CVB.vecReserve CVB.vecReserveExact
  have e : n ≤ s.cap - s.base.vec.length ↔ s.base.vec.length + n ≤ s.cap := by omega
  simp only [e]
  by_cases h : s.base.vec.length + n ≤ s.cap
  · simp [h]
  · simp [h]

example : ((⟨⟨3, [5#8]⟩, 2, 4⟩ : CVB 8).blockReserveExact .exact 2).moves = 5 ∧
    ((⟨⟨3, [5#8]⟩, 2, 4⟩ : CVB 8).blockReserveExact .exact 1).moves = 4 := by decide

/-! Each theorem of this file that has hypotheses is applied to concrete data in `Verif/Instances/Capacity.lean`. -/

end Succinct
