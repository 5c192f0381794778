import Verif.Lemmas.IntVector
import Verif.Lemmas.Terminates
import Verif.Props.BitVector
/-! Properties C22–C28, C73 (`IntVector`) and C76. -/
namespace Succinct
open Spec

/-- A reachable `IntVector` of element width `k`: made by a constructor, then changed by any sequence of
calls. `xs` is what a plain list of numbers holds after the same calls. -/
structure IvReach (c : Cfg) (w k : Nat) (s : IV w) (xs : List Nat) : Prop where
  run : ∃ (i : IvInit w) (ops : List (IvOp w)) (s0 : IV w) (os os' : List IvOut),
    1 ≤ k ∧ k ≤ w ∧ i.Ok c.usz k ∧ ivOpsOk c.usz w k (i.elems k) ops ∧ ivInit c k i = .ok s0 ∧
    ivRun c s0 ops = .ok (os, s) ∧ ivSpecRun w k (i.elems k) ops = some (os', xs)

theorem IvReach.rep (h : IsBlk w) (hr : IvReach c w k s xs) : IR c w k s xs := by
  obtain ⟨i, ops, s0, os, os', h1, hw, hi, hops, h0, hrun, hspec⟩ := hr.run
  obtain ⟨s0', h0', hR0⟩ := ivInit_ok c h h1 hw i hi
  obtain rfl : s0' = s0 := by rw [h0'] at h0; exact Res.ok.inj h0
  have := ivRun_refines c h ops hR0 hops
  rw [hspec] at this
  obtain ⟨s', hs', hR'⟩ := this
  obtain rfl : s' = s := by rw [hs'] at hrun; exact congrArg Prod.snd (Res.ok.inj hrun)
  exact hR'

/-- C22. From any constructor, any sequence of calls returns on `IntVector` exactly what it returns on a
list of numbers below `2^k`, and panics exactly when the list operation is out of range or the value
does not fit. -/
theorem C22_int_vector_is_list (c : Cfg) (h : IsBlk w) (hk : 1 ≤ k) (hkw : k ≤ w) (i : IvInit w)
    (ops : List (IvOp w)) (hi : i.Ok c.usz k) (hops : ivOpsOk c.usz w k (i.elems k) ops) :
    ∃ s0, ivInit c k i = .ok s0 ∧
      (match ivSpecRun w k (i.elems k) ops with
        | some (os, xs) => ∃ s, ivRun c s0 ops = .ok (os, s) ∧ IvReach c w k s xs ∧
            s.len = xs.length ∧ (∀ x ∈ xs, x < 2 ^ k) ∧
            ∀ j, j < 2 ^ c.usz → (do let x ← s.get c j; .ok x.toNat) = expectR xs[j]?
        | none => ivRun c s0 ops = .panic) := by
  obtain ⟨s0, h0, hR0⟩ := ivInit_ok c h hk hkw i hi
  refine ⟨s0, h0, ?_⟩
  have hr := ivRun_refines c h ops hR0 hops
  rcases hs : ivSpecRun w k (i.elems k) ops with _ | ⟨os, xs⟩
  · rw [hs] at hr; exact hr
  · rw [hs] at hr
    obtain ⟨s, hrun, hR⟩ := hr
    refine ⟨s, hrun, ⟨i, ops, s0, os, os, hk, hkw, hi, hops, h0, hrun, hs⟩, hR.len, hR.lt, fun j hj => ?_⟩
    by_cases hjl : j < xs.length
    · obtain ⟨x, h1, h2⟩ := hR.get_ok h hjl
      rw [h1, List.getElem?_eq_getElem hjl, ← h2]; rfl
    · rw [hR.get_panic h (by omega) (fun _ => hj), List.getElem?_eq_none (by omega)]; rfl

/-- The hypotheses are satisfiable and the run is not trivial: 5-bit elements straddle 8-bit blocks. -/
example : ivOpsOk 64 8 5 [] [.push 21#8, .push 17#8, .set 1 9#8, .resize 4 255#8, .pop, .setRandom 1 3 1 6#8, .blockTruncate 1] ∧
    ivSpecRun 8 5 [] [.push 21#8, .push 17#8, .set 1 9#8, .resize 4 255#8, .pop, .setRandom 1 3 1 6#8, .blockTruncate 1] =
      some ([.unit, .unit, .unit, .unit, .optNum (some 31), .unit, .unit], [5]) := by
  constructor
  · simp [ivOpsOk, ivSpec, IvOp.Ok, Fits, blocksFor]
  · decide

/-- C23. `set` changes one element and nothing else (`set_random`: C27). -/
theorem C23_set_isolated (c : Cfg) (h : IsBlk w) {s : IV w} (hr : IvReach c w k s xs) {i : Nat}
    (hi : i < xs.length) (x : BitVec w) (hx : x.toNat < 2 ^ k) :
    ∃ s', s.set c i x = .ok s' ∧ s'.len = s.len ∧ s'.elementBits = k ∧ s'.get c i = .ok x ∧
      ∀ j < xs.length, j ≠ i → s'.get c j = s.get c j := by
  have hR := hr.rep h
  obtain ⟨s', hs', hR'⟩ := hR.set_ok h hi hx
  refine ⟨s', hs', ?_, hR'.eb, ?_, fun j hj hji => ?_⟩
  · show s'.base.len = s.base.len
    rw [hR'.len, hR.len, List.length_set]
  · obtain ⟨y, h1, h2⟩ := hR'.get_ok h (i := i) (by rw [List.length_set]; exact hi)
    rw [List.getElem_set_self] at h2
    rw [h1, BitVec.eq_of_toNat_eq h2]
  · obtain ⟨y, h1, h2⟩ := hR'.get_ok h (i := j) (by rw [List.length_set]; exact hj)
    obtain ⟨z, h3, h4⟩ := hR.get_ok h hj
    rw [List.getElem_set_ne (Ne.symm hji)] at h2
    rw [h1, h3, BitVec.eq_of_toNat_eq (h2.trans h4.symm)]

/-- A straddling element: 3 elements of 7 bits in 8-bit blocks. -/
example : IvReach ⟨true, .p64, true⟩ 8 7 ⟨7, ⟨3, [0xFF#8, 0xFF#8, 0x1F#8]⟩⟩ [127, 127, 127] :=
  ⟨.withFill 3 127#8, [], ⟨7, ⟨3, [0xFF#8, 0xFF#8, 0x1F#8]⟩⟩, [], [], by decide, by decide,
    (by decide : Fits 64 8 (3 * 7)), trivial, by decide, rfl, by decide⟩

example : IV.set ⟨true, .p64, true⟩ (⟨7, ⟨3, [0xFF#8, 0xFF#8, 0x1F#8]⟩⟩ : IV 8) 1 0#8 =
    .ok ⟨7, ⟨3, [0x7F#8, 0xC0#8, 0x1F#8]⟩⟩ := by decide

/-- C24. Values that do not fit are rejected by `push`, `set` and `set_random`. -/
theorem C24_too_large_panics (c : Cfg) (h : IsBlk w) {s : IV w} (hr : IvReach c w k s xs) (x : BitVec w) :
    (2 ^ k ≤ x.toNat → s.push c x = .panic ∧ ∀ i, s.set c i x = .panic) ∧
    (∀ n off i, n ≤ w → 2 ^ n ≤ x.toNat → s.setRandom c off n i x = .panic) := by
  have hR := hr.rep h
  refine ⟨fun hx => ⟨hR.push_panic h x (by omega), fun i => hR.set_panic h (by omega) ?_⟩,
    fun n off i hn hx => hR.setRandom_panic h hn (by omega)⟩
  rintro rfl
  have := x.isLt
  omega

/-- C24, second half: `with_fill` and `resize` store the fill value modulo `2^k` in the new elements and
leave the old ones alone. -/
theorem C24_fill_wraps (c : Cfg) (h : IsBlk w) (hk : 1 ≤ k) (hkw : k ≤ w) (n : Nat)
    (hf : Fits c.usz w (n * k)) (x : BitVec w) :
    (∃ s, IV.withFill c k n x = .ok s ∧ s.len = n ∧
      ∀ i < n, ∃ y, s.get c i = .ok y ∧ y.toNat = x.toNat % 2 ^ k) ∧
    (∀ s xs, IvReach c w k s xs → ∃ s', s.resize c n x = .ok s' ∧ s'.len = n ∧
      ∀ i < n, if i < xs.length then s'.get c i = s.get c i
        else ∃ y, s'.get c i = .ok y ∧ y.toNat = x.toNat % 2 ^ k) := by
  constructor
  · obtain ⟨s, hs, hR⟩ := ivInit_ok c h hk hkw (.withFill n x) hf
    refine ⟨s, hs, hR.len.trans (by simp [IvInit.elems]), fun i hi => ?_⟩
    obtain ⟨y, h1, h2⟩ := hR.get_ok h (i := i) (by simpa [IvInit.elems] using hi)
    exact ⟨y, h1, h2.trans (by simp [IvInit.elems])⟩
  · intro s xs hr
    have hR := hr.rep h
    obtain ⟨s', hs', hR'⟩ := hR.resize_ok h hf x
    have hl : (xs.take n ++ List.replicate (n - xs.length) (x.toNat % 2 ^ k)).length = n := by simp; omega
    refine ⟨s', hs', hR'.len.trans hl, fun i hi => ?_⟩
    obtain ⟨y, h1, h2⟩ := hR'.get_ok h (i := i) (by omega)
    split
    · next hix =>
      obtain ⟨z, h3, h4⟩ := hR.get_ok h hix
      rw [List.getElem_append_left (by simp; omega), List.getElem_take] at h2
      rw [h1, h3, BitVec.eq_of_toNat_eq (h2.trans h4.symm)]
    · next hix =>
      rw [List.getElem_append_right (by simp; omega), List.getElem_replicate] at h2
      exact ⟨y, h1, h2⟩

example : IV.withFill ⟨true, .p64, true⟩ 3 3 (0xFA#8) = .ok ⟨3, ⟨3, [0x92#8, 0x00#8]⟩⟩ := by decide

/-- C25. Every constructor panics for an invalid element width, whatever the other arguments, in every
configuration; valid widths are accepted. -/
theorem C25_width_validated (c : Cfg) (w k : Nat) :
    (¬ (1 ≤ k ∧ k ≤ w) → ∀ i : IvInit w, ivInit c k i = .panic) ∧
    (1 ≤ k → k ≤ w → ∃ s : IV w, IV.new w k = .ok s ∧ s.elementBits = k ∧ s.len = 0) := by
  constructor
  · intro hk i
    have step : ∀ {x : Res (VB w)}, Ends x → (x >>= fun b => IV.create k b) = .panic := by
      intro x hx
      cases x with
      | ok b => exact create_panic hk b
      | panic => rfl
      | diverge => exact absurd rfl hx.ne
    cases i with
    | new => exact create_panic hk _
    | withCapacity n => exact step Ends.VB_withCapacity
    | blockWithCapacity n => exact create_panic hk _
    | withFill n x => exact step Ends.VB_withFill
    | blockWithFill n x => exact step Ends.VB_blockWithFill
  · intro h1 h2
    exact ⟨⟨k, VB.new⟩, create_ok h1 h2 _, rfl, rfl⟩

/-- and no call on a reachable vector changes the width -/
theorem C25_width_invariant (c : Cfg) (h : IsBlk w) {s : IV w} (hr : IvReach c w k s xs) :
    s.elementBits = k ∧ 1 ≤ k ∧ k ≤ w :=
  ⟨(hr.rep h).eb, (hr.rep h).pos, (hr.rep h).le⟩

/-- C26. Equality (derived `Eq`) of reachable vectors: same width and same elements. -/
theorem C26_equality {c c' : Cfg} (h : IsBlk w) {s s' : IV w}
    (hr : IvReach c w k s xs) (hr' : IvReach c' w k' s' xs') : s = s' ↔ k = k' ∧ xs = xs' := by
  have hR := hr.rep h
  have hR' := hr'.rep h
  constructor
  · rintro rfl
    obtain rfl : k = k' := hR.eb.symm.trans hR'.eb
    exact ⟨rfl, packBits_inj k hR.pos _ _ hR.lt hR'.lt (hR.rep.bits_of_eq hR'.rep)⟩
  · rintro ⟨rfl, rfl⟩
    have h1 := hR.rep.eq_of_bits hR.pos hR'.rep
    have h2 := hR.eb.trans hR'.eb.symm
    cases s; cases s'; simp_all

/-- Two histories with the same contents. -/
example : ∃ s : IV 8, ivRun ⟨true, .p64, true⟩ (⟨5, ⟨0, []⟩⟩ : IV 8) [.push 3#8, .push 9#8, .resize 5 31#8, .truncate 2] =
      .ok ([.unit, .unit, .unit, .unit], s) ∧
    ivRun ⟨true, .p64, true⟩ (⟨5, ⟨0, []⟩⟩ : IV 8) [.resize 2 31#8, .set 0 3#8, .set 1 9#8] =
      .ok ([.unit, .unit, .unit], s) :=
  ⟨⟨5, ⟨2, [0x23#8, 0x01#8]⟩⟩, by decide, by decide⟩

/-- C27. Reinterpreting access in every reachable state. `bits` is the bit string of the vector. -/
theorem C27_reinterpret (c : Cfg) (h : IsBlk w) {s : IV w} (hr : IvReach c w k s xs) {n : Nat}
    (hn : 1 ≤ n) (hnw : n ≤ w) (off i : Nat) :
    let bits := packBits k xs
    (off + i * n + n ≤ bits.length →
      (∃ x, s.getRandom c off n i = .ok x ∧ x.toNat = bitsVal ((bits.drop (off + i * n)).take n)) ∧
      ∀ x : BitVec w, x.toNat < 2 ^ n → ∃ s' ys, s.setRandom c off n i x = .ok s' ∧ IR c w k s' ys ∧
        packBits k ys = overwrite bits (off + i * n) (natBits n x.toNat)) ∧
    (bits.length < off + i * n + n →
      s.getRandom c off n i = .panic ∧ ∀ x, s.setRandom c off n i x = .panic) := by
  have hR := hr.rep h
  simp only
  refine ⟨fun hp => ⟨?_, fun x hx => ?_⟩, fun hp => ⟨?_, fun x => ?_⟩⟩
  · rw [length_packBits] at hp
    exact hR.getRandom_ok h hn hnw hp
  · have hp' := hp
    rw [length_packBits] at hp
    obtain ⟨s', hs', hR'⟩ := hR.setRandom_ok h hn hnw hp hx
    refine ⟨s', _, hs', hR', ?_⟩
    have hl : (overwrite (packBits k xs) (off + i * n) (natBits n x.toNat)).length = xs.length * k := by
      rw [length_overwrite (by rw [length_natBits]; exact hp'), length_packBits]
    rw [packBits_unpack k hR.pos, floorTo, hl, Nat.mul_div_cancel _ hR.pos, ← hl, List.take_length]
  · exact hR.getRandom_panic h hnw (by rwa [length_packBits] at hp)
  · rw [length_packBits] at hp
    exact hR.setRandom_panic h hnw (by omega)

example : IV.getRandom ⟨true, .p64, true⟩ (⟨7, ⟨3, [0x7F#8, 0xC0#8, 0x1F#8]⟩⟩ : IV 8) 2 4 1 = .ok (1 : BitVec 8) ∧
    IV.getRandom ⟨false, .p64, false⟩ (⟨7, ⟨3, [0x7F#8, 0xC0#8, 0x1F#8]⟩⟩ : IV 8) (2 ^ 64 - 1) 4 1 = .panic := by decide

/-- C28. The bit vector view. -/
theorem C28_bit_view (c : Cfg) (h : IsBlk w) {s : IV w} (hr : IvReach c w k s xs) :
    (ivBitVec c w).bitLen s = .ok (xs.length * k) ∧
    ∀ i (hi : i < xs.length), ∀ j < k, (ivBitVec c w).getBit s (i * k + j) = .ok (xs[i].testBit j) := by
  have hR := hr.rep h
  have hlaw := iv_law c h
  refine ⟨(hlaw.bitLen hR.ivR).trans (by rw [length_packBits]), fun i hi j hj => ?_⟩
  have he := span_end (k := k) hi
  have hlt := hR.rep.fits.lt h.pos
  rw [length_packBits] at hlt
  have hin : i * k + j < (packBits k xs).length := by rw [length_packBits]; omega
  have := getD_packBits k hR.pos xs (i * k + j)
  rw [mul_add_div' hj, mul_add_mod' hj, List.getElem?_eq_getElem hi] at this
  rw [hlaw.getBit hR.ivR _ (by omega), expectR_eq_ite, if_pos hin, this]; rfl

/-- It is a lawful bit vector (C09, C10 apply to it). -/
theorem C28_lawful (c : Cfg) (h : IsBlk w) : BVLaw c (ivBitVec c w) (ivR c w) ∧ BVMutLaw c (ivBitVecMut c w) (ivR c w) ∧
    BVBlockLaw c (ivBitVec c w) (ivR c w) ∧ BVPadLaw (ivBitVec c w) (ivR c w) :=
  ⟨iv_law c h, iv_mut_law c h, iv_block c h, iv_pad c h⟩

/-! ### ordering -/

/-- C73 for `IntVector`. Vectors of different element widths are ordered by width first. -/
theorem C73_int_vector_order (c : Cfg) (h : IsBlk w) {s t : IV w}
    (hs : IvReach c w k s xs) (ht : IvReach c w k' t ys) :
    (IV.cmp s t = .eq ↔ k = k' ∧ xs = ys) ∧ IV.cmp t s = (IV.cmp s t).swap ∧
    (k < k' → IV.cmp s t = .lt) ∧
    (k = k' → xs.length < ys.length → IV.cmp s t = .lt) ∧
    (∀ u, (IV.cmp s t).isLE → (IV.cmp t u).isLE → (IV.cmp s u).isLE) := by
  have hR := hs.rep h
  have hR' := ht.rep h
  refine ⟨?_, ?_, fun hl => ?_, fun hk hl => ?_, fun u h1 h2 => ?_⟩
  · rw [← C26_equality h hs ht]
    unfold IV.cmp
    rw [Ordering.then_eq_eq, VB.cmp_eq, Nat.compare_eq_eq]
    cases s; cases t; simp
  · unfold IV.cmp
    rw [Ordering.swap_then, VB.cmp_swap, Nat.compare_swap]
  · unfold IV.cmp
    rw [hR.eb, hR'.eb, Nat.compare_eq_lt.2 hl]; rfl
  · unfold IV.cmp VB.cmp
    rw [hR.eb, hR'.eb, Nat.compare_eq_eq.2 hk, hR.len, hR'.len, Nat.compare_eq_lt.2 hl]; rfl
  · exact then_trans (compare_nat_trans _ _ _).1 (compare_nat_trans _ _ _).2
      (fun h1 h2 => VB.cmp_trans _ _ _ h1 h2) h1 h2

example : IV.cmp (⟨3, ⟨2, [0x3F#8]⟩⟩ : IV 8) ⟨4, ⟨1, [0#8]⟩⟩ = .lt := by decide

/-! ### out-of-range indices -/

/-- C76, partial: an index past the end panics, unless the elements are block-sized and the index does
not fit in a `usize`. Missing: that case, see `C76_index_truncated`; on 64-bit targets it cannot occur. -/
theorem C76_out_of_range_partial (c : Cfg) (h : IsBlk w) {s : IV w} (hr : IvReach c w k s xs) {i : Nat}
    (hi : xs.length ≤ i) (hu : k = w → i < 2 ^ c.usz) :
    s.get c i = .panic ∧ ∀ x, s.set c i x = .panic :=
  ⟨(hr.rep h).get_panic h hi hu, fun _ => (hr.rep h).set_panic h (by omega) hu⟩

/-- On a 64-bit target the property holds without restriction. -/
theorem C76_out_of_range_64 (d a : Bool) (h : IsBlk w) {s : IV w} (hr : IvReach ⟨d, .p64, a⟩ w k s xs) {i : Nat}
    (hi : xs.length ≤ i) (hu : i < 2 ^ 64) :
    s.get ⟨d, .p64, a⟩ i = .panic ∧ ∀ x, s.set ⟨d, .p64, a⟩ i x = .panic :=
  C76_out_of_range_partial ⟨d, .p64, a⟩ h hr hi (fun _ => hu)

/-- On a 32-bit target `get(2^32)` of a one-element vector of block-sized elements returns element 0,
and `set(2^32, x)` overwrites it. -/
theorem C76_index_truncated (d a : Bool) (x : BitVec w) :
    let s : IV w := ⟨w, ⟨1, [x]⟩⟩
    s.get ⟨d, .p32, a⟩ (2 ^ 32) = .ok x := by
  have : asUsize ⟨d, .p32, a⟩ (2 ^ 32) = 0 := by cases d <;> cases a <;> decide
  simp only [IV.get, IV.isBlockSized, decide_true, if_true, this]
  rfl

theorem C76_set_truncated (d a : Bool) :
    (⟨8, ⟨1, [5#8]⟩⟩ : IV 8).set ⟨d, .p32, a⟩ (2 ^ 32) 7#8 = .ok ⟨8, ⟨1, [7#8]⟩⟩ := by
  cases d <;> cases a <;> decide

/-! Each theorem of this file that has hypotheses is applied to concrete data in `Verif/Instances/IntVector.lean`. -/

end Succinct
