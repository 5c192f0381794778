import Verif.Lemmas.BitVector
/-! Properties C14–C21 and C73 (`BitVector`). -/
namespace Succinct
open Spec

/-- A reachable `BitVector`: made by a constructor, then changed by any sequence of calls. `bits` is
what a plain list of booleans holds after the same calls. -/
structure BvReach (c : Cfg) (w : Nat) (s : VB w) (bits : List Bool) : Prop where
  run : ∃ (i : BvInit w) (ops : List (BvOp w)) (s0 : VB w) (os os' : List (BvOut w)),
    i.Ok c.usz ∧ bvOpsOk c.usz w i.bits ops ∧ bvInit c i = .ok s0 ∧ bvRun c s0 ops = .ok (os, s) ∧
    bvSpecRun w i.bits ops = some (os', bits)

theorem BvReach.rep (h : IsBlk w) (hr : BvReach c w s bits) : bvR c w s bits := by
  obtain ⟨i, ops, s0, os, os', hi, hops, h0, hrun, hspec⟩ := hr.run
  obtain ⟨s0', h0', hR0⟩ := bvInit_ok c h i hi
  obtain rfl : s0' = s0 := by rw [h0'] at h0; exact Res.ok.inj h0
  have := bvRun_refines c h ops hR0 hops
  rw [hspec] at this
  obtain ⟨s', hs', hR'⟩ := this
  obtain rfl : s' = s := by rw [hs'] at hrun; exact congrArg Prod.snd (Res.ok.inj hrun)
  exact hR'

/-- C14. From any constructor, any sequence of calls returns on `BitVector` exactly what it returns on
a list of booleans, and panics exactly when the list operation is out of range. -/
theorem C14_bit_vector_is_list (c : Cfg) (h : IsBlk w) (i : BvInit w) (ops : List (BvOp w))
    (hi : i.Ok c.usz) (hops : bvOpsOk c.usz w i.bits ops) :
    ∃ s0, bvInit c i = .ok s0 ∧
      (match bvSpecRun w i.bits ops with
        | some (os, bits) => ∃ s, bvRun c s0 ops = .ok (os, s) ∧ BvReach c w s bits ∧
            (bvBitVec c w).bitLen s = .ok bits.length ∧
            ∀ k < 2 ^ 64, (bvBitVec c w).getBit s k = expectR bits[k]?
        | none => bvRun c s0 ops = .panic) := by
  obtain ⟨s0, h0, hR0⟩ := bvInit_ok c h i hi
  refine ⟨s0, h0, ?_⟩
  have hr := bvRun_refines c h ops hR0 hops
  rcases hs : bvSpecRun w i.bits ops with _ | ⟨os, bits⟩
  · rw [hs] at hr; exact hr
  · rw [hs] at hr
    obtain ⟨s, hrun, hR⟩ := hr
    exact ⟨s, hrun, ⟨i, ops, s0, os, os, hi, hops, h0, hrun, hs⟩, bv_bitLen c hR,
      fun k hk => (bv_law c h).getBit hR k hk⟩

/-- The hypotheses are satisfiable and the run is not trivial. -/
example : bvOpsOk 64 8 [] [.pushBit true, .pushBlock 5#8, .setBits 3 7 0x7F#8, .resize 20 true, .popBit] ∧
    bvSpecRun 8 [] [.pushBit true, .pushBlock 5#8, .setBits 3 7 0x7F#8, .resize 20 true, .popBit] =
      some ([.unit, .unit, .unit, .unit, .optBit (some true)],
        [true, false, false, true, true, true, true, true, true, true, true, false, false, false, false, false,
          true, true, true]) := by
  constructor
  · simp [bvOpsOk, bvSpec, BvOp.Ok, Fits, blocksFor, padTo, overwrite, natBits, blockBits]
  · decide

/-- C15. Two reachable bit vectors are equal (derived `Eq`) iff they hold the same bits, whatever their
histories; they may even come from differently compiled builds. -/
theorem C15_equality_is_extensional {c c' : Cfg} (h : IsBlk w) {s s' : VB w}
    (hr : BvReach c w s bits) (hr' : BvReach c' w s' bits') : s = s' ↔ bits = bits' := by
  constructor
  · rintro rfl; exact (hr.rep h).bits_of_eq (hr'.rep h)
  · rintro rfl; exact (hr.rep h).eq_of_bits Nat.one_pos (hr'.rep h)

/-- Two different histories with the same contents: growing past a block and back leaves no trace. -/
example : ∃ s : VB 8, bvRun ⟨true, .p64, true⟩ (⟨0, []⟩ : VB 8) [.resize 20 true, .truncate 3] = .ok ([.unit, .unit], s) ∧
    bvRun ⟨true, .p64, true⟩ (⟨0, []⟩ : VB 8) [.pushBit true, .pushBit true, .pushBit true] =
      .ok ([.unit, .unit, .unit], s) := by
  exact ⟨⟨3, [7#8]⟩, by decide, by decide⟩

/-- C16. In every reachable state, in both build modes, an access past the end panics. -/
theorem C16_out_of_range (c : Cfg) (h : IsBlk w) {s : VB w} (hr : BvReach c w s bits) :
    (∀ i, bits.length ≤ i → i < 2 ^ 64 → (bvBitVec c w).getBit s i = .panic) ∧
    (∀ i v, bits.length ≤ i → i < 2 ^ 64 → (bvBitVecMut c w).setBit s i v = .panic) ∧
    (∀ i, blocksFor w bits.length ≤ i → (bvBitVec c w).getBlock s i = .panic) ∧
    (∀ i v, blocksFor w bits.length ≤ i → (bvBitVecMut c w).setBlock s i v = .panic) ∧
    (∀ p n, p < 2 ^ 64 → n ≤ w → bits.length < p + n → (bvBitVec c w).getBits s p n = .panic) ∧
    (∀ p n v, p < 2 ^ 64 → n ≤ w → bits.length < p + n → (bvBitVecMut c w).setBits s p n v = .panic) := by
  have hR := hr.rep h
  refine ⟨fun i hi hu => ?_, fun i v hi _ => hR.setBit_panic hi v, fun i hi => ?_,
    fun i v hi => hR.setBlock_panic hi v, fun p n hp hn hl => bv_getBits_panic c h hR hp hn hl,
    fun p n v hp hn hl => bv_setBits_panic c h hR v hp hn hl⟩
  · rw [(bv_law c h).getBit hR i hu, List.getElem?_eq_none hi]; rfl
  · exact (hR.getBlock_eq h i).trans (if_neg (by omega))

/-- Bit 3 of a 3-bit vector is physically present (the block has 8 bits) but may not be read. -/
example : (bvBitVec ⟨false, .p64, false⟩ 8).getBit ⟨3, [7#8]⟩ 3 = .panic ∧
    (bvBitVec ⟨false, .p64, false⟩ 8).getBits ⟨3, [7#8]⟩ (2 ^ 64 - 1) 4 = .panic := by decide

/-- C17, values. -/
theorem C17_fill (c : Cfg) (h : IsBlk w) :
    (∀ n b, Fits c.usz w n → ∃ s, BV.withFill c w n b = .ok s ∧ BvReach c w s (List.replicate n b)) ∧
    (∀ n (x : BitVec w), Fits c.usz w (n * w) → ∃ s, BV.blockWithFill c n x = .ok s ∧
      BvReach c w s (List.replicate n (blockBits x)).flatten) := by
  refine ⟨fun n b hf => ?_, fun n x hf => ?_⟩
  · obtain ⟨s, hs, -⟩ := bv_withFill c h hf b
    exact ⟨s, hs, ⟨.withFill n b, [], s, [], [], hf, trivial, hs, rfl, rfl⟩⟩
  · obtain ⟨s, hs, -⟩ := bv_blockWithFill c h hf x
    exact ⟨s, hs, ⟨.blockWithFill n x, [], s, [], [], hf, trivial, hs, rfl, rfl⟩⟩

/-- C17, partial panic clause: a length whose block count is not a `usize` is rejected. Missing: in a
build without overflow checks, lengths within `w - 1` of `u64::MAX` are not rejected, see
`C17_release_counterexample`. -/
theorem C17_too_large_partial (c : Cfg) (h : IsBlk w) (n : Nat) (b : Bool)
    (hc : (n + (w - 1) < 2 ^ 64 ∧ 2 ^ c.usz ≤ blocksFor w n) ∨ (2 ^ 64 ≤ n + (w - 1) ∧ c.debug = true)) :
    BV.withFill c w n b = .panic ∧ ∀ s : VB w, BV.resize c s n b = .panic := by
  have key : ∃ o : Res (Option Nat), checkedCeilDivNbits c w n = o ∧ (o = .panic ∨ o = .ok none) := by
    rcases hc with ⟨h1, h2⟩ | ⟨h1, h2⟩
    · refine ⟨_, checkedCeilDivNbits_eq c h h1, Or.inr ?_⟩
      rw [toUsize, if_neg]
      exact Nat.not_lt.2 h2
    · refine ⟨_, rfl, Or.inl ?_⟩
      have hw := h.pos
      unfold checkedCeilDivNbits
      rw [subN_ok (by omega), Res.ok_bind, addN, if_neg (by omega), overflow, if_pos h2]; rfl
  obtain ⟨o, ho, hcase⟩ := key
  constructor
  · unfold BV.withFill
    rw [ho]
    rcases hcase with rfl | rfl <;> rfl
  · intro s
    unfold BV.resize
    rw [ho]
    rcases hcase with rfl | rfl <;> rfl

/-- On a 32-bit target 2^40 bits of `u64` blocks are fine for `u64` arithmetic but not for `usize`. -/
example : (2 ^ 40 + (8 - 1) < 2 ^ 64 ∧ 2 ^ (Cfg.mk false .p32 false).usz ≤ blocksFor 8 (2 ^ 40)) := by decide

/-- C17/C18 counterexamples in a build without overflow checks: a huge length gives an empty vector,
and `resize` to it destroys the contents. -/
theorem C17_release_counterexample (p : Ptr) (a : Bool) :
    BV.withFill ⟨false, p, a⟩ 64 (2 ^ 64 - 1) true = .ok ⟨0, []⟩ := by
  cases p <;> cases a <;> decide

theorem C18_release_counterexample (p : Ptr) (a : Bool) :
    BV.resize ⟨false, p, a⟩ (⟨3, [5#8]⟩ : VB 8) (2 ^ 64 - 1) false = .ok ⟨0, []⟩ := by
  cases p <;> cases a <;> decide

/-- C18, functional part: `resize` from any reachable state. The panic clause is
`C17_too_large_partial`. -/
theorem C18_resize (c : Cfg) (h : IsBlk w) {s : VB w} (hr : BvReach c w s bits) (n : Nat) (b : Bool)
    (hf : Fits c.usz w n) :
    ∃ s', BV.resize c s n b = .ok s' ∧ (bvBitVec c w).bitLen s' = .ok n ∧
      ∀ i < n, (bvBitVec c w).getBit s' i = .ok (if i < bits.length then bits[i]?.getD false else b) := by
  obtain ⟨s', hs', hR'⟩ := bv_resize c h (hr.rep h) hf b
  have hl : (bits.take n ++ List.replicate (n - bits.length) b).length = n := by simp; omega
  refine ⟨s', hs', ?_, fun i hi => ?_⟩
  · rw [bv_bitLen c hR', hl]
  · have hu := hf.lt h.pos
    rw [(bv_law c h).getBit hR' i (by omega), expectR_eq_ite, if_pos (by omega), List.getElem?_append,
      List.length_take]
    congr 1
    by_cases hib : i < bits.length
    · rw [if_pos (by omega), if_pos hib, List.getElem?_take, if_pos hi]
    · rw [if_neg (by omega), if_neg hib, List.getElem?_replicate, if_pos (by omega)]; rfl

example : BvReach ⟨true, .p64, true⟩ 8 ⟨3, [7#8]⟩ [true, true, true] :=
  ⟨.withFill 3 true, [], ⟨3, [7#8]⟩, [], [], (by decide : Fits 64 8 3), trivial, by decide, rfl, by decide⟩

/-- C19. `push_block` and `align_block`; the override of `push_block` and the bit-by-bit default of the
trait reach the same state. -/
theorem C19_push_block (c : Cfg) (h : IsBlk w) {s : VB w} (hr : BvReach c w s bits) (x : BitVec w)
    (hf : Fits c.usz w (blocksFor w bits.length * w + w)) :
    ∃ s', (bvBitVecPush c w).pushBlock s x = .ok s' ∧ bvR c w s' (padTo w bits ++ blockBits x) ∧
      dfltPushBlock c (bvBitVecPush c w).alignBlock (bvBitVecPush c w).pushBit s x = .ok s' := by
  have hR := hr.rep h
  obtain ⟨s', hs', hR'⟩ := bv_pushBlock c h hR x hf
  obtain ⟨s2, hs2, hR2⟩ := dfltPushBlock_ok (c := c) (R := bvR c w) (Fit := Fits c.usz w) h
    (fun hf hm => hf.mono hm) (fun hR v hf => bv_pushBit c h hR v hf) (fun hR v hf => bv_align c h hR v hf) hR x hf
  refine ⟨s', hs', hR', ?_⟩
  rw [hs2, hR2.eq_of_bits Nat.one_pos (by simpa only [padTo] using hR')]

theorem C19_align_block (c : Cfg) (h : IsBlk w) {s : VB w} (hr : BvReach c w s bits) (v : Bool) :
    ∃ s' k, (bvBitVecPush c w).alignBlock s v = .ok s' ∧ bvR c w s' (bits ++ List.replicate k v) ∧
      (bits.length + k) % w = 0 ∧ ∀ j, (bits.length + j) % w = 0 → k ≤ j := by
  have hw := h.pos
  have hR := hr.rep h
  have hle := le_blocksFor_mul bits.length hw
  obtain ⟨s', hs', hR'⟩ := bv_align c h hR v (hR.fits.pad hw)
  refine ⟨s', _, hs', hR', ?_, fun j hj => ?_⟩
  · rw [Nat.add_sub_cancel' hle, Nat.mul_mod_left]
  · have hdvd : (bits.length + j) / w * w = bits.length + j := Nat.div_mul_cancel (Nat.dvd_of_mod_eq_zero hj)
    have : blocksFor w bits.length ≤ (bits.length + j) / w := by rw [blocksFor_le hw, hdvd]; omega
    have := Nat.mul_le_mul_right w this
    omega

/-- pop `n` bits, collecting the results -/
def popAll (c : Cfg) (s : VB w) : Nat → Res (List (Option Bool) × VB w)
  | 0 => .ok ([], s)
  | n + 1 => do
    let (o, s) ← (bvBitVecPush c w).popBit s
    let (os, s) ← popAll c s n
    .ok (o :: os, s)

/-- C20. Push and pop are a stack. -/
theorem C20_stack (c : Cfg) (h : IsBlk w) {s : VB w} (hr : BvReach c w s bits) :
    (∀ v, Fits c.usz w (bits.length + 1) →
      ∃ s', (bvBitVecPush c w).pushBit s v = .ok s' ∧ (bvBitVecPush c w).popBit s' = .ok (some v, s)) ∧
    (bits = [] → (bvBitVecPush c w).popBit s = .ok (none, s)) ∧
    popAll c s bits.length = .ok (bits.reverse.map some, VB.new) := by
  have hR := hr.rep h
  refine ⟨fun v hf => ?_, fun hn => ?_, ?_⟩
  · obtain ⟨s', hs', hR'⟩ := bv_pushBit c h hR v hf
    obtain ⟨s2, hs2, hR2⟩ := (bv_push_law c h).popBit hR'
    refine ⟨s', hs', ?_⟩
    rw [List.dropLast_concat] at hR2
    rw [hs2, List.getLast?_concat, hR2.eq_of_bits Nat.one_pos hR]
  · obtain ⟨s2, hs2, hR2⟩ := (bv_push_law c h).popBit hR
    rw [hs2]
    subst hn
    rw [hR2.eq_of_bits Nat.one_pos hR]; rfl
  · clear hr
    generalize hn : bits.length = n
    induction n generalizing s bits with
    | zero =>
      obtain rfl := List.length_eq_zero_iff.1 hn
      rw [popAll, hR.eq_of_bits Nat.one_pos (VR.nil c h 1)]; rfl
    | succ n ih =>
      obtain ⟨s2, hs2, hR2⟩ := (bv_push_law c h).popBit hR
      have hne : bits ≠ [] := by rintro rfl; simp at hn
      rw [popAll, hs2, Res.ok_bind]
      simp only
      rw [ih hR2 (by simp [hn]), Res.ok_bind]
      simp only
      congr 2
      have e := List.dropLast_concat_getLast hne
      rw [List.getLast?_eq_some_getLast hne]
      generalize bits.getLast hne = x at e
      rw [← e]; simp

/-- C21. Storage is minimal and zero padded. -/
theorem C21_storage (c : Cfg) (h : IsBlk w) {s : VB w} (hr : BvReach c w s bits) :
    IsCeilDiv bits.length w s.vec.length ∧
    (bvBitVec c w).blockLen s = .ok s.vec.length ∧
    ∀ i < s.vec.length, ∃ b, (bvBitVec c w).getBlock s i = .ok b ∧
      ∀ j < w, b.getLsbD j = bits[i * w + j]?.getD false := by
  have hw := h.pos
  have hR := hr.rep h
  refine ⟨⟨?_, fun m hm => ?_⟩, ?_, fun i hi => ?_⟩
  · rw [hR.blocks]; exact le_blocksFor_mul _ hw
  · rw [hR.blocks, blocksFor_le hw]; exact hm
  · rw [hR.blocks]; exact (bv_block c h).blockLen hR
  · refine ⟨s.vec[i], ?_, fun j hj => ?_⟩
    · show vecGet s.vec i = _
      rw [vecGet, List.getElem?_eq_getElem hi]; rfl
    · rw [← hR.bit]
      simp [vbit, mul_add_div' hj, mul_add_mod' hj, hi]

/-! ### ordering -/

theorem VB.cmp_eq (a b : VB w) : VB.cmp a b = .eq ↔ a = b := by
  unfold VB.cmp
  rw [Ordering.then_eq_eq]
  constructor
  · rintro ⟨h1, h2⟩
    have h1 := Nat.compare_eq_eq.1 h1
    have h2 := Std.LawfulEqCmp.eq_of_compare h2
    cases a; cases b; simp_all
  · rintro rfl
    exact ⟨Nat.compare_eq_eq.2 rfl, Std.ReflCmp.compare_self⟩

theorem then_trans {a1 a2 a3 b1 b2 b3 : Ordering} (ha : a1.isLE → a2.isLE → a3.isLE)
    (hae : a1.isLE → a2.isLE → a3 = .eq → a1 = .eq ∧ a2 = .eq) (hb : b1.isLE → b2.isLE → b3.isLE)
    (h1 : (a1.then b1).isLE) (h2 : (a2.then b2).isLE) : (a3.then b3).isLE := by
  revert ha hae hb h1 h2
  revert a1 a2 a3 b1 b2 b3
  decide

theorem compare_nat_trans (x y z : Nat) :
    ((compare x y).isLE → (compare y z).isLE → (compare x z).isLE) ∧
    ((compare x y).isLE → (compare y z).isLE → compare x z = .eq → compare x y = .eq ∧ compare y z = .eq) := by
  rw [Nat.isLE_compare, Nat.isLE_compare, Nat.isLE_compare, Nat.compare_eq_eq, Nat.compare_eq_eq, Nat.compare_eq_eq]
  omega

theorem VB.cmp_swap (a b : VB w) : VB.cmp b a = (VB.cmp a b).swap := by
  unfold VB.cmp
  rw [Ordering.swap_then]
  congr 1
  · exact (Nat.compare_swap _ _).symm
  · exact Std.OrientedCmp.eq_swap

theorem VB.cmp_trans (a b d : VB w) (h1 : (VB.cmp a b).isLE) (h2 : (VB.cmp b d).isLE) : (VB.cmp a d).isLE :=
  then_trans (compare_nat_trans a.len b.len d.len).1 (compare_nat_trans a.len b.len d.len).2
    (fun h1 h2 => Std.TransCmp.isLE_trans h1 h2) h1 h2

/-- C73 for `BitVector`: a total order, `Equal` exactly on equal contents, shorter vectors first. -/
theorem C73_bit_vector_order (c : Cfg) (h : IsBlk w) {s t : VB w}
    (hs : BvReach c w s bs) (ht : BvReach c w t bt) :
    (VB.cmp s t = .eq ↔ bs = bt) ∧ VB.cmp t s = (VB.cmp s t).swap ∧
    (bs.length < bt.length → VB.cmp s t = .lt) ∧
    (∀ u, (VB.cmp s t).isLE → (VB.cmp t u).isLE → (VB.cmp s u).isLE) := by
  refine ⟨?_, VB.cmp_swap s t, fun hl => ?_, fun u => VB.cmp_trans s t u⟩
  · rw [VB.cmp_eq]; exact C15_equality_is_extensional h hs ht
  · have h1 := (hs.rep h).len
    have h2 := (ht.rep h).len
    rw [Nat.mul_one] at h1 h2
    unfold VB.cmp
    rw [h1, h2, Nat.compare_eq_lt.2 hl]; rfl

example : VB.cmp (⟨3, [7#8]⟩ : VB 8) ⟨4, [0#8]⟩ = .lt ∧ VB.cmp (⟨4, [8#8]⟩ : VB 8) ⟨4, [7#8]⟩ = .gt := by decide

/-! Each theorem of this file that has hypotheses is applied to concrete data in `Verif/Instances/BitVector.lean`. -/

end Succinct
