import Verif.Props.BitVector
import Verif.Props.IntVector
import Verif.Props.Stream
import Verif.Props.Select
import Verif.Props.Iter
import Verif.Props.Coding
import Verif.Props.BlockIO
/-! Property C108: results do not depend on the target.

`c` and `c'` are two configurations, each a pointer width and a build, `c'` with pointers at least as wide.
What is legal on `c` is legal on `c'` and has the same outcome. -/
namespace Succinct
open Spec

theorem Spec.Fits.wider {u u' w n : Nat} (h : Fits u w n) (hu : u ≤ u') : Fits u' w n :=
  ⟨h.1, Nat.lt_of_lt_of_le h.2 (Nat.pow_le_pow_right (by decide) hu)⟩

section
variable {u u' w : Nat} (hu : u ≤ u')
include hu

theorem lt_wider {i : Nat} (h : i < 2 ^ u) : i < 2 ^ u' := Nat.lt_of_lt_of_le h (Nat.pow_le_pow_right (by decide) hu)

theorem bvOp_wider {bits : List Bool} {op : BvOp w} (h : op.Ok u w bits) : op.Ok u' w bits := by
  cases op <;> first | exact Fits.wider h hu | exact lt_wider hu h | exact h

theorem bvOpsOk_wider {ops : List (BvOp w)} {bits : List Bool} (h : bvOpsOk u w bits ops) : bvOpsOk u' w bits ops := by
  induction ops generalizing bits with
  | nil => exact h
  | cons op ops ih => exact ⟨bvOp_wider hu h.1, fun r hr => ih (h.2 r hr)⟩

theorem bvInit_wider {i : BvInit w} (h : i.Ok u) : i.Ok u' := by
  cases i <;> first | exact Fits.wider h hu | exact h

theorem ivOp_wider {k : Nat} {xs : List Nat} {op : IvOp w} (h : op.Ok u w k xs) : op.Ok u' w k xs := by
  cases op <;> first | exact Fits.wider h hu | exact lt_wider hu h | exact ⟨h.1, fun e => lt_wider hu (h.2 e)⟩ | exact h

theorem ivOpsOk_wider {k : Nat} {ops : List (IvOp w)} {xs : List Nat} (h : ivOpsOk u w k xs ops) : ivOpsOk u' w k xs ops := by
  induction ops generalizing xs with
  | nil => exact h
  | cons op ops ih => exact ⟨ivOp_wider hu h.1, fun r hr => ih (h.2 r hr)⟩

theorem ivInit_wider {k : Nat} {i : IvInit w} (h : i.Ok u k) : i.Ok u' k := by
  cases i <;> first | exact Fits.wider h hu | exact h

end

/-- A constructor call followed by any calls. -/
def bvProgram (c : Cfg) (i : BvInit w) (ops : List (BvOp w)) : Res (List (BvOut w) × VB w) := do
  let s ← bvInit c i
  bvRun c s ops
def ivProgram (c : Cfg) (k : Nat) (i : IvInit w) (ops : List (IvOp w)) : Res (List IvOut × IV w) := do
  let s ← ivInit c k i
  ivRun c s ops

/-- C108. A sequence of calls on a `BitVector` which is valid on one target (either build) has the same outcome (the
same outputs and the same vector, or a panic) there as on every target with at least as wide pointers, in either build. -/
theorem C108_bit_vector (c c' : Cfg) (hu : c.usz ≤ c'.usz) (h : IsBlk w) (i : BvInit w) (ops : List (BvOp w)) (hi : i.Ok c.usz)
    (hops : bvOpsOk c.usz w i.bits ops) : bvProgram c i ops = bvProgram c' i ops := by
  obtain ⟨s, h1, hR⟩ := bvInit_ok c h i hi
  obtain ⟨s', h1', hR'⟩ := bvInit_ok c' h i (bvInit_wider hu hi)
  have r := bvRun_refines c h ops hR hops
  have r' := bvRun_refines c' h ops hR' (bvOpsOk_wider hu hops)
  unfold bvProgram
  rw [h1, h1', Res.ok_bind, Res.ok_bind]
  rcases hs : bvSpecRun w i.bits ops with _ | ⟨os, bits⟩
  · rw [hs] at r r'
    exact r.trans r'.symm
  · rw [hs] at r r'
    obtain ⟨t, e, ht⟩ := r
    obtain ⟨t', e', ht'⟩ := r'
    rw [e, e', VR.eq_of_bits Nat.one_pos ht ht']

/-- C108 for `IntVector`. -/
theorem C108_int_vector (c c' : Cfg) (hu : c.usz ≤ c'.usz) (h : IsBlk w) (hk : 1 ≤ k) (hkw : k ≤ w) (i : IvInit w)
    (ops : List (IvOp w)) (hi : i.Ok c.usz k) (hops : ivOpsOk c.usz w k (i.elems k) ops) :
    ivProgram c k i ops = ivProgram c' k i ops := by
  obtain ⟨s, h1, hR⟩ := ivInit_ok c h hk hkw i hi
  obtain ⟨s', h1', hR'⟩ := ivInit_ok c' h hk hkw i (ivInit_wider hu hi)
  have r := ivRun_refines c h ops hR hops
  have r' := ivRun_refines c' h ops hR' (ivOpsOk_wider hu hops)
  unfold ivProgram
  rw [h1, h1', Res.ok_bind, Res.ok_bind]
  rcases hs : ivSpecRun w k (i.elems k) ops with _ | ⟨os, xs⟩
  · rw [hs] at r r'
    exact r.trans r'.symm
  · rw [hs] at r r'
    obtain ⟨t, e, ht⟩ := r
    obtain ⟨t', e', ht'⟩ := r'
    have hb := ht.rep.eq_of_bits ht.pos ht'.rep
    have he := ht.eb.trans ht'.eb.symm
    obtain ⟨_, _⟩ := t
    obtain ⟨_, _⟩ := t'
    cases he
    cases hb
    rw [e, e']

example : bvProgram ⟨true, .p32, true⟩ (.withFill 5 true : BvInit 8) [.pushBlock 0x81, .getBits 3 8, .popBit] =
      .ok ([.unit, .block 0x23, .optBit (some true)], ⟨15, [0x1F, 0x01]⟩) ∧
    bvProgram ⟨false, .p64, false⟩ (.withFill 5 true : BvInit 8) [.pushBlock 0x81, .getBits 3 8, .popBit] =
      .ok ([.unit, .block 0x23, .optBit (some true)], ⟨15, [0x1F, 0x01]⟩) := by decide +kernel

/-- A vector which can be made on one target can be made on every target with at least as wide pointers. -/
theorem C108_reach_bits (c c' : Cfg) (hu : c.usz ≤ c'.usz) (h : IsBlk w) {s : VB w} (hr : BvReach c w s bits) : BvReach c' w s bits := by
  obtain ⟨i, ops, s0, os, os', hi, hops, h0, hrun, hspec⟩ := hr.run
  obtain ⟨s0', h0', -⟩ := bvInit_ok c' h i (bvInit_wider hu hi)
  have e := C108_bit_vector c c' hu h i ops hi hops
  unfold bvProgram at e
  rw [h0, h0', Res.ok_bind, Res.ok_bind, hrun] at e
  exact ⟨i, ops, s0', os, os', bvInit_wider hu hi, bvOpsOk_wider hu hops, h0', e.symm, hspec⟩

theorem C108_reach_ints (c c' : Cfg) (hu : c.usz ≤ c'.usz) (h : IsBlk w) {s : IV w} (hr : IvReach c w k s xs) : IvReach c' w k s xs := by
  obtain ⟨i, ops, s0, os, os', h1, hw, hi, hops, h0, hrun, hspec⟩ := hr.run
  obtain ⟨s0', h0', -⟩ := ivInit_ok c' h h1 hw i (ivInit_wider hu hi)
  have e := C108_int_vector c c' hu h h1 hw i ops hi hops
  unfold ivProgram at e
  rw [h0, h0', Res.ok_bind, Res.ok_bind, hrun] at e
  exact ⟨i, ops, s0', os, os', h1, hw, ivInit_wider hu hi, ivOpsOk_wider hu hops, h0', e.symm, hspec⟩

theorem map_toNat_inj {as bs : List (Option (BitVec w))} (h : as.map (Option.map BitVec.toNat) = bs.map (Option.map BitVec.toNat)) :
    as = bs := by
  refine List.map_inj_right ?_ |>.1 h
  intro x y hxy
  cases x <;> cases y <;> simp_all [BitVec.toNat_inj]

/-- C108, iterators and formatting: every sequence of `next`, `next_back` and `nth` gives the same items, and the
text is the same. -/
theorem C108_iterators (c c' : Cfg) (hu : c.usz ≤ c'.usz) (h : IsBlk w) :
    (∀ {s : IV w} {k xs}, IvReach c w k s xs → (∀ ops, ∃ os it it', itRun c s.iter ops = .ok (os, it) ∧
      itRun c' s.iter ops = .ok (os, it') ∧ (it.start, it.limit) = (it'.start, it'.limit)) ∧
      IV.fmtDebug c s = IV.fmtDebug c' s ∧ ∃ text, IV.fmtDebug c s = .ok text) ∧
    ∀ {s : VB w} {bits}, BvReach c w s bits → (∀ ops, ∃ os it it', itRun c (BV.iter s) ops = .ok (os, it) ∧
      itRun c' (BV.iter s) ops = .ok (os, it') ∧ (it.start, it.limit) = (it'.start, it'.limit)) ∧
      BV.fmtBinary c s = BV.fmtBinary c' s ∧ ∃ text, BV.fmtBinary c s = .ok text := by
  constructor
  · intro s k xs hr
    have hr' := C108_reach_ints c c' hu h hr
    refine ⟨fun ops => ?_, (C31_debug c h hr).trans (C31_debug c' h hr').symm, _, C31_debug c h hr⟩
    obtain ⟨h1, h2, -⟩ := iv_iter_base (hr.rep h)
    obtain ⟨h1', h2', -⟩ := iv_iter_base (hr'.rep h)
    obtain ⟨os, it, g1, g2, -⟩ := h1.run h ops
    obtain ⟨os', it', g1', g2', -⟩ := h1'.run h ops
    rw [h2] at g2
    rw [h2'] at g2'
    cases map_toNat_inj (g2.trans g2'.symm)
    exact ⟨os, it, it', g1, g1', (h1.run_cursor h ops g1).trans (h1'.run_cursor h ops g1').symm⟩
  · intro s bits hr
    have hr' := C108_reach_bits c c' hu h hr
    refine ⟨fun ops => ?_, (C31_binary c h hr).trans (C31_binary c' h hr').symm, _, C31_binary c h hr⟩
    obtain ⟨h1, h2, -⟩ := bv_iter_base h (hr.rep h)
    obtain ⟨h1', h2', -⟩ := bv_iter_base h (hr'.rep h)
    obtain ⟨os, it, g1, g2, -⟩ := h1.run h ops
    obtain ⟨os', it', g1', g2', -⟩ := h1'.run h ops
    rw [h2] at g2
    rw [h2'] at g2'
    cases map_toNat_inj (g2.trans g2'.symm)
    exact ⟨os, it, it', g1, g1', (h1.run_cursor h ops g1).trans (h1'.run_cursor h ops g1').symm⟩

/-- The exception: the length of an iterator is a `usize`, so the same vector of 2^32 bits has an iterator of length
0 on a 32-bit target and of length 2^32 on a 64-bit one. -/
theorem C108_len_exception (d d' a a' : Bool) : ∃ s : VB 8, BvReach ⟨d, .p32, a⟩ 8 s (List.replicate (2 ^ 32) true) ∧
    (BV.iter s).len ⟨d, .p32, a⟩ = .ok 0 ∧ (BV.iter s).len ⟨d', .p64, a'⟩ = .ok (2 ^ 32) := by
  obtain ⟨s, hs, hr, h1, -⟩ := C30_count_truncated d a
  refine ⟨s, hr, h1, ?_⟩
  obtain ⟨os, it, g1, g2, -⟩ := C30_exact_bits ⟨d', .p64, a'⟩ isBlk8 (C108_reach_bits ⟨d, .p32, a⟩ ⟨d', .p64, a'⟩ (show 32 ≤ 64 by decide) isBlk8 hr) []
  cases g1
  rw [g2, List.length_replicate]
  cases d' <;> cases a' <;> decide

/-! ### `BitBuffer` -/

theorem bufOpsOk_wider {u u' w : Nat} (hu : u ≤ u') {ops : List BufOp} {f : BitFile} (h : bufOpsOk (Fits u w) f ops) :
    bufOpsOk (Fits u' w) f ops := by
  induction ops generalizing f with
  | nil => exact h
  | cons op ops ih =>
    refine ⟨?_, fun r hr => ih (h.2 r hr)⟩
    have := h.1
    cases op <;> first | exact fun e => Fits.wider (this e) hu | exact this

def bufProgram (c : Cfg) (w : Nat) (ops : List BufOp) : Res (List BufOut × BitBuf (VB w)) := do
  let s ← BitBuf.new c w
  bufRun c (bvBitVecPush c w) s ops

/-- C108 for `BitBuffer`. -/
theorem C108_bit_buffer (c c' : Cfg) (hu : c.usz ≤ c'.usz) (h : IsBlk w) (ops : List BufOp)
    (hops : bufOpsOk (Fits c.usz w) ⟨[], 0⟩ ops) : bufProgram c w ops = bufProgram c' w ops := by
  obtain ⟨s, e, r⟩ := C54_bit_vector c h ops hops
  obtain ⟨s', e', r'⟩ := C54_bit_vector c' h ops (bufOpsOk_wider hu hops)
  unfold bufProgram
  rw [e, e', Res.ok_bind, Res.ok_bind]
  rcases hs : bufSpecRun ⟨[], 0⟩ ops with _ | ⟨os, f⟩
  · rw [hs] at r r'
    exact r.trans r'.symm
  · rw [hs] at r r'
    obtain ⟨t, e, ht, hp, -⟩ := r
    obtain ⟨t', e', ht', hp', -⟩ := r'
    have hb := VR.eq_of_bits Nat.one_pos ht ht'
    have he := hp.trans hp'.symm
    obtain ⟨_, _⟩ := t
    obtain ⟨_, _⟩ := t'
    cases he
    cases hb
    rw [e, e']

/-! ### Rank and select -/

/-- Two rank structures, possibly on different targets, answer alike. -/
def SameRank (r : RankOps S) (s : S) (r' : RankOps S') (s' : S') (n : Nat) : Prop :=
  r.limit s = .ok n ∧ r'.limit s' = .ok n ∧ ∀ p < n, r.rank1 s p = r'.rank1 s' p ∧ r.rank0 s p = r'.rank0 s' p ∧
    (∀ v, r.rank s p v = r'.rank s' p v) ∧ ∃ x, r.rank1 s p = .ok x

/-- Select by binary search over them does too, for every index but `u64::MAX`. -/
def SameSelect (c c' : Cfg) (r : RankOps S) (s : S) (r' : RankOps S') (s' : S') : Prop :=
  ∀ k, k + 1 < 2 ^ 64 → (BinSearchSelect.select1 c r (.new s) k = BinSearchSelect.select1 c' r' (.new s') k ∧
    BinSearchSelect.select0 c r (.new s) k = BinSearchSelect.select0 c' r' (.new s') k ∧
    ∀ v, BinSearchSelect.select c r (.new s) k v = BinSearchSelect.select c' r' (.new s') k v)

theorem RankLaw.same {r : RankOps S} {s : S} {r' : RankOps S'} {s' : S'} (c c' : Cfg) (h : RankLaw r s bits) (h' : RankLaw r' s' bits) :
    SameRank r s r' s' bits.length ∧ SameSelect c c' r s r' s' := by
  refine ⟨⟨h.limit, h'.limit, fun p hp => ⟨(h.rank1 p hp).trans (h'.rank1 p hp).symm, (h.rank0 p hp).trans (h'.rank0 p hp).symm,
    fun v => (h.rank p hp v).trans (h'.rank p hp v).symm, _, h.rank1 p hp⟩⟩, fun k hk => ?_⟩
  obtain ⟨⟨x, e, i⟩, ⟨y, f, j⟩, g⟩ := C44_select_partial c h hk
  obtain ⟨⟨x', e', i'⟩, ⟨y', f', j'⟩, g'⟩ := C44_select_partial c' h' hk
  refine ⟨by rw [e, e', isSelect_unique i i'], by rw [f, f', isSelect_unique j j'], fun v => ?_⟩
  obtain ⟨z, e, i⟩ := g v
  obtain ⟨z', e', i'⟩ := g' v
  rw [e, e', isSelect_unique i i']

/-- C108, rank and select over a `BitVector`: the structures which can be built on one target can be built on every
target with at least as wide pointers, and they answer every query alike. -/
theorem C108_rank_select (c c' : Cfg) (hu : c.usz ≤ c'.usz) :
    (∀ w (_ : IsBlk w) (s : VB w) bits, BvReach c w s bits → InMemory c.usz bits.length → 2 ≤ bits.length → ∃ j j',
      Jacobson.new c (bvBitVec c w) s = .ok j ∧ Jacobson.new c' (bvBitVec c' w) s = .ok j' ∧
      SameRank (Jacobson.ops c (bvBitVec c w)) j (Jacobson.ops c' (bvBitVec c' w)) j' bits.length ∧
      SameSelect c c' (Jacobson.ops c (bvBitVec c w)) j (Jacobson.ops c' (bvBitVec c' w)) j') ∧
    (∀ (s : VB 64) bits, BvReach c 64 s bits → blocksFor 64 bits.length + 8 < 2 ^ c.usz → ∃ j j',
      Rank9.new c (bvBitVec c 64) s = .ok j ∧ Rank9.new c' (bvBitVec c' 64) s = .ok j' ∧
      SameRank (Rank9.ops c (bvBitVec c 64)) j (Rank9.ops c' (bvBitVec c' 64)) j' bits.length ∧
      SameSelect c c' (Rank9.ops c (bvBitVec c 64)) j (Rank9.ops c' (bvBitVec c' 64)) j') ∧
    ∀ w (_ : IsBlk w) (x : BitVec w), SameRank (primRank c w) x (primRank c' w) x w ∧
      SameSelect c c' (primRank c w) x (primRank c' w) x := by
  refine ⟨fun w h s bits hr hm h2 => ?_, fun s bits hr hb => ?_, fun w h x => ?_⟩
  · have hm' : InMemory c'.usz bits.length := by
      unfold InMemory at hm ⊢
      rcases c.usz_cases with e | e <;> rcases c'.usz_cases with e' | e' <;> rw [e] at hm hu <;> rw [e'] at hu ⊢ <;>
        simp_all <;> omega
    obtain ⟨j, e, l⟩ := C37_bit_vector c h (hr.rep h) hm h2
    obtain ⟨j', e', l'⟩ := C37_bit_vector c' h ((C108_reach_bits c c' hu h hr).rep h) hm' h2
    exact ⟨j, j', e, e', l.same c c' l'⟩
  · obtain ⟨j, e, l⟩ := C39_bit_vector c (hr.rep isBlk64) hb
    obtain ⟨j', e', l'⟩ := C39_bit_vector c' ((C108_reach_bits c c' hu isBlk64 hr).rep isBlk64) (lt_wider hu hb)
    exact ⟨j, j', e, e', l.same c c' l'⟩
  · have := (C36_words c h x).same c c' (C36_words c' h x)
    rwa [show (blockBits x).length = w by simp [blockBits]] at this

/-! ### Codes -/

/-- `K` and `K'` are the same code of the crate on the targets `c` and `c'`. -/
inductive CodeOn (c c' : Cfg) : Code → Code → (Nat → Prop) → (Nat → List Bool) → Prop
  | unary : CodeOn c c' (unary c) (unary c') (· < 2 ^ 64) unaryWord
  | omega : CodeOn c c' (omegaCode c) (omegaCode c') Pos64 omegaWord
  | comma {n : Nat} : 2 ≤ n → n ≤ 63 → CodeOn c c' (comma c n) (comma c' n) (· < 2 ^ 64) (commaWord n)
  | fibonacci : CodeOn c c' (fibonacci c) (fibonacci c') FibDom fibWord
  | elias {H H' : Code} {D : Nat → Prop} {word : Nat → List Bool} : CodeOn c c' H H' D word → (∀ n, n < 64 → D n) →
      CodeOn c c' (elias c H) (elias c' H') Pos64 (eliasWord word)
  | lift0 {K K' : Code} {D : Nat → Prop} {word : Nat → List Bool} : CodeOn c c' K K' D word →
      CodeOn c c' (lift0 c K) (lift0 c' K') (fun v => D (v + 1) ∧ v + 1 < 2 ^ 64) (fun v => word (v + 1))

theorem CodeOn.of (h : CodeOn c c' K K' D word) : CodeOf c true K D word ∧ CodeOf c' true K' D word := by
  induction h with
  | unary => exact ⟨.unary, .unary⟩
  | omega => exact ⟨.omega, .omega⟩
  | comma h2 hn => exact ⟨.comma h2 hn, .comma h2 hn⟩
  | fibonacci => exact ⟨.fibonacci, .fibonacci⟩
  | elias _ hD ih => exact ⟨.elias ih.1 hD, .elias ih.2 hD⟩
  | lift0 _ ih => exact ⟨.lift0 ih.1, .lift0 ih.2⟩

theorem CodeOn.gamma_delta (c c' : Cfg) : CodeOn c c' (gamma c) (gamma c') Pos64 gammaWord ∧
    CodeOn c c' (delta c) (delta c') Pos64 deltaWord :=
  ⟨.elias .unary (fun n hn => by omega),
    .elias (.lift0 (.elias .unary (fun n hn => by omega))) (fun n hn => by simp only [Pos64]; omega)⟩

/-- C108, codes, whichever target is the wider: the two encoders act alike on every sink, and what one target encodes,
the other decodes. -/
theorem C108_codes (c c' : Cfg) (h : CodeOn c c' K K' D word) (vs : List Nat) (hv : ∀ v ∈ vs, D v) :
    (∀ (σ : Type) (W : BitWrite σ) (s : σ), encodeAll K W vs s = encodeAll K' W vs s) ∧
    ∃ l, encodeAll K dequeWrite vs [] = .ok (.ok (), l) ∧ ∀ (τ : Type) (R : BitRead τ) (Rep : τ → List Bool → Prop),
      LawfulSource R Rep → ∀ t, Rep t l → ∀ k,
        ∃ t', decodeMany K' R (vs.length + k) t = .ok (.ok (vs.map some ++ List.replicate k none), t') ∧ Rep t' [] := by
  have i := C62_all c true h.of.1
  have i' := C62_all c' true h.of.2
  refine ⟨fun σ W s => by rw [encodeAll_eq i.encodes W vs hv, encodeAll_eq i'.encodes W vs hv], ?_⟩
  obtain ⟨l, h1, h2, -⟩ := C62_streams c true h.of.1 deque_sink (fun _ _ => trivial) deque_source vs hv 0 (s := []) (l := []) rfl trivial
  refine ⟨l, h1, fun τ R Rep hR t ht k => decodeMany_words i'.decodes i'.ends hR vs hv k ?_⟩
  rw [h2] at ht
  exact ht

example : CodeOn ⟨true, .p64, true⟩ ⟨false, .p32, false⟩ (delta ⟨true, .p64, true⟩) (delta ⟨false, .p32, false⟩) Pos64 deltaWord ∧
    encodeAll (delta ⟨true, .p64, true⟩) dequeWrite [3, 10] [] =
      .ok (.ok (), [false, true, false, true, false, false, true, false, false, false, true, false]) ∧
    ∃ t', decodeMany (delta ⟨false, .p32, false⟩) dequeRead 3
      [false, true, false, true, false, false, true, false, false, false, true, false] =
      .ok (.ok [some 3, some 10, none], t') ∧ t' = [] := by
  have e : encodeAll (delta ⟨true, .p64, true⟩) dequeWrite [3, 10] [] =
      .ok (.ok (), [false, true, false, true, false, false, true, false, false, false, true, false]) := by decide +kernel
  obtain ⟨-, l, h1, h2⟩ := C108_codes ⟨true, .p64, true⟩ ⟨false, .p32, false⟩ (CodeOn.gamma_delta _ _).2 [3, 10] (by decide)
  rw [e] at h1
  cases h1
  exact ⟨(CodeOn.gamma_delta _ _).2, e, h2 _ dequeRead _ deque_source _ rfl 1⟩

/-! ### Block input and output -/

theorem bind_pure_run (x : SM σ α) (f : α → β) (g : β → γ) (s : σ) :
    ((x >>= fun a => pure (f a)) >>= fun b => pure (g b)) s = (x >>= fun a => pure (g (f a))) s := by
  show Res.bind (Res.bind (x s) _) _ = Res.bind (x s) _
  rcases x s with ⟨_ | _, _⟩ | _ | _ <;> rfl

/-- C108, `read_block` and `write_block` of the types of fixed width: the same on every target. -/
theorem C108_block_io (c c' : Cfg) (t : BlkTy) (ht : t ≠ .usize) : ∃ e : t.bits c = t.bits c',
    (∀ (σ : Type) (W : ByteWrite σ) T (x : BitVec (t.bits c)) s, writeBlock c t W T x s = writeBlock c' t W T (x.cast e) s) ∧
    ∀ (σ : Type) (R : ByteRead σ) T s,
      (readBlock c t R T >>= fun x => pure (x.cast e)) s = readBlock c' t R T s := by
  cases t with
  | usize => exact absurd rfl ht
  | _ =>
    refine ⟨rfl, fun σ W T x s => rfl, fun σ R T s => ?_⟩
    simp only [readBlock]
    exact bind_pure_run _ _ _ s

/-- The exception: a `usize` written by a 64-bit target takes eight bytes, of which a 32-bit target reads four. -/
theorem C108_usize_exception (d d' a a' : Bool) :
    writeBlock ⟨d, .p64, a⟩ .usize bytesWrite .big (5#64) [] = .ok (.ok (), [0, 0, 0, 0, 0, 0, 0, 5]) ∧
    readBlock ⟨d', .p32, a'⟩ .usize bytesRead .big [0, 0, 0, 0, 0, 0, 0, 5] = .ok (.ok (0#32), [0, 0, 0, 5]) := by
  cases d <;> cases a <;> cases d' <;> cases a' <;> decide +kernel

/-! Each theorem of this file that has hypotheses is applied to concrete data in `Verif/Instances/Portable.lean`. -/

end Succinct
