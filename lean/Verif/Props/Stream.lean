import Verif.Lemmas.BitBuffer
import Verif.Props.Rank
/-! Properties C51–C54 (bit streams and `BitBuffer`) and the `BitBuffer` part of C42. -/
namespace Succinct
open Spec

/-! ### C51: little-endian integers -/

/-- C51, writing: `write_int(n, v)` on any sink whatsoever is the writing of the `n` low bits of the
two's complement expansion of `v`, least significant first, one by one, up to the first error. For
`n` above the width of the type the expansion continues with zeros (unsigned types) or the sign. -/
theorem C51_write (c : Cfg) (sg : Bool) (W : BitWrite σ) (hw : 1 < w) (n : Nat) (v : BitVec w) :
    writeInt c sg W n v = writeAll W (natBits n ((intVal sg v) % 2 ^ n).toNat) := writeInt_eq c sg W hw n v

/-- C51, reading: if the next `n` bits of any source are `bits`, `read_int(n)` returns the number with
these bits, without the bits that do not fit the type, and leaves the source right after them. -/
theorem C51_read (c : Cfg) (R : BitRead σ) (hw : 1 < w) {s s' : σ} {bits : List Bool} {n : Nat}
    (h : Reads R s bits s') (hn : bits.length = n) :
    readInt c R w n s = .ok (.ok (some (BitVec.ofNat w (bitsVal bits))), s') := readInt_reads c R hw h hn

/-- C51, round trip: what `write_int(n, v)` wrote to a sink, followed by anything, is read back by
`read_int(n)` as `v` modulo `2^n`, and exactly the rest is left. -/
theorem C51_roundtrip (c : Cfg) (sg : Bool) (hw : 1 < w) {W : BitWrite σ} {RepW : σ → List Bool → Prop} {Fit : Nat → Prop}
    (hW : LawfulSink W RepW Fit) (hm : ∀ {m n}, Fit n → m ≤ n → Fit m)
    {R : BitRead τ} {RepR : τ → List Bool → Prop} (hR : LawfulSource R RepR)
    (n : Nat) (v : BitVec w) {s : σ} {l : List Bool} (hs : RepW s l) (hf : Fit (l.length + n)) :
    ∃ code s', code.length = n ∧ writeInt c sg W n v s = .ok (.ok (), s') ∧ RepW s' (l ++ code) ∧
      ∀ t rest, RepR t (code ++ rest) → ∃ t',
        readInt c R w n t = .ok (.ok (some (BitVec.ofNat w (v.toNat % 2 ^ n))), t') ∧ RepR t' rest := by
  refine ⟨natBits n ((intVal sg v) % 2 ^ n).toNat, ?_⟩
  obtain ⟨s', h1, h2⟩ := hW.writeAll hm (natBits n ((intVal sg v) % 2 ^ n).toNat) hs (by rwa [length_natBits])
  refine ⟨s', length_natBits _ _, by rw [C51_write c sg W hw]; exact h1, h2, fun t rest ht => ?_⟩
  obtain ⟨t', h3, h4⟩ := hR.reads _ ht
  refine ⟨t', ?_, h4⟩
  rw [C51_read c R hw h3 (length_natBits _ _), bitsVal_natBits]
  congr 4
  have e := ofNat_intVal sg v n
  rw [← e, Nat.mod_eq_of_lt]
  have h2 : 0 ≤ intVal sg v % 2 ^ n := Int.emod_nonneg _ (Int.ne_of_gt (Int.pow_pos (by decide)))
  have h3 : intVal sg v % 2 ^ n < 2 ^ n := Int.emod_lt_of_pos _ (Int.pow_pos (by decide))
  apply Int.ofNat_lt.1
  rw [Int.toNat_of_nonneg h2]
  push_cast
  exact h3

/-- `VecDeque<bool>` is a lawful sink and source. -/
theorem deque_sink : LawfulSink dequeWrite (fun s l => s = l) (fun _ => True) :=
  ⟨fun h b _ => ⟨_, rfl, by rw [h]⟩⟩
theorem deque_source : LawfulSource dequeRead (fun s l => s = l) :=
  ⟨fun h => ⟨_, by rw [h]; rfl, rfl⟩, fun h => ⟨_, by rw [h]; rfl, rfl⟩⟩

/-- A negative `i8` written with 12 bits is sign extended; read back as `i8`, the top bits are dropped. -/
example : (∃ s, writeInt ⟨true, .p64, true⟩ true dequeWrite 12 (0x85#8) [true] = .ok (.ok (), s) ∧
      s = [true, true, false, true, false, false, false, false, true, true, true, true, true]) ∧
    readInt ⟨true, .p64, true⟩ dequeRead 8 12
        [true, false, true, false, false, false, false, true, true, true, true, true, false] =
      .ok (.ok (some 0x85#8), [false]) := ⟨⟨_, by decide, rfl⟩, by decide⟩

/-! ### C52: big-endian integers -/

/-- C52, writing. For an unsigned type and `1 ≤ n ≤ w`, `write_int_be(n, v)` writes the `n` low bits of
`v`, most significant first. For a signed type this is proved for `n < w` only: it is false for
`n = w`, see `C52_signed_full_width`. -/
theorem C52_write_partial (c : Cfg) (sg : Bool) (W : BitWrite σ) (hw : 1 < w) (v : BitVec w) {n : Nat}
    (h1 : 1 ≤ n) (hn : n ≤ w) (hsg : sg = true → n < w) :
    writeIntBe c sg W n v = writeAll W (natBits n v.toNat).reverse := writeIntBe_eq c sg W hw v h1 hn hsg

/-- C52, reading; no restriction on `n`. -/
theorem C52_read (c : Cfg) (R : BitRead σ) (hw : 1 < w) {s s' : σ} {bits : List Bool} {n : Nat}
    (h : Reads R s bits s') (hn : bits.length = n) :
    readIntBe c R w n s = .ok (.ok (some (BitVec.ofNat w (bitsVal bits.reverse))), s') := readIntBe_reads c R hw h hn

/-- C52, round trip, with the same restriction as `C52_write_partial`. -/
theorem C52_roundtrip_partial (c : Cfg) (sg : Bool) (hw : 1 < w) {W : BitWrite σ} {RepW : σ → List Bool → Prop}
    {Fit : Nat → Prop} (hW : LawfulSink W RepW Fit) (hm : ∀ {m n}, Fit n → m ≤ n → Fit m)
    {R : BitRead τ} {RepR : τ → List Bool → Prop} (hR : LawfulSource R RepR)
    {n : Nat} (h1 : 1 ≤ n) (hn : n ≤ w) (hsg : sg = true → n < w) (v : BitVec w) {s : σ} {l : List Bool}
    (hs : RepW s l) (hf : Fit (l.length + n)) :
    ∃ code s', code.length = n ∧ writeIntBe c sg W n v s = .ok (.ok (), s') ∧ RepW s' (l ++ code) ∧
      ∀ t rest, RepR t (code ++ rest) → ∃ t',
        readIntBe c R w n t = .ok (.ok (some (BitVec.ofNat w (v.toNat % 2 ^ n))), t') ∧ RepR t' rest := by
  refine ⟨(natBits n v.toNat).reverse, ?_⟩
  obtain ⟨s', e1, e2⟩ := hW.writeAll hm (natBits n v.toNat).reverse hs (by rwa [List.length_reverse, length_natBits])
  refine ⟨s', by simp [length_natBits], by rw [C52_write_partial c sg W hw v h1 hn hsg]; exact e1, e2, fun t rest ht => ?_⟩
  obtain ⟨t', h3, h4⟩ := hR.reads _ ht
  refine ⟨t', ?_, h4⟩
  rw [C52_read c R hw h3 (by simp [length_natBits]), List.reverse_reverse, bitsVal_natBits]

example : (∃ s, writeIntBe ⟨true, .p64, true⟩ false dequeWrite 8 (0x85#8) [] = .ok (.ok (), s) ∧
      s = [true, false, false, false, false, true, false, true]) ∧
    readIntBe ⟨true, .p64, true⟩ dequeRead 8 3 [true, true, false, true] = .ok (.ok (some 6#8), [true]) :=
  ⟨⟨_, by decide, rfl⟩, by decide⟩

theorem writeIntBeLoop_signed (c : Cfg) (W : BitWrite σ) (hw : 1 < w) (v : BitVec w) (k : Nat) (hk : k ≤ w) :
    writeIntBeLoop c true W v k (BitVec.allOnes w <<< (k - 1)) =
      writeAll W ((List.range k).map fun j => decide (v.toNat / 2 ^ (k - 1 - j) ≠ 0)) := by
  induction k with
  | zero => rfl
  | succ k ih =>
    have e : (v &&& (BitVec.allOnes w <<< k) != 0) = decide (v.toNat / 2 ^ k ≠ 0) := by
      rw [Bool.eq_iff_iff, bne_iff_ne, decide_eq_true_iff]
      refine not_congr ?_
      constructor
      · intro h
        apply Nat.eq_of_testBit_eq
        intro i
        rw [Nat.testBit_div_two_pow, Nat.zero_testBit]
        by_cases hi : k + i < w
        · have := congrArg (fun x => BitVec.getLsbD x (k + i)) h
          simp [hi] at this
          rw [Nat.add_comm]
          rw [show v.toNat.testBit (k + i) = v.getLsbD (k + i) from rfl, BitVec.getLsbD_eq_getElem hi]
          rcases hv : v[k + i] with _ | _
          · rfl
          · have := this hv; omega
        · rw [Nat.add_comm]; exact v.getLsbD_of_ge (k + i) (by omega)
      · intro h
        apply BitVec.eq_of_getLsbD_eq
        intro i hi
        by_cases hik : i < k
        · simp [BitVec.getLsbD_shiftLeft, hik]
        · have := congrArg (fun x => Nat.testBit x (i - k)) h
          simp only [Nat.testBit_div_two_pow, Nat.zero_testBit] at this
          rw [show i - k + k = i by omega] at this
          rw [BitVec.getLsbD_and, show v.getLsbD i = false from this]
          simp
    obtain ⟨y, hy, hbits⟩ := shrI_getLsbD (c := c) true (BitVec.allOnes w <<< k) hw
    rw [writeIntBeLoop, Nat.add_sub_cancel, e, hy, SM.lift_ok_bind, List.range_succ_eq_map, List.map_cons, List.map_map,
      writeAll]
    have hy' : 0 < k → y = BitVec.allOnes w <<< (k - 1) := by
      intro h0
      apply BitVec.eq_of_getLsbD_eq
      intro i hi
      rw [hbits i hi, BitVec.msb_eq_getLsbD_last]
      simp only [BitVec.getLsbD_shiftLeft, BitVec.getLsbD_allOnes]
      have e1 : decide (i < w) = true := by simpa using hi
      have e2 : decide (w - 1 < w) = true := by simp; omega
      have e3 : decide (w - 1 < k) = false := by simp; omega
      have e4 : decide (w - 1 - k < w) = true := by simp; omega
      have e5 : decide (i - (k - 1) < w) = true := by simp; omega
      rw [e1, e2, e3, e4, e5]
      split
      · have e6 : decide (i + 1 < k) = decide (i < k - 1) := by
          rw [decide_eq_decide]; omega
        have e7 : decide (i + 1 - k < w) = true := by simp; omega
        have e8 : decide (i + 1 < w) = true := by simp; omega
        rw [e6, e7, e8]
      · have e6 : decide (i < k - 1) = false := by simp; omega
        rw [e6]; rfl
    simp only [Nat.sub_zero]
    congr 1
    funext u
    rcases k with _ | k
    · rfl
    · rw [hy' (by omega), ih (by omega)]
      congr 1
      apply List.map_congr_left
      intro j _
      simp only [Function.comp]
      rw [show k + 1 - Nat.succ j = k + 1 - 1 - j by omega]

/-- C52, what a signed type really writes for `n = w`: the mask starts as the sign bit and `>>` is an
arithmetic shift, so the mask keeps its high bits and the `j`-th bit written says whether *any* of the
`j + 1` top bits of `v` is set. -/
theorem C52_signed_full_width (c : Cfg) (W : BitWrite σ) (hw : 1 < w) (v : BitVec w) :
    writeIntBe c true W w v =
      writeAll W ((List.range w).map fun j => decide (v.toNat / 2 ^ (w - 1 - j) ≠ 0)) := by
  rw [writeIntBe, subN_ok (by omega), SM.lift_ok_bind, shlB_ok (by omega), SM.lift_ok_bind,
    ← writeIntBeLoop_signed c W hw v w (Nat.le_refl _)]
  congr 1
  apply BitVec.eq_of_getLsbD_eq
  intro i hi
  simp only [BitVec.getLsbD_shiftLeft, BitVec.getLsbD_allOnes]
  by_cases h : i < w - 1
  · simp [h]
  · rw [show i = w - 1 by omega]
    simp

/-- C52 counterexample: `write_int_be(8, -128i8)` writes eight ones, in both build modes, and
`read_int_be` returns `-1`. -/
theorem C52_signed_counterexample (c : Cfg) :
    (∃ s, writeIntBe c true dequeWrite 8 (0x80#8) [] = .ok (.ok (), s) ∧
      readIntBe c dequeRead 8 8 s = .ok (.ok (some 0xFF#8), [])) := by
  refine ⟨List.replicate 8 true, ?_, ?_⟩
  · rw [C52_signed_full_width c dequeWrite (by decide)]
    decide
  · obtain ⟨d, p, a⟩ := c
    cases d <;> cases p <;> cases a <;> decide

/-- The other excluded argument: `write_int_be(0, v)` panics in a debug build although there is nothing
to write, and writes nothing in a release build. -/
theorem C52_zero_bits (sg : Bool) (W : BitWrite σ) (p : Ptr) (a : Bool) (v : BitVec w) :
    writeIntBe ⟨true, p, a⟩ sg W 0 v = (fun _ => .panic) ∧ writeIntBe ⟨false, p, a⟩ sg W 0 v = pure () := by
  constructor
  · rfl
  · show (SM.lift (shlB ⟨false, p, a⟩ (1 : BitVec w) _) >>= fun mask => writeIntBeLoop _ sg W v 0 mask) = _
    unfold shlB overflow
    split <;> rfl

/-- Too large an `n` panics in a debug build before anything is written. -/
theorem C52_too_wide (sg : Bool) (W : BitWrite σ) (p : Ptr) (a : Bool) (v : BitVec w) {n : Nat} (hn : w < n) :
    writeIntBe ⟨true, p, a⟩ sg W n v = fun _ => .panic := by
  rw [writeIntBe, subN_ok (by omega), SM.lift_ok_bind]
  unfold shlB overflow
  rw [if_neg (by omega)]
  rfl

/-- `x >> j` of a `PrimInt` type, for any `j`. -/
private def shrBy (sg : Bool) (x : BitVec w) (j : Nat) : BitVec w := if sg then x.sshiftRight j else x >>> j

theorem writeIntBeLoop_mask (c : Cfg) (sg : Bool) (W : BitWrite σ) (hw : 1 < w) (v : BitVec w) (n : Nat) (mask : BitVec w) :
    writeIntBeLoop c sg W v n mask = writeAll W ((List.range n).map fun j => v &&& shrBy sg mask j != 0) := by
  induction n generalizing mask with
  | zero => rfl
  | succ n ih =>
    have e : shrI c sg mask 1 = .ok (shrBy sg mask 1) := by
      unfold shrI shrBy
      rw [if_pos hw]
    have e0 : shrBy sg mask 0 = mask := by
      unfold shrBy
      cases sg <;> simp
    rw [writeIntBeLoop, e, SM.lift_ok_bind, ih, List.range_succ_eq_map, List.map_cons, List.map_map, writeAll, e0]
    congr 1
    funext u
    congr 1
    apply List.map_congr_left
    intro j _
    show (v &&& _ != 0) = (v &&& _ != 0)
    congr 2
    unfold shrBy
    cases sg
    · show mask >>> 1 >>> j = mask >>> (j + 1)
      rw [← BitVec.shiftRight_add, Nat.add_comm]
    · show (mask.sshiftRight 1).sshiftRight j = mask.sshiftRight (j + 1)
      rw [← BitVec.sshiftRight_add, Nat.add_comm]

theorem mask_bit (sg : Bool) (v : BitVec w) {k : Nat} (hk : k < w) (j : Nat) :
    (v &&& shrBy sg ((1 : BitVec w) <<< k) j != 0) =
      if sg = true ∧ k + 1 = w then decide (v.toNat / 2 ^ (k - j) ≠ 0) else decide (j ≤ k) && v.toNat.testBit (k - j) := by
  have hbit : ∀ i < w, ((1 : BitVec w) <<< k).getLsbD i = decide (i = k) := by
    intro i hi
    rw [show (1 : BitVec w) = 1#w from rfl, BitVec.getLsbD_shiftLeft, BitVec.getLsbD_one]
    simp only [hi, decide_true, Bool.true_and]
    rw [Bool.eq_iff_iff]
    simp
    omega
  have hne : ∀ m : BitVec w, (v &&& m != 0) = true ↔ ∃ i < w, v.toNat.testBit i = true ∧ m.getLsbD i = true := by
    intro m
    rw [bne_iff_ne]
    constructor
    · intro h
      apply Classical.byContradiction
      intro h2
      apply h
      apply BitVec.eq_of_getLsbD_eq
      intro i hi
      rw [BitVec.getLsbD_and]
      cases h3 : v.getLsbD i <;> cases h4 : m.getLsbD i <;> simp
      exact h2 ⟨i, hi, h3, h4⟩
    · rintro ⟨i, hi, h3, h4⟩ h
      have := congrArg (fun x => BitVec.getLsbD x i) h
      simp only [BitVec.getLsbD_and, h4, show v.getLsbD i = true from h3] at this
      simp at this
  have hmsb : ((1 : BitVec w) <<< k).msb = decide (k + 1 = w) := by
    rw [BitVec.msb_eq_getLsbD_last, hbit _ (by omega), decide_eq_decide]
    omega
  have hget : ∀ i < w, (shrBy sg ((1 : BitVec w) <<< k) j).getLsbD i =
      if sg = true ∧ k + 1 = w then decide (k ≤ j + i) else decide (j + i = k) := by
    intro i hi
    unfold shrBy
    cases sg
    · simp only [Bool.false_eq_true, if_false, false_and, BitVec.getLsbD_ushiftRight]
      by_cases h : j + i < w
      · exact hbit _ h
      · rw [BitVec.getLsbD_of_ge _ _ (by omega)]
        simp; omega
    · simp only [if_true, true_and, BitVec.getLsbD_sshiftRight, hmsb]
      rw [show decide (w ≤ i) = false by simpa using hi, Bool.not_false, Bool.true_and]
      by_cases h : j + i < w
      · rw [if_pos h, hbit _ h]
        split
        · rw [decide_eq_decide]; omega
        · rfl
      · rw [if_neg h]
        split <;> rename_i h2
        · simp [h2]; omega
        · simp [h2]; omega
  rw [Bool.eq_iff_iff, hne]
  by_cases h : sg = true ∧ k + 1 = w
  · simp only [if_pos h, decide_eq_true_iff]
    constructor
    · rintro ⟨i, hi, h1, h2⟩ h3
      rw [hget i hi, if_pos h, decide_eq_true_iff] at h2
      have : (v.toNat / 2 ^ (k - j)).testBit (i - (k - j)) = true := by
        rw [Nat.testBit_div_two_pow, show i - (k - j) + (k - j) = i by omega, h1]
      rw [h3, Nat.zero_testBit] at this
      cases this
    · intro h3
      obtain ⟨i, hi⟩ := Nat.exists_testBit_of_ne_zero h3
      rw [Nat.testBit_div_two_pow] at hi
      have hlt : i + (k - j) < w := by
        apply Classical.byContradiction
        intro h5
        have : v.getLsbD (i + (k - j)) = false := BitVec.getLsbD_of_ge _ _ (by omega)
        rw [show v.getLsbD (i + (k - j)) = v.toNat.testBit (i + (k - j)) from rfl, hi] at this
        cases this
      exact ⟨i + (k - j), hlt, hi, by rw [hget _ hlt, if_pos h, decide_eq_true_iff]; omega⟩
  · simp only [if_neg h, Bool.and_eq_true, decide_eq_true_iff]
    constructor
    · rintro ⟨i, hi, h1, h2⟩
      rw [hget i hi, if_neg h, decide_eq_true_iff] at h2
      exact ⟨by omega, by rwa [show k - j = i by omega]⟩
    · rintro ⟨h1, h2⟩
      exact ⟨k - j, by omega, h2, by rw [hget _ (by omega), if_neg h, decide_eq_true_iff]; omega⟩

/-- C52, everything `write_int_be` does, for every `n`. In a debug build it panics before it writes anything unless
`1 ≤ n ≤ w`. Otherwise the mask starts at bit `k = (n - 1) mod w`, the bits of `v` from bit `k` down to bit 0 are written,
and after them zeros. But a signed type whose mask starts at the sign bit keeps its high bits set, and then each
bit written says whether any of the bits that the mask has passed is set. -/
theorem C52_exact (c : Cfg) (sg : Bool) (W : BitWrite σ) (hw : 1 < w) (v : BitVec w) (n : Nat) :
    writeIntBe c sg W n v =
      if c.debug = true ∧ ¬ (1 ≤ n ∧ n ≤ w) then SM.lift .panic
      else
        let k := (n - 1) % w
        writeAll W ((List.range n).map fun j =>
          if sg = true ∧ k + 1 = w then decide (v.toNat / 2 ^ (k - j) ≠ 0) else decide (j ≤ k) && v.toNat.testBit (k - j)) := by
  rcases n with _ | n
  · obtain ⟨d, p, a⟩ := c
    cases d
    · rw [(C52_zero_bits sg W p a v).2, if_neg (by simp)]; rfl
    · rw [(C52_zero_bits sg W p a v).1, if_pos (by simp)]; rfl
  · have hk : n % w < w := Nat.mod_lt _ (by omega)
    rw [writeIntBe, subN_ok (by omega), SM.lift_ok_bind, Nat.add_sub_cancel]
    unfold shlB overflow
    by_cases hn : n < w
    · rw [if_pos hn, SM.lift_ok_bind, if_neg (by omega), writeIntBeLoop_mask c sg W hw]
      simp only
      congr 1
      apply List.map_congr_left
      intro j _
      rw [Nat.mod_eq_of_lt hn]
      exact mask_bit sg v hn j
    · rw [if_neg hn]
      cases hd : c.debug
      · rw [if_neg (by simp)]
        show (SM.lift (.ok _) >>= _) = _
        rw [SM.lift_ok_bind, writeIntBeLoop_mask c sg W hw]
        simp only
        congr 1
        apply List.map_congr_left
        intro j _
        exact mask_bit sg v hk j
      · rw [if_pos rfl, if_pos ⟨rfl, by omega⟩]
        rfl

example : writeIntBe ⟨false, .p64, false⟩ false dequeWrite 11 (0x95#8) [] =
      .ok (.ok (), [true, false, true, false, false, false, false, false, false, false, false]) ∧
    writeIntBe ⟨false, .p64, false⟩ true dequeWrite 16 (0x12#8) [] =
      .ok (.ok (), [false, false, false, true, true, true, true, true, true, true, true, true, true, true, true, true]) ∧
    writeIntBe ⟨true, .p64, true⟩ false dequeWrite 11 (0x95#8) [] = .panic := by decide

/-! ### C53: end of stream -/

/-- C53. If any source delivers fewer than `n` bits and then stops (end, error, panic, hang), `read_int`
returns `Ok(None)` for the end of the stream if there was no bit at all and `UnexpectedEof` otherwise,
and passes everything else through; the state of the source is the one it stopped in. (If it delivers
`n` bits, `C51_read` says it is left right after them.) -/
theorem C53_read_int (c : Cfg) (R : BitRead σ) (hw : 1 < w) {s s' : σ} {bits : List Bool}
    (h : Reads R s bits s') (hs : NoBit (R.readBit s')) {n : Nat} (hn : bits.length < n) :
    readInt c R w n s =
      stopWith (if bits = [] then .ok none else .error .unexpectedEof) (R.readBit s') :=
  readInt_stop c R hw h hs hn

theorem C53_read_int_be (c : Cfg) (R : BitRead σ) (hw : 1 < w) {s s' : σ} {bits : List Bool}
    (h : Reads R s bits s') (hs : NoBit (R.readBit s')) {n : Nat} (hn : bits.length < n) :
    readIntBe c R w n s =
      stopWith (if bits = [] then .ok none else .error .unexpectedEof) (R.readBit s') :=
  readIntBe_stop c R hw h hs hn

/-- The outcomes spelled out for a finite stream of bits. -/
theorem C53_lawful (c : Cfg) {R : BitRead σ} {Rep : σ → List Bool → Prop} (hR : LawfulSource R Rep) (hw : 1 < w)
    {s : σ} {bits : List Bool} (hs : Rep s bits) {n : Nat} :
    ∃ s', Rep s' (bits.drop n) ∧
      readInt c R w n s = .ok (if n ≤ bits.length then .ok (some (BitVec.ofNat w (bitsVal (bits.take n))))
        else if bits = [] then .ok none else .error .unexpectedEof, s') := by
  by_cases hn : n ≤ bits.length
  · obtain ⟨s', h2, h3⟩ := hR.reads (bits.take n) (l := bits.drop n) (by rwa [List.take_append_drop])
    exact ⟨s', h3, by rw [if_pos hn]; exact readInt_reads c R hw h2 (by simp; omega)⟩
  · obtain ⟨s1, h2, h3⟩ := hR.reads bits (l := []) (by rwa [List.append_nil])
    obtain ⟨s2, h4, h5⟩ := hR.none h3
    refine ⟨s2, by rwa [List.drop_eq_nil_of_le (by omega)], ?_⟩
    have hno : NoBit (R.readBit s1) := by
      rw [h4]; intro b s hh; cases hh
    rw [if_neg hn, readInt_stop c R hw h2 hno (by omega), h4]
    rfl

/-- The same for big-endian integers. -/
theorem C53_lawful_be (c : Cfg) {R : BitRead σ} {Rep : σ → List Bool → Prop} (hR : LawfulSource R Rep) (hw : 1 < w)
    {s : σ} {bits : List Bool} (hs : Rep s bits) {n : Nat} :
    ∃ s', Rep s' (bits.drop n) ∧
      readIntBe c R w n s = .ok (if n ≤ bits.length then .ok (some (BitVec.ofNat w (bitsVal (bits.take n).reverse)))
        else if bits = [] then .ok none else .error .unexpectedEof, s') := by
  by_cases hn : n ≤ bits.length
  · obtain ⟨s', h2, h3⟩ := hR.reads (bits.take n) (l := bits.drop n) (by rwa [List.take_append_drop])
    exact ⟨s', h3, by rw [if_pos hn]; exact readIntBe_reads c R hw h2 (by simp; omega)⟩
  · obtain ⟨s1, h2, h3⟩ := hR.reads bits (l := []) (by rwa [List.append_nil])
    obtain ⟨s2, h4, h5⟩ := hR.none h3
    refine ⟨s2, by rwa [List.drop_eq_nil_of_le (by omega)], ?_⟩
    have hno : NoBit (R.readBit s1) := by
      rw [h4]; intro b s hh; cases hh
    rw [if_neg hn, readIntBe_stop c R hw h2 hno (by omega), h4]
    rfl

example : readIntBe ⟨true, .p64, true⟩ dequeRead 8 3 [true, true, false, true] = .ok (.ok (some 6#8), [true]) ∧
    readIntBe ⟨true, .p64, true⟩ dequeRead 8 3 [true, true] = .ok (.error .unexpectedEof, []) ∧
    readIntBe ⟨true, .p64, true⟩ dequeRead 8 3 [] = .ok (.ok none, []) := by decide

/-- A source that fails with error 7 after two bits. -/
example : readInt ⟨true, .p64, true⟩ (σ := Nat) ⟨fun k => if k < 2 then .ok (.ok (some true), k + 1) else .ok (.error (.other 7), k)⟩
      8 3 0 = .ok (.error (.other 7), 2) ∧
    readInt ⟨true, .p64, true⟩ dequeRead 8 3 [true, true] = .ok (.error .unexpectedEof, []) ∧
    readInt ⟨true, .p64, true⟩ dequeRead 8 3 [] = .ok (.ok none, []) := by decide

/-! ### C54: `BitBuffer` -/

/-- C54. Over any lawful vector, from any buffer representing a file `f`, every sequence of calls returns
exactly what it returns on the file with a cursor, and panics exactly when the list operation is out of
range. -/
theorem C54_buffer_is_file {o : BitVecPushOps w S} {Fit : Nat → Prop} {R : S → List Bool → Prop}
    (hv : PushVec c w o R Fit) {s : BitBuf S} {f : BitFile} (hR : bufR R s f) (ops : List BufOp)
    (hok : bufOpsOk Fit f ops) :
    match bufSpecRun f ops with
    | some (outs, f') => ∃ s', bufRun c o s ops = .ok (outs, s') ∧ bufR R s' f'
    | none => bufRun c o s ops = .panic := by
  have := bufRun_refines hv ops hR hok
  rcases h : bufSpecRun f ops with _ | ⟨outs, f'⟩
  · rw [h] at this; exact this
  · rw [h] at this; exact this

/-- C54, the three ways to make a buffer: empty, at the start of a vector, at its end. -/
theorem C54_constructors {c : Cfg} {w : Nat} :
    (∀ (_ : IsBlk w) n, Fits c.usz w n → ∃ s, BitBuf.withCapacity c w n = .ok s ∧ bufR (bvR c w) s ⟨[], 0⟩) ∧
    (∀ {S : Type} {o : BitVecOps w S} {R : S → List Bool → Prop}, BVLaw c o R → ∀ {v bits}, R v bits →
      bufR R (BitBuf.from_ v) ⟨bits, 0⟩ ∧ ∃ s, BitBuf.append o v = .ok s ∧ bufR R s ⟨bits, bits.length⟩) := by
  constructor
  · intro h n hf
    refine ⟨⟨VB.new, 0⟩, ?_, VR.nil c h 1, rfl, Nat.le_refl _⟩
    rw [BitBuf.withCapacity, bv_withCapacity c h hf, Res.ok_bind]
  · intro S o R hl v bits hR
    refine ⟨⟨hR, rfl, Nat.zero_le _⟩, ⟨v, bits.length⟩, ?_, hR, rfl, Nat.le_refl _⟩
    rw [BitBuf.append, hl.bitLen hR, Res.ok_bind]

/-- C54 for a new buffer over a `BitVector`, from the empty file. -/
theorem C54_bit_vector (c : Cfg) (h : IsBlk w) (ops : List BufOp) (hok : bufOpsOk (Fits c.usz w) ⟨[], 0⟩ ops) :
    ∃ s0, BitBuf.new c w = .ok s0 ∧
      match bufSpecRun ⟨[], 0⟩ ops with
      | some (outs, f') => ∃ s', bufRun c (bvBitVecPush c w) s0 ops = .ok (outs, s') ∧ bufR (bvR c w) s' f'
      | none => bufRun c (bvBitVecPush c w) s0 ops = .panic := by
  obtain ⟨s0, h0, hR⟩ := (C54_constructors (c := c) (w := w)).1 h 0 (by
    have : blocksFor w 0 = 0 := Nat.le_zero.1 ((blocksFor_le h.pos).2 (Nat.zero_le _))
    have hle := h.le
    unfold Fits
    rw [this]
    refine ⟨by omega, ?_⟩
    exact Nat.two_pow_pos _)
  exact ⟨s0, h0, C54_buffer_is_file (bv_pushVec c h) hR ops hok⟩

/-- Overwriting in the middle, reading on, reading at the end, a rejected and an accepted seek. -/
example : bufSpecRun ⟨[], 0⟩ [.write true, .write false, .write true, .seek 1, .write true, .read, .read, .seek 4,
      .seek 0, .read, .position] =
    some ([.unit, .unit, .unit, .unit, .unit, .optBit (some true), .optBit none, .err .notFound, .unit,
      .optBit (some true), .num 1], ⟨[true, true, true], 1⟩) := by decide

/-- C54, last clause: bits written to a fresh part of the file come back in order. -/
theorem C54_write_then_read {o : BitVecPushOps w S} {Fit : Nat → Prop} {R : S → List Bool → Prop}
    (hv : PushVec c w o R Fit) (hm : ∀ {m n}, Fit n → m ≤ n → Fit m) {s : BitBuf S} {l : List Bool}
    (hR : bufR R s ⟨l, l.length⟩) (bs : List Bool) (hf : Fit (l.length + bs.length)) :
    ∃ s1 s2 s3, writeAll (BitBuf.write c o) bs s = .ok (.ok (), s1) ∧
      BitBuf.seek o.toBitVecOps 0 s1 = .ok (.ok (), s2) ∧
      Reads (BitBuf.read c o.toBitVecOps) s2 (l ++ bs) s3 ∧
      (BitBuf.read c o.toBitVecOps).readBit s3 = .ok (.ok none, s3) := by
  obtain ⟨s1, h1, hR1⟩ := (buf_sink hv).writeAll hm bs hR hf
  obtain ⟨s2, h2, hR2⟩ := (buf_seek hv.law hR1 0).1 (Nat.zero_le _)
  obtain ⟨s3, h3, f, hf3, h4⟩ := (buf_source hv.blk hv.law hv.block).reads (l ++ bs) (l := []) (s := s2)
    ⟨_, hR2, by simp⟩
  exact ⟨s1, s2, s3, h1, h2, h3, buf_read_none hv.law hf3.1 (by
    rw [hf3.2.1]; exact List.drop_eq_nil_iff.1 h4.symm)⟩

/-- C42 for `BitBuffer`: three methods are the wrapped vector's; `get_bit` and `get_bits` are the trait's
defaults and agree with the wrapped vector's on every lawful vector, in and out of range. `inner` is the
wrapped value. -/
theorem C42_bit_buffer {o : BitVecOps w S} {R : S → List Bool → Prop} (h : IsBlk w) (hl : BVLaw c o R)
    (hb : BVBlockLaw c o R) :
    (∀ (b : BitBuf S), (BitBuf.bitVec c o).bitLen b = o.bitLen b.inner ∧
      (BitBuf.bitVec c o).blockLen b = o.blockLen b.inner ∧
      ∀ i, (BitBuf.bitVec c o).getBlock b i = o.getBlock b.inner i) ∧
    (∀ (b : BitBuf S) bits, R b.inner bits → (∀ i < 2 ^ 64, (BitBuf.bitVec c o).getBit b i = o.getBit b.inner i) ∧
      ∀ p n, 1 ≤ n → n ≤ w → p + n < 2 ^ 64 → (BitBuf.bitVec c o).getBits b p n = o.getBits b.inner p n) ∧
    (∀ v : S, (BitBuf.from_ v).inner = v) := by
  refine ⟨fun b => ⟨rfl, rfl, fun _ => rfl⟩, fun b bits hR => ⟨fun i hi => ?_, fun p n h1 hn hp => ?_⟩, fun _ => rfl⟩
  · rw [(buf_law c h hl hb).getBit hR i hi, hl.getBit hR i hi]
  · by_cases hle : p + n ≤ bits.length
    · rw [(buf_law c h hl hb).getBits hR p n h1 hn hle, hl.getBits hR p n h1 hn hle]
    · rw [(buf_law c h hl hb).getBits_panic hR p n hn hp (by omega), hl.getBits_panic hR p n hn hp (by omega)]

/-! Each theorem of this file that has hypotheses is applied to concrete data in `Verif/Instances/Stream.lean`. -/

end Succinct
