import Verif.Tests.Quickcheck
import Verif.Props.Storage
import Verif.Props.Broadword
import Verif.Props.Select
import Verif.Props.Rank
import Verif.Props.Coding
import Verif.Props.Exact
/-!
# C102: the crate's own quickcheck properties, for all arguments

The test modules check these on a hundred small random arguments each. Those about `count_ones`, `select1`, `u_nz8`, `u_le8`
hold for all arguments; those about `floor_lg`, `ceil_lg`, `ceil_div` and the codes overflow for large ones, and
then the property itself fails although the function is right.
-/
namespace Succinct
open Spec Tests

/-- `count_ones_qc` and `count_ones_qc_hash`. -/
theorem C102_count_ones (c : Cfg) (x : BitVec 64) : countOnesProp c x = .ok true := by
  unfold countOnesProp
  rw [C46_count_ones, Res.ok_bind, countOnes_eq, beq_self_eq_true]

/-- `select1_qc` and `select1_qc_hash`: broadword select agrees with binary search over the rank of the word. -/
theorem C102_select1 (c : Cfg) (r : Nat) (x : BitVec 64) :
    select1Prop c r x = .ok (if 64 < r then none else some true) := by
  unfold select1Prop
  by_cases hr : 64 < r
  · rw [if_pos hr, if_pos hr]
  · rw [if_neg hr, if_neg hr]
    obtain ⟨a, ha, ha'⟩ := C47_select_partial c x (r := r) (by omega)
    obtain ⟨b, hb, hb'⟩ := (C44_select_partial c (C36_words c isBlk64 x) (k := r) (by omega)).1
    rw [ha, Res.ok_bind, hb, Res.ok_bind, isSelect_unique ha' hb', beq_self_eq_true]

theorem allR_true {l : List Nat} {p : Nat → Res Bool} (h : ∀ i ∈ l, p i = .ok true) : allR l p = .ok true := by
  induction l with
  | nil => rfl
  | cons i l ih =>
    unfold allR
    rw [h i (by simp), Res.ok_bind, if_pos rfl]
    exact ih fun j hj => h j (by simp [hj])

theorem getByte (c : Cfg) (x : BitVec 64) {i : Nat} (hi : i < 8) :
    ∃ y, blkGetBits c x (8 * i) 8 = .ok y ∧ y.toNat = byteOf x i := by
  obtain ⟨y, h1, h2⟩ := C03_get_bits c isBlk64 x (8 * i) 8 (by omega)
  exact ⟨y, h1, by rw [h2, byteOf, Nat.pow_mul]⟩

/-- `u_nz8_qc`. -/
theorem C102_u_nz8 (c : Cfg) (x : BitVec 64) : uNz8Prop c x = .ok true := by
  obtain ⟨z, hz, hb⟩ := C48_u_nz8 c x
  unfold uNz8Prop
  rw [hz, Res.ok_bind]
  refine allR_true fun i hi => ?_
  have hi : i < 8 := by simpa using hi
  obtain ⟨a, ha, ha'⟩ := getByte c x hi
  obtain ⟨b, hb1, hb'⟩ := getByte c z hi
  rw [ha, Res.ok_bind, hb1, Res.ok_bind]
  rw [hb i hi] at hb'
  have e1 : a ≠ 0 ↔ byteOf x i ≠ 0 := by rw [← ha', ne_eq, ne_eq, ← BitVec.toNat_inj]; rfl
  have e2 : b = 0x80 ↔ b.toNat = 128 := by rw [← BitVec.toNat_inj]; rfl
  simp only [e1, e2, hb']
  by_cases h0 : byteOf x i = 0 <;> simp [h0]

/-- `u_le8_qc` and `u_le8_qc_hashed`. -/
theorem C102_u_le8 (c : Cfg) (x y : BitVec 64) : uLe8Prop c x y = .ok true := by
  obtain ⟨z, hz, hb⟩ := C48_u_le8 c x y
  unfold uLe8Prop
  rw [hz, Res.ok_bind]
  refine allR_true fun i hi => ?_
  have hi : i < 8 := by simpa using hi
  obtain ⟨a, ha, ha'⟩ := getByte c x hi
  obtain ⟨d, hd, hd'⟩ := getByte c y hi
  obtain ⟨b, hb1, hb'⟩ := getByte c z hi
  rw [ha, Res.ok_bind, hd, Res.ok_bind, hb1, Res.ok_bind]
  rw [hb i hi] at hb'
  have e1 : a ≤ d ↔ byteOf x i ≤ byteOf y i := by rw [← ha', ← hd', BitVec.le_def]
  have e2 : b = 0x80 ↔ b.toNat = 128 := by rw [← BitVec.toNat_inj]; rfl
  simp only [e1, e2, hb']
  by_cases h0 : byteOf x i ≤ byteOf y i <;> simp [h0]

theorem pow2_ok (c : Cfg) {e : Nat} (h : e < 64) : pow2 c e = .ok (2 ^ e) :=
  if_pos (Nat.pow_lt_pow_right (by decide) h)

theorem pow2_64 (c : Cfg) : pow2 c 64 = overflow c 0 := rfl

/-- The property in `floor_lg`, exactly: it holds for all numbers below 2^63 and fails above, because `2.pow(64)`
overflows; `floor_lg` itself is right there (`C04_floor_lg`). -/
theorem C102_floor_lg (c : Cfg) (n : BitVec 64) :
    floorLgProp c n = if n = 0 then .ok none else if n.toNat < 2 ^ 63 then .ok (some true)
      else if c.debug then .panic else .ok (some false) := by
  unfold floorLgProp
  by_cases h0 : n = 0
  · rw [if_pos h0, if_pos h0]
  rw [if_neg h0, if_neg h0]
  have h1 : 1 ≤ n.toNat := by
    have : n.toNat ≠ 0 := fun e => h0 (BitVec.eq_of_toNat_eq e)
    omega
  have hn := n.isLt
  obtain ⟨a, ha, -, hlg⟩ := C04_floor_lg c isBlk64 n
  obtain ⟨l1, l2⟩ := hlg h1
  have h2 : a < 64 := (Nat.pow_lt_pow_iff_right (a := 2) (by decide)).1 (by omega)
  rw [ha, Res.ok_bind, pow2_ok c h2, Res.ok_bind, if_pos l1, Res.ok_bind, addN_ok (by omega), Res.ok_bind]
  by_cases h63 : n.toNat < 2 ^ 63
  · have h3 : a < 63 := (Nat.pow_lt_pow_iff_right (a := 2) (by decide)).1 (by omega)
    rw [if_pos h63, pow2_ok c (by omega), Res.ok_bind]
    have : n.toNat < 2 ^ (a + 1) := by
      apply Nat.lt_of_not_le
      intro h
      have := l2 _ h
      omega
    rw [decide_eq_true this]
  · have h3 : a = 63 := by have := l2 63 (by omega); omega
    subst h3
    rw [if_neg h63, pow2_64, overflow]
    by_cases hd : c.debug = true
    · rw [if_pos hd, if_pos hd]; rfl
    · rw [if_neg hd, if_neg hd]; rfl

/-- The property in `ceil_lg`, exactly: it holds up to 2^63 and fails above. -/
theorem C102_ceil_lg (c : Cfg) (n : BitVec 64) :
    ceilLgProp c n = if n.toNat ≤ 1 then .ok none else if n.toNat ≤ 2 ^ 63 then .ok (some true)
      else if c.debug then .panic else .ok (some false) := by
  have e : n ≤ 1 ↔ n.toNat ≤ 1 := by rw [BitVec.le_def]; rfl
  unfold ceilLgProp
  simp only [e]
  by_cases h0 : n.toNat ≤ 1
  · rw [if_pos h0, if_pos h0]
  rw [if_neg h0, if_neg h0]
  have hn := n.isLt
  obtain ⟨a, ha, -, l1, l2⟩ := C04_ceil_lg c isBlk64 n
  have h1 : 1 ≤ a := by
    rcases Nat.eq_zero_or_pos a with h | h
    · rw [h] at l1; simp at l1; omega
    · exact h
  by_cases h63 : n.toNat ≤ 2 ^ 63
  · have h2 := l2 63 h63
    rw [if_pos h63, ha, Res.ok_bind, pow2_ok c (by omega), Res.ok_bind, if_pos l1, Res.ok_bind, subN_ok h1, Res.ok_bind,
      pow2_ok c (by omega), Res.ok_bind]
    have : 2 ^ (a - 1) < n.toNat := by
      apply Nat.lt_of_not_le
      intro h
      have := l2 _ h
      omega
    rw [decide_eq_true this]
  · have h2 := l2 64 (by omega)
    have h3 : a = 64 := by
      have : 63 < a := (Nat.pow_lt_pow_iff_right (a := 2) (by decide)).1 (by omega)
      omega
    subst h3
    rw [if_neg h63, ha, Res.ok_bind, pow2_64, overflow]
    by_cases hd : c.debug = true
    · rw [if_pos hd, if_pos hd]; rfl
    · rw [if_neg hd, if_neg hd, Res.ok_bind, if_neg (show ¬ n.toNat ≤ 0 by omega)]

/-- The property in `ceil_div`: it holds whenever the product does not overflow, except that in builds with
overflow checks `ceil_div` itself overflows for the two pairs with sum 2^64. -/
theorem C102_ceil_div (c : Cfg) {n m : Nat} (hn : 0 < n) (hm : 0 < m) (h : n * m < 2 ^ 64)
    (hs : n + m < 2 ^ 64 ∨ c.debug = false) : ceilDivProp c n m = .ok (some true) := by
  have h1 : n < 2 ^ 64 := Nat.lt_of_le_of_lt (Nat.le_mul_of_pos_right n hm) h
  have h2 : m < 2 ^ 64 := Nat.lt_of_le_of_lt (Nat.le_mul_of_pos_left m hn) h
  have hp : 0 < n * m := Nat.mul_pos hn hm
  have hsum : n + m ≤ n * m + 1 := by
    obtain ⟨a, rfl⟩ : ∃ a, n = a + 1 := ⟨n - 1, by omega⟩
    obtain ⟨b, rfl⟩ : ∃ b, m = b + 1 := ⟨m - 1, by omega⟩
    rw [Nat.succ_mul_succ]
    have := Nat.zero_le (a * b)
    omega
  obtain ⟨q, hq, q1, q2⟩ : ∃ q, ceilDiv c 64 n m = .ok q ∧ IsCeilDiv n m q := by
    rcases Nat.lt_or_ge (n + m) (2 ^ 64) with hlt | hge
    · exact (C97_ceil_div c h1 h2).1 (by omega) hm
    · exact (C97_ceil_div c h1 h2).2.1 (by omega) (hs.resolve_left (by omega))
  have hq0 : 0 < q := by
    rcases Nat.eq_zero_or_pos q with h | h
    · rw [h] at q1; omega
    · exact h
  have q3 : (q - 1) * m < n := by
    apply Nat.lt_of_not_le
    intro h
    have := q2 _ h
    omega
  have q4 : q * m < n + m := by
    obtain ⟨k, rfl⟩ : ∃ k, q = k + 1 := ⟨q - 1, by omega⟩
    rw [Nat.add_mul, Nat.one_mul]
    have : (k + 1 - 1) * m = k * m := by rw [Nat.add_sub_cancel]
    omega
  have q5 : m * (q - 1) < n := by rw [Nat.mul_comm]; exact q3
  unfold ceilDivProp
  rw [mulN_ok h, Res.ok_bind, if_neg (by omega), hq, Res.ok_bind, mulN_ok (by rw [Nat.mul_comm]; omega), Res.ok_bind,
    if_pos (by rw [Nat.mul_comm]; exact q1), Res.ok_bind, subN_ok hq0, Res.ok_bind,
    mulN_ok (Nat.lt_trans q5 h1), Res.ok_bind, decide_eq_true q5]

/-- Beyond that the property fails: with overflow checks it always panics, without them it is false for instance
at `n = u64::MAX`, `m = 2`, and here `ceil_div` is really wrong (`C05_overflow`). -/
theorem C102_ceil_div_overflow (c : Cfg) :
    (∀ n m, 2 ^ 64 ≤ n * m → c.debug = true → ceilDivProp c n m = .panic) ∧
    (c.debug = false → ceilDivProp c (2 ^ 64 - 1) 2 = .ok (some false)) := by
  constructor
  · intro n m h hd
    unfold ceilDivProp mulN
    rw [if_neg (by omega), overflow, if_pos hd]
    rfl
  · intro hd
    obtain ⟨d, p, a⟩ := c
    cases hd
    cases p <;> cases a <;> decide

theorem encodeSucc_ok (c : Cfg) {K : Code} {D : Nat → Prop} {word : Nat → List Bool} (h : EncodesBy K D word)
    {v : List Nat} (hv : ∀ i ∈ v, D (i + 1) ∧ i + 1 < 2 ^ 64) (dv : List Bool) :
    encodeSucc c K v dv = .ok (dv ++ v.flatMap fun i => word (i + 1)) := by
  induction v generalizing dv with
  | nil => simp [encodeSucc]
  | cons i v ih =>
    obtain ⟨h1, h2⟩ := hv i (by simp)
    obtain ⟨l, e1, e2⟩ := deque_sink.writeAll (fun _ _ => trivial) (word (i + 1)) (s := dv) (l := dv) rfl trivial
    have e3 : unwrap (K.encode dequeWrite (i + 1) dv) = .ok ((), l) := by rw [h _ h1, e1]; rfl
    unfold encodeSucc
    rw [addN_ok h2, Res.ok_bind, e3, Res.ok_bind]
    show encodeSucc c K v l = _
    rw [ih (fun j hj => hv j (by simp [hj])), e2]
    simp

theorem decodePred_ok (c : Cfg) {K : Code} {D : Nat → Prop} {word : Nat → List Bool} (h : Implements K D word)
    {v : List Nat} (hv : ∀ i ∈ v, D (i + 1)) (acc : List Nat) :
    decodePred c K (v.flatMap fun i => word (i + 1)) acc = .ok (acc ++ v) := by
  induction v generalizing acc with
  | nil =>
    rw [decodePred.eq_def]
    have : K.decode dequeRead [] = .ok (.ok none, []) :=
      h.ends dequeRead [] (fun b s e => by cases e)
    rw [List.flatMap_nil, this, Res.ok_bind, List.append_nil]
  | cons i v ih =>
    have h1 := hv i (by simp)
    have e : K.decode dequeRead ((i :: v).flatMap fun i => word (i + 1)) =
        .ok (.ok (some (i + 1)), v.flatMap fun i => word (i + 1)) := by
      rw [List.flatMap_cons]
      exact h.decodes _ h1 dequeRead _ _ (deque_reads _ _)
    rw [decodePred.eq_def, e, Res.ok_bind]
    show (subN c 64 (i + 1) 1 >>= _) = _
    rw [subN_ok (by omega), Res.ok_bind, Nat.add_sub_cancel, ih (fun j hj => hv j (by simp [hj]))]
    simp

/-- `code_decode` holds for every code of the crate and every list whose successors are in the domain of the code. -/
theorem C102_code_decode (c : Cfg) (f : Bool) {K : Code} {D : Nat → Prop} {word : Nat → List Bool} (h : CodeOf c f K D word)
    {v : List Nat} (hv : ∀ i ∈ v, D (i + 1) ∧ i + 1 < 2 ^ 64) : codeDecode c K v = .ok true := by
  have hi := C62_all c f h
  unfold codeDecode
  rw [encodeSucc_ok c hi.encodes hv, Res.ok_bind, List.nil_append, decodePred_ok c hi (fun i hi => (hv i hi).1), Res.ok_bind,
    List.nil_append, beq_self_eq_true]

/-- The properties `qc_gamma`, `qc_delta`, `qc_omega`, `qc_comma2` to `4`: they hold for all lists without `u64::MAX`,
and with overflow checks panic for all others. -/
theorem C102_code_decode_tests (c : Cfg) {K : Code}
    (hK : K = gamma c ∨ K = delta c ∨ K = omegaCode c ∨ K = comma c 2 ∨ K = comma c 3 ∨ K = comma c 4) {v : List Nat}
    (hv : ∀ i ∈ v, i < 2 ^ 64) :
    ((∀ i ∈ v, i ≠ 2 ^ 64 - 1) → codeDecode c K v = .ok true) ∧
    ((∃ i ∈ v, i = 2 ^ 64 - 1) → c.debug = true → codeDecode c K v = .panic) := by
  obtain ⟨D, word, hC, hD⟩ : ∃ D word, CodeOf c false K D word ∧ ∀ i, i + 1 < 2 ^ 64 → D (i + 1) := by
    rcases hK with rfl | rfl | rfl | rfl | rfl | rfl
    · exact ⟨_, _, (C62_gamma_delta c _).1, fun i h => ⟨by omega, h⟩⟩
    · exact ⟨_, _, (C62_gamma_delta c _).2, fun i h => ⟨by omega, h⟩⟩
    · exact ⟨_, _, .omega, fun i h => ⟨by omega, h⟩⟩
    · exact ⟨_, _, .comma (by decide) (by decide), fun i h => h⟩
    · exact ⟨_, _, .comma (by decide) (by decide), fun i h => h⟩
    · exact ⟨_, _, .comma (by decide) (by decide), fun i h => h⟩
  refine ⟨fun hm => C102_code_decode c false hC fun i hi => ?_, fun hm hd => ?_⟩
  · have h1 := hv i hi
    have h2 := hm i hi
    exact ⟨hD i (by omega), by omega⟩
  · have key : ∀ (v : List Nat) (dv : List Bool), (∀ i ∈ v, i < 2 ^ 64) → (∃ i ∈ v, i = 2 ^ 64 - 1) →
        encodeSucc c K v dv = .panic := by
      intro v
      induction v with
      | nil => intro dv _ h; simp at h
      | cons i v ih =>
        intro dv hv hm
        by_cases hi : i = 2 ^ 64 - 1
        · unfold encodeSucc addN
          rw [if_neg (by omega), overflow, if_pos hd]
          rfl
        · have h1 := hv i (by simp)
          have he := encodeSucc_ok c (C62_all c false hC).encodes (v := [i])
            (fun j hj => by simp at hj; subst hj; exact ⟨hD _ (by omega), by omega⟩) dv
          unfold encodeSucc at he ⊢
          obtain ⟨i1, e1, he⟩ := Res.of_bind_ok he
          obtain ⟨⟨u, d⟩, e2, he⟩ := Res.of_bind_ok he
          rw [e1, Res.ok_bind, e2, Res.ok_bind]
          refine ih d (fun j hj => hv j (by simp [hj])) ?_
          obtain ⟨j, hj, hjm⟩ := hm
          rcases List.mem_cons.1 hj with rfl | hj
          · exact absurd hjm hi
          · exact ⟨j, hj, hjm⟩
    unfold codeDecode
    rw [key v [] hv hm]
    rfl

/-- The property `qc` of fib.rs: it holds exactly for the lists of numbers below `fib 93 - 1`, and panics for all
others, in all builds: `encode` reports an error, which the test unwraps. -/
theorem C102_fibonacci (c : Cfg) {v : List Nat} (hv : ∀ i ∈ v, i < 2 ^ 64) :
    codeDecode c (fibonacci c) v = if ∀ i ∈ v, i + 1 < fib 93 then .ok true else .panic := by
  have h93 : fib 93 < 2 ^ 64 := (C60_largest.2 93).2 (by decide)
  split
  · next h => exact C102_code_decode c true .fibonacci fun i hi => ⟨⟨by omega, h i hi⟩, by have := h i hi; omega⟩
  · next h =>
    have key : ∀ (v : List Nat) (dv : List Bool), (∀ i ∈ v, i < 2 ^ 64) → (∃ i ∈ v, fib 93 ≤ i + 1) →
        encodeSucc c (fibonacci c) v dv = .panic := by
      intro v
      induction v with
      | nil => intro dv _ h; simp at h
      | cons i v ih =>
        intro dv hv hm
        have h1 := hv i (by simp)
        by_cases hi : fib 93 ≤ i + 1
        · unfold encodeSucc addN
          by_cases hmax : i + 1 < 2 ^ 64
          · rw [if_pos hmax, Res.ok_bind, C60_too_large c hi hmax]
            rfl
          · rw [if_neg hmax, overflow]
            by_cases hd : c.debug = true
            · rw [if_pos hd]; rfl
            · have : (i + 1) % 2 ^ 64 = 0 := by omega
              rw [if_neg hd, this, Res.ok_bind, (C65_zero_partial c dequeWrite dv).2.2.2]
              rfl
        · have he := encodeSucc_ok c (C60_implements c).encodes (v := [i])
            (fun j hj => by simp at hj; subst hj; exact ⟨⟨by omega, by omega⟩, by omega⟩) dv
          unfold encodeSucc at he ⊢
          obtain ⟨i1, e1, he⟩ := Res.of_bind_ok he
          obtain ⟨⟨u, d⟩, e2, he⟩ := Res.of_bind_ok he
          rw [e1, Res.ok_bind, e2, Res.ok_bind]
          refine ih d (fun j hj => hv j (by simp [hj])) ?_
          obtain ⟨j, hj, hjm⟩ := hm
          rcases List.mem_cons.1 hj with rfl | hj
          · exact absurd hjm hi
          · exact ⟨j, hj, hjm⟩
    unfold codeDecode
    rw [key v [] hv]
    · rfl
    · apply Classical.byContradiction
      intro hn
      exact h fun i hi => Nat.lt_of_not_le fun hle => hn ⟨i, hi, hle⟩

#guard passes fun c => do
  assertEq true (← codeDecode c (gamma c) [0, 5, 2 ^ 64 - 2])
  assertEq true (← codeDecode c (fibonacci c) [0, 5, 12200160415121876736])
  assertEq (some true) (← select1Prop c 9 0xF0F0F0F0)
  assertEq (some true) (← floorLgProp c 1000)

/-! Each theorem of this file that has hypotheses is applied to concrete data in `Verif/Instances/Tests.lean`. -/

end Succinct
