import Verif.Model.Broadword
/-! Words as vectors of eight bytes. -/
namespace Succinct

/-- The number with base-256 digits `f 0 … f (n-1)`. -/
def lval : Nat → (Nat → Nat) → Nat
  | 0, _ => 0
  | n + 1, f => f 0 + 256 * lval n (fun i => f (i + 1))

theorem lval_congr {n : Nat} {f g : Nat → Nat} (h : ∀ i < n, f i = g i) : lval n f = lval n g := by
  induction n generalizing f g with
  | zero => rfl
  | succ n ih =>
    show f 0 + 256 * _ = g 0 + 256 * _
    rw [h 0 (by omega), ih (fun i hi => h (i + 1) (by omega))]

theorem lval_add (n : Nat) (f g : Nat → Nat) : lval n f + lval n g = lval n (fun i => f i + g i) := by
  induction n generalizing f g with
  | zero => rfl
  | succ n ih =>
    show f 0 + 256 * _ + (g 0 + 256 * _) = f 0 + g 0 + 256 * _
    rw [← ih]; omega

theorem lval_le {n : Nat} {f g : Nat → Nat} (h : ∀ i < n, f i ≤ g i) : lval n f ≤ lval n g := by
  induction n generalizing f g with
  | zero => exact Nat.le_refl _
  | succ n ih =>
    show f 0 + 256 * _ ≤ g 0 + 256 * _
    have h1 := h 0 (by omega)
    have h2 := ih (f := fun i => f (i + 1)) (g := fun i => g (i + 1)) (fun i hi => h (i + 1) (by omega))
    omega

theorem lval_sub {n : Nat} {f g : Nat → Nat} (h : ∀ i < n, g i ≤ f i) :
    lval n f - lval n g = lval n (fun i => f i - g i) := by
  have h1 := lval_add n (fun i => f i - g i) g
  rw [lval_congr (f := fun i => f i - g i + g i) (g := f) (fun i hi => Nat.sub_add_cancel (h i hi))] at h1
  omega

theorem lval_lt {n : Nat} {f : Nat → Nat} (h : ∀ i < n, f i < 256) : lval n f < 256 ^ n := by
  induction n generalizing f with
  | zero => exact Nat.one_pos
  | succ n ih =>
    show f 0 + 256 * _ < 256 ^ (n + 1)
    have h1 := h 0 (by omega)
    have h2 := ih (f := fun i => f (i + 1)) (fun i hi => h (i + 1) (by omega))
    rw [Nat.pow_succ]; omega

theorem lval_lt64 {f : Nat → Nat} (h : ∀ i < 8, f i < 256) : lval 8 f < 2 ^ 64 := lval_lt h

theorem lval_const (n k : Nat) : lval n (fun _ => k) = k * lval n (fun _ => 1) := by
  induction n with
  | zero => rfl
  | succ n ih =>
    show k + 256 * lval n (fun _ => k) = k * (1 + 256 * lval n (fun _ => 1))
    rw [ih, Nat.mul_add, Nat.mul_one, Nat.mul_left_comm]

/-- Digit `i`. -/
theorem lval_digit {n : Nat} {f : Nat → Nat} (h : ∀ i < n, f i < 256) {i : Nat} (hi : i < n) :
    lval n f / 256 ^ i % 256 = f i := by
  induction n generalizing f i with
  | zero => omega
  | succ n ih =>
    show (f 0 + 256 * _) / 256 ^ i % 256 = f i
    have h1 := h 0 (by omega)
    cases i with
    | zero => rw [Nat.pow_zero, Nat.div_one]; omega
    | succ i =>
      rw [Nat.pow_succ', ← Nat.div_div_eq_div_mul, Nat.add_mul_div_left _ _ (by omega : 0 < 256), Nat.div_eq_of_lt h1, Nat.zero_add]
      exact ih (f := fun i => f (i + 1)) (fun i hi => h (i + 1) (by omega)) (by omega)

theorem lval_digits (n x : Nat) : lval n (fun i => x / 256 ^ i % 256) = x % 256 ^ n := by
  induction n generalizing x with
  | zero => simp [lval, Nat.mod_one]
  | succ n ih =>
    show x / 256 ^ 0 % 256 + 256 * lval n (fun i => x / 256 ^ (i + 1) % 256) = _
    have : lval n (fun i => x / 256 ^ (i + 1) % 256) = lval n (fun i => x / 256 / 256 ^ i % 256) :=
      lval_congr (fun i _ => by rw [Nat.pow_succ', Nat.div_div_eq_div_mul])
    rw [this, ih, Nat.pow_zero, Nat.div_one, Nat.pow_succ', Nat.mod_mul]

theorem lval_inj {n : Nat} {f g : Nat → Nat} (hf : ∀ i < n, f i < 256) (hg : ∀ i < n, g i < 256) (h : lval n f = lval n g)
    {i : Nat} (hi : i < n) : f i = g i := by
  rw [← lval_digit hf hi, ← lval_digit hg hi, h]

theorem testBit_digit {a n : Nat} (ha : a < 256) (j : Nat) :
    (a + 256 * n).testBit j = if j < 8 then a.testBit j else n.testBit (j - 8) := by
  rw [Nat.add_comm]
  exact Nat.testBit_two_pow_mul_add (i := 8) n ha j

theorem testBit_lt256 {a j : Nat} (ha : a < 256) (hj : 8 ≤ j) : a.testBit j = false :=
  Nat.testBit_lt_two_pow (Nat.lt_of_lt_of_le ha (Nat.pow_le_pow_right (n := 2) (by decide) hj))

section
variable (op : Nat → Nat → Nat) (opb : Bool → Bool → Bool) (hop : ∀ a b j, (op a b).testBit j = opb (a.testBit j) (b.testBit j))
  (h0 : opb false false = false)
include hop h0

theorem op_zero : op 0 0 = 0 := by
  apply Nat.eq_of_testBit_eq
  intro j
  rw [hop, Nat.zero_testBit, h0]

theorem op_lt256 {a b : Nat} (ha : a < 256) (hb : b < 256) : op a b < 256 := by
  apply Nat.lt_pow_two_of_testBit _ (n := 8)
  intro j hj
  rw [hop, testBit_lt256 ha hj, testBit_lt256 hb hj, h0]

theorem lval_op {n : Nat} {f g : Nat → Nat} (hf : ∀ i < n, f i < 256) (hg : ∀ i < n, g i < 256) :
    op (lval n f) (lval n g) = lval n (fun i => op (f i) (g i)) := by
  induction n generalizing f g with
  | zero => exact op_zero op opb hop h0
  | succ n ih =>
    show op (f 0 + 256 * _) (g 0 + 256 * _) = op (f 0) (g 0) + 256 * _
    have hf0 := hf 0 (by omega)
    have hg0 := hg 0 (by omega)
    rw [← ih (f := fun i => f (i + 1)) (g := fun i => g (i + 1)) (fun i hi => hf (i + 1) (by omega)) (fun i hi => hg (i + 1) (by omega))]
    apply Nat.eq_of_testBit_eq
    intro j
    rw [hop, testBit_digit hf0, testBit_digit hg0, testBit_digit (op_lt256 op opb hop h0 hf0 hg0)]
    split <;> rw [hop]
end

theorem lval_and {n : Nat} {f g : Nat → Nat} (hf : ∀ i < n, f i < 256) (hg : ∀ i < n, g i < 256) :
    lval n f &&& lval n g = lval n (fun i => f i &&& g i) :=
  lval_op (· &&& ·) (· && ·) (fun a b j => Nat.testBit_and a b j) rfl hf hg

theorem lval_or {n : Nat} {f g : Nat → Nat} (hf : ∀ i < n, f i < 256) (hg : ∀ i < n, g i < 256) :
    lval n f ||| lval n g = lval n (fun i => f i ||| g i) :=
  lval_op (· ||| ·) (· || ·) (fun a b j => Nat.testBit_or a b j) rfl hf hg

theorem lval_xor {n : Nat} {f g : Nat → Nat} (hf : ∀ i < n, f i < 256) (hg : ∀ i < n, g i < 256) :
    lval n f ^^^ lval n g = lval n (fun i => f i ^^^ g i) :=
  lval_op (· ^^^ ·) (· ^^ ·) (fun a b j => Nat.testBit_xor a b j) rfl hf hg

/-- Shifting right by `k` and keeping at most the low `8-k` bits of every byte. -/
theorem lval_shr_and {n k : Nat} (hk : k ≤ 8) {f g : Nat → Nat} (hf : ∀ i < n, f i < 256) (hg : ∀ i < n, g i < 2 ^ (8 - k)) :
    (lval n f >>> k) &&& lval n g = lval n (fun i => (f i >>> k) &&& g i) := by
  have hp : 2 ^ (8 - k) ≤ 256 := Nat.pow_le_pow_right (n := 2) (j := 8) (by decide) (by omega)
  induction n generalizing f g with
  | zero => simp [lval]
  | succ n ih =>
    show ((f 0 + 256 * _) >>> k) &&& (g 0 + 256 * _) = (f 0 >>> k &&& g 0) + 256 * _
    have hf0 := hf 0 (by omega)
    have hg0 := hg 0 (by omega)
    rw [← ih (f := fun i => f (i + 1)) (g := fun i => g (i + 1)) (fun i hi => hf (i + 1) (by omega)) (fun i hi => hg (i + 1) (by omega))]
    apply Nat.eq_of_testBit_eq
    intro j
    have hlt : f 0 >>> k &&& g 0 < 256 := Nat.lt_of_le_of_lt Nat.and_le_right (by omega)
    rw [testBit_digit hlt, Nat.testBit_and, Nat.testBit_shiftRight, testBit_digit hf0, testBit_digit (by omega), Nat.testBit_and,
      Nat.testBit_shiftRight, Nat.testBit_and, Nat.testBit_shiftRight]
    by_cases hj : j < 8
    · rw [if_pos hj, if_pos hj]
      by_cases hkj : k + j < 8
      · rw [if_pos hkj]
      · have : (g 0).testBit j = false := Nat.testBit_lt_two_pow
          (Nat.lt_of_lt_of_le hg0 (Nat.pow_le_pow_right (n := 2) (by decide) (by omega)))
        rw [this]; simp
    · rw [if_neg hj, if_neg hj, if_neg (by omega), show k + j - 8 = k + (j - 8) by omega]

/-- Shifting right by `k` when no bit crosses a byte boundary. -/
theorem lval_shr {n k : Nat} {f : Nat → Nat} (hd : ∀ i < n, f i % 2 ^ k = 0) :
    lval n f >>> k = lval n (fun i => f i >>> k) := by
  induction n generalizing f with
  | zero => simp [lval]
  | succ n ih =>
    show (f 0 + 256 * _) >>> k = f 0 >>> k + 256 * _
    have h0 := hd 0 (by omega)
    have hp : 0 < 2 ^ k := Nat.pow_pos (by decide)
    have hn : 2 ^ k ∣ lval n (fun i => f (i + 1)) := by
      clear ih h0
      induction n generalizing f with
      | zero => exact Nat.dvd_zero _
      | succ n ih =>
        exact Nat.dvd_add (Nat.dvd_of_mod_eq_zero (hd 1 (by omega)))
          (Nat.dvd_trans (ih (f := fun i => f (i + 1)) (fun i hi => hd (i + 1) (by omega))) (Nat.dvd_mul_left _ _))
    rw [← ih (f := fun i => f (i + 1)) (fun i hi => hd (i + 1) (by omega)), Nat.shiftRight_eq_div_pow, Nat.shiftRight_eq_div_pow,
      Nat.shiftRight_eq_div_pow]
    obtain ⟨q, hq⟩ := hn
    obtain ⟨p, hp'⟩ := Nat.dvd_of_mod_eq_zero h0
    rw [hq, hp', Nat.mul_left_comm, ← Nat.mul_add, Nat.mul_div_cancel_left _ hp, Nat.mul_div_cancel_left _ hp,
      Nat.mul_div_cancel_left _ hp]

/-- `(x + (x >> 4)) & 0x0F…` adds the two nibbles of every byte, if nibble sums stay below 16. -/
theorem lval_nibbles {n : Nat} {f : Nat → Nat} (hlo : ∀ i < n, f i % 16 ≤ 4) (hhi : ∀ i < n, f i / 16 ≤ 4) :
    (lval n f + lval n f >>> 4) &&& lval n (fun _ => 15) = lval n (fun i => f i % 16 + f i / 16) ∧
      (lval n f + lval n f >>> 4 ≤ lval n (fun _ => 136)) := by
  induction n generalizing f with
  | zero => simp [lval]
  | succ n ih =>
    have h1 := hlo 0 (by omega)
    have h2 := hhi 0 (by omega)
    obtain ⟨i1, i2⟩ := ih (f := fun i => f (i + 1)) (fun i hi => hlo (i + 1) (by omega)) (fun i hi => hhi (i + 1) (by omega))
    have h3 : lval n (fun i => f (i + 1)) % 16 ≤ 4 := by
      cases n with
      | zero => simp [lval]
      | succ n =>
        show (f 1 + 256 * _) % 16 ≤ 4
        have := hlo 1 (by omega); omega
    have e : lval (n + 1) f = f 0 + 256 * lval n (fun i => f (i + 1)) := rfl
    have e2 : lval (n + 1) (fun _ => 15) = 15 + 256 * lval n (fun _ => 15) := rfl
    have e3 : lval (n + 1) (fun i => f i % 16 + f i / 16) =
      f 0 % 16 + f 0 / 16 + 256 * lval n (fun i => f (i + 1) % 16 + f (i + 1) / 16) := rfl
    have e4 : lval (n + 1) (fun _ => 136) = 136 + 256 * lval n (fun _ => 136) := rfl
    rw [e, e2, e3, e4]
    generalize lval n (fun i => f (i + 1)) = m at *
    rw [Nat.shiftRight_eq_div_pow] at *
    have hsum : f 0 + 256 * m + (f 0 + 256 * m) / 2 ^ 4 = (f 0 + f 0 / 16 + 16 * (m % 16)) + 256 * (m + m / 2 ^ 4) := by omega
    rw [hsum]
    refine ⟨?_, by omega⟩
    rw [← i1]
    have hlt : f 0 + f 0 / 16 + 16 * (m % 16) < 256 := by omega
    have hm : (f 0 + f 0 / 16 + 16 * (m % 16)) &&& 15 = f 0 % 16 + f 0 / 16 := by
      rw [show (15 : Nat) = 2 ^ 4 - 1 from rfl, Nat.and_two_pow_sub_one_eq_mod]; omega
    rw [← hm]
    apply Nat.eq_of_testBit_eq
    intro j
    have hlt2 : (f 0 + f 0 / 16 + 16 * (m % 16)) &&& 15 < 256 := by rw [hm]; omega
    rw [Nat.testBit_and, testBit_digit hlt, testBit_digit (by decide : 15 < 256), testBit_digit hlt2, Nat.testBit_and, Nat.testBit_and]
    split <;> rfl

/-- Prefix sums. -/
def psum (f : Nat → Nat) : Nat → Nat
  | 0 => f 0
  | i + 1 => psum f i + f (i + 1)

theorem psum_mono (f : Nat → Nat) {i j : Nat} (h : i ≤ j) : psum f i ≤ psum f j := by
  obtain ⟨d, rfl⟩ := Nat.exists_eq_add_of_le h
  induction d with
  | zero => exact Nat.le_refl _
  | succ d ih => exact Nat.le_trans (ih (by omega)) (Nat.le_add_right _ _)

/-- Multiplication by `L8` computes prefix sums. -/
theorem lval_mul_L8 {f : Nat → Nat} (h : psum f 7 < 256) :
    lval 8 f * 0x0101010101010101 % 2 ^ 64 = lval 8 (psum f) := by
  have hlt : lval 8 (psum f) < 2 ^ 64 := lval_lt64 (fun i hi => Nat.lt_of_le_of_lt (psum_mono f (show i ≤ 7 by omega)) h)
  have key : ∀ a0 a1 a2 a3 a4 a5 a6 a7 : Nat, (a0 + 256 * (a1 + 256 * (a2 + 256 * (a3 + 256 * (a4 + 256 * (a5 + 256 * (a6 + 256 * (a7 + 256 * 0)))))))) * 0x0101010101010101 = ((a0) + 256 * ((a0 + a1) + 256 * ((a0 + a1 + a2) + 256 * ((a0 + a1 + a2 + a3) + 256 * ((a0 + a1 + a2 + a3 + a4) + 256 * ((a0 + a1 + a2 + a3 + a4 + a5) + 256 * ((a0 + a1 + a2 + a3 + a4 + a5 + a6) + 256 * ((a0 + a1 + a2 + a3 + a4 + a5 + a6 + a7) + 256 * 0)))))))) + 2 ^ 64 * ((a1 + a2 + a3 + a4 + a5 + a6 + a7) + 256 * ((a2 + a3 + a4 + a5 + a6 + a7) + 256 * ((a3 + a4 + a5 + a6 + a7) + 256 * ((a4 + a5 + a6 + a7) + 256 * ((a5 + a6 + a7) + 256 * ((a6 + a7) + 256 * ((a7) + 256 * 0))))))) := by
    intros; omega
  have := key (f 0) (f 1) (f 2) (f 3) (f 4) (f 5) (f 6) (f 7)
  have e1 : lval 8 f = (f 0 + 256 * (f 1 + 256 * (f 2 + 256 * (f 3 + 256 * (f 4 + 256 * (f 5 + 256 * (f 6 + 256 * (f 7 + 256 * 0)))))))) := rfl
  have e2 : lval 8 (psum f) = ((f 0) + 256 * ((f 0 + f 1) + 256 * ((f 0 + f 1 + f 2) + 256 * ((f 0 + f 1 + f 2 + f 3) + 256 * ((f 0 + f 1 + f 2 + f 3 + f 4) + 256 * ((f 0 + f 1 + f 2 + f 3 + f 4 + f 5) + 256 * ((f 0 + f 1 + f 2 + f 3 + f 4 + f 5 + f 6) + 256 * ((f 0 + f 1 + f 2 + f 3 + f 4 + f 5 + f 6 + f 7) + 256 * 0)))))))) := rfl
  rw [← e1, ← e2] at this
  rw [this, Nat.add_mul_mod_self_left, Nat.mod_eq_of_lt hlt]

theorem lval_top {f : Nat → Nat} (h : ∀ i < 8, f i < 256) : lval 8 f >>> 56 = f 7 := by
  have h1 := lval_digit h (show 7 < 8 by omega)
  have h2 := lval_lt64 h
  rw [Nat.shiftRight_eq_div_pow]
  omega

/-! ### Words -/

/-- `f` are the bytes of `x`. -/
def Lanes (x : BitVec 64) (f : Nat → Nat) : Prop := x.toNat = lval 8 f ∧ ∀ i < 8, f i < 256

theorem lanes_self (x : BitVec 64) : Lanes x (fun i => x.toNat / 256 ^ i % 256) :=
  ⟨by rw [lval_digits, Nat.mod_eq_of_lt x.isLt], fun i _ => Nat.mod_lt _ (by decide)⟩

theorem Lanes.eq {x : BitVec 64} {f : Nat → Nat} (h : Lanes x f) {i : Nat} (hi : i < 8) : x.toNat / 256 ^ i % 256 = f i := by
  rw [h.1, lval_digit h.2 hi]

theorem Lanes.congr {x : BitVec 64} {f g : Nat → Nat} (h : Lanes x f) (he : ∀ i < 8, f i = g i) : Lanes x g :=
  ⟨by rw [h.1, lval_congr he], fun i hi => by rw [← he i hi]; exact h.2 i hi⟩

theorem lanes_const {x : BitVec 64} {k : Nat} (hk : k < 256) (h : x.toNat = k * 0x0101010101010101) : Lanes x (fun _ => k) :=
  ⟨by rw [h, lval_const]; rfl, fun _ _ => hk⟩

theorem Lanes.and {x y : BitVec 64} {f g : Nat → Nat} (hx : Lanes x f) (hy : Lanes y g) : Lanes (x &&& y) (fun i => f i &&& g i) :=
  ⟨by rw [BitVec.toNat_and, hx.1, hy.1, lval_and hx.2 hy.2],
    fun i hi => op_lt256 (· &&& ·) (· && ·) (fun a b j => Nat.testBit_and a b j) rfl (hx.2 i hi) (hy.2 i hi)⟩

theorem Lanes.or {x y : BitVec 64} {f g : Nat → Nat} (hx : Lanes x f) (hy : Lanes y g) : Lanes (x ||| y) (fun i => f i ||| g i) :=
  ⟨by rw [BitVec.toNat_or, hx.1, hy.1, lval_or hx.2 hy.2],
    fun i hi => op_lt256 (· ||| ·) (· || ·) (fun a b j => Nat.testBit_or a b j) rfl (hx.2 i hi) (hy.2 i hi)⟩

theorem Lanes.xor {x y : BitVec 64} {f g : Nat → Nat} (hx : Lanes x f) (hy : Lanes y g) : Lanes (x ^^^ y) (fun i => f i ^^^ g i) :=
  ⟨by rw [BitVec.toNat_xor, hx.1, hy.1, lval_xor hx.2 hy.2],
    fun i hi => op_lt256 (· ^^^ ·) (· ^^ ·) (fun a b j => Nat.testBit_xor a b j) rfl (hx.2 i hi) (hy.2 i hi)⟩

theorem Lanes.not {x : BitVec 64} {f : Nat → Nat} (hx : Lanes x f) : Lanes (~~~ x) (fun i => 255 - f i) := by
  refine ⟨?_, fun i _ => show 255 - f i < 256 by omega⟩
  have h := lval_sub (n := 8) (f := fun _ => 255) (g := f) (fun i hi => by have := hx.2 i hi; omega)
  rw [BitVec.toNat_not, hx.1, ← h]
  rfl

theorem Lanes.sub {c : Cfg} {x y : BitVec 64} {f g : Nat → Nat} (hx : Lanes x f) (hy : Lanes y g) (h : ∀ i < 8, g i ≤ f i) :
    ∃ z, subB c x y = .ok z ∧ Lanes z (fun i => f i - g i) := by
  have hle : y.toNat ≤ x.toNat := by rw [hx.1, hy.1]; exact lval_le h
  refine ⟨x - y, by unfold subB; rw [if_pos hle], ?_, fun i hi => show f i - g i < 256 by have := hx.2 i hi; omega⟩
  rw [BitVec.toNat_sub_of_le (by rw [BitVec.le_def]; exact hle), hx.1, hy.1, lval_sub h]

theorem Lanes.add {c : Cfg} {x y : BitVec 64} {f g : Nat → Nat} (hx : Lanes x f) (hy : Lanes y g) (h : ∀ i < 8, f i + g i < 256) :
    ∃ z, addB c x y = .ok z ∧ Lanes z (fun i => f i + g i) := by
  have hs : x.toNat + y.toNat = lval 8 (fun i => f i + g i) := by rw [hx.1, hy.1, lval_add]
  have hlt := lval_lt64 h
  refine ⟨x + y, by unfold addB; rw [if_pos (by omega)], ?_, h⟩
  rw [BitVec.toNat_add, hs, Nat.mod_eq_of_lt hlt]

theorem Lanes.shr_and {x y : BitVec 64} {f g : Nat → Nat} {k : Nat} (hk : k ≤ 8) (hx : Lanes x f) (hy : Lanes y g)
    (hg : ∀ i < 8, g i < 2 ^ (8 - k)) : Lanes ((x >>> k) &&& y) (fun i => (f i >>> k) &&& g i) :=
  ⟨by rw [BitVec.toNat_and, BitVec.toNat_ushiftRight, hx.1, hy.1, lval_shr_and hk hx.2 hg],
    fun i hi => Nat.lt_of_le_of_lt Nat.and_le_right (hy.2 i hi)⟩

theorem Lanes.shr {x : BitVec 64} {f : Nat → Nat} {k : Nat} (hx : Lanes x f) (hd : ∀ i < 8, f i % 2 ^ k = 0) :
    Lanes (x >>> k) (fun i => f i >>> k) :=
  ⟨by rw [BitVec.toNat_ushiftRight, hx.1, lval_shr hd],
    fun i hi => Nat.lt_of_le_of_lt (Nat.shiftRight_le _ _) (hx.2 i hi)⟩

theorem Lanes.mulL8 {x : BitVec 64} {f : Nat → Nat} (hx : Lanes x f) (h : psum f 7 < 256) : Lanes (x * bwL8) (psum f) :=
  ⟨by rw [BitVec.toNat_mul, hx.1]; exact lval_mul_L8 h, fun i hi => Nat.lt_of_le_of_lt (psum_mono f (show i ≤ 7 by omega)) h⟩

theorem lanes_bcast {y : BitVec 64} (h : y.toNat < 256) : Lanes (y * bwL8) (fun _ => y.toNat) := by
  refine lanes_const h ?_
  rw [BitVec.toNat_mul]
  show y.toNat * 0x0101010101010101 % 2 ^ 64 = _
  exact Nat.mod_eq_of_lt (by omega)

theorem Lanes.top {x : BitVec 64} {f : Nat → Nat} (hx : Lanes x f) : (x >>> 56).toNat = f 7 := by
  rw [BitVec.toNat_ushiftRight, hx.1, lval_top hx.2]

end Succinct
