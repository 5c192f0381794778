import Verif.Props.CodeLengths
import Verif.Props.Derived
import Verif.Props.Reach
/-! Property C160: the order of codewords. -/
namespace Succinct
open Spec

/-- Shorter words come first; words of the same length are compared as numbers, the first bit being the least significant. -/
def Spec.NumBefore (a b : List Bool) : Prop := a.length < b.length ∨ a.length = b.length ∧ bitsVal a < bitsVal b

/-- Shorter words come first; between words of the same length the first differing bit decides. -/
def Spec.WordBefore (a b : List Bool) : Prop :=
  a.length < b.length ∨ a.length = b.length ∧ ∃ p s t, a = p ++ false :: s ∧ b = p ++ true :: t

/-- `Unary`, `Fibonacci`, `Elias` over any code of the crate (so `Gamma` and `Delta`), and `Lift0` over any of these. -/
inductive NumericCode (c : Cfg) : Bool → Code → (Nat → Prop) → (Nat → List Bool) → Prop
  | unary : NumericCode c f (unary c) (· < 2 ^ 64) unaryWord
  | fibonacci : NumericCode c true (fibonacci c) FibDom fibWord
  | elias {H : Code} {D : Nat → Prop} {word : Nat → List Bool} : CodeOf c f H D word → (∀ n, n < 64 → D n) →
      NumericCode c f (elias c H) Pos64 (eliasWord word)
  | lift0 {K : Code} {D : Nat → Prop} {word : Nat → List Bool} : NumericCode c f K D word →
      NumericCode c f (lift0 c K) (fun v => D (v + 1) ∧ v + 1 < 2 ^ 64) (fun v => word (v + 1))

theorem zeck_lt (k : Nat) {u v : Nat} (h : u < v) (hv : v < fib (k + 2)) : bitsVal (zeck k u) < bitsVal (zeck k v) := by
  induction k generalizing u v with
  | zero =>
    have : fib (0 + 2) = 1 := by decide
    omega
  | succ k ih =>
    have hf : fib (k + 3) = fib (k + 1) + fib (k + 2) := rfl
    have hm : fib (k + 1) ≤ fib (k + 2) := fib_mono (by omega)
    have hl := bitsVal_lt (zeck k u)
    have hp : 0 < 2 ^ k := Nat.two_pow_pos k
    rw [zeck_length] at hl
    rw [zeck, zeck]
    have hv' : v < fib (k + 3) := hv
    split
    · rw [if_pos (by omega), bitsVal_append, bitsVal_append, zeck_length, zeck_length]
      have := ih (u := u - fib (k + 2)) (v := v - fib (k + 2)) (by omega) (by omega)
      omega
    · rw [bitsVal_append, zeck_length]
      split
      · rw [bitsVal_append, zeck_length]
        simp only [bitsVal, Bool.toNat_false, Bool.toNat_true]
        omega
      · rw [bitsVal_append, zeck_length]
        have := ih h (by omega)
        omega

theorem log2_low {u : Nat} (h : 1 ≤ u) : u = 2 ^ u.log2 + u % 2 ^ u.log2 := by
  have h1 := Nat.log2_self_le (n := u) (by omega)
  have h2 := Nat.lt_log2_self (n := u)
  rw [Nat.pow_succ] at h2
  have h3 : u / 2 ^ u.log2 = 1 := by
    rw [Nat.div_eq_iff (Nat.two_pow_pos _)]
    omega
  have := Nat.div_add_mod u (2 ^ u.log2)
  rw [h3] at this
  omega

theorem numeric_lt (c : Cfg) (f : Bool) {K : Code} {D : Nat → Prop} {word : Nat → List Bool} (h : NumericCode c f K D word)
    {u v : Nat} (hu : D u) (hv : D v) (huv : u < v) : NumBefore (word u) (word v) := by
  induction h generalizing u v with
  | unary => left; simp only [unaryWord, List.length_append, List.length_replicate]; omega
  | fibonacci =>
    have h1 := fibLen_mono (Nat.le_of_lt huv)
    unfold NumBefore fibWord
    simp only [List.length_append, zeck_length, List.length_singleton]
    rcases Nat.lt_or_ge (fibLen u) (fibLen v) with h2 | h2
    · left; omega
    · right
      have h3 : fibLen u = fibLen v := by omega
      refine ⟨by omega, ?_⟩
      rw [bitsVal_append, bitsVal_append, zeck_length, zeck_length, h3]
      have := zeck_lt (fibLen v) huv (fibLen_spec v).1
      omega
  | @elias f H D word hH hD =>
    have hlt : ∀ {x}, Pos64 x → x.log2 < 64 := fun h => (Nat.log2_lt (by have := h.1; omega)).2 h.2
    have h1 := log2_mono (Nat.le_of_lt huv)
    unfold NumBefore eliasWord
    simp only [List.length_append, natBits_length]
    rcases Nat.lt_or_ge u.log2 v.log2 with h2 | h2
    · have := word_mono c f hH (hD _ (hlt hu)) (hD _ (hlt hv)) h1
      left; omega
    · right
      have h3 : u.log2 = v.log2 := by omega
      have e1 := log2_low hu.1
      have e2 := log2_low hv.1
      rw [h3] at e1 ⊢
      refine ⟨rfl, ?_⟩
      rw [bitsVal_append, bitsVal_append, bitsVal_natBits, bitsVal_natBits]
      exact Nat.add_lt_add_left (Nat.mul_lt_mul_of_pos_left (by omega) (Nat.two_pow_pos _)) _
  | lift0 _ ih => exact ih hu.1 hv.1 (by omega)

theorem NumBefore.asymm {a b : List Bool} (h : NumBefore a b) : ¬ NumBefore b a := by
  unfold NumBefore at *
  omega

/-- An order that respects a total one is the same. -/
theorem order_iff {D : Nat → Prop} {word : Nat → List Bool} {r : List Bool → List Bool → Prop} (hr : ∀ {a b}, r a b → ¬ r b a)
    (h : ∀ {u v}, D u → D v → u < v → r (word u) (word v)) {u v : Nat} (hu : D u) (hv : D v) : u < v ↔ r (word u) (word v) := by
  refine ⟨h hu hv, fun h1 => ?_⟩
  rcases Nat.lt_trichotomy u v with h2 | h2 | h2
  · exact h2
  · subst h2; exact absurd h1 (hr h1)
  · exact absurd (h hv hu h2) (hr h1)

/-- C160: the codewords of `Unary`, `Fibonacci`, `Gamma`, `Delta` and all other `Elias` codes are in the order of the values. -/
theorem C160_numeric (c : Cfg) (f : Bool) {K : Code} {D : Nat → Prop} {word : Nat → List Bool} (h : NumericCode c f K D word)
    {u v : Nat} (hu : D u) (hv : D v) : u < v ↔ NumBefore (word u) (word v) :=
  order_iff (D := D) (word := word) (r := NumBefore) NumBefore.asymm (fun h1 h2 h3 => numeric_lt c f h h1 h2 h3) hu hv

theorem first_diff_asymm {s t s' t' : List Bool} : ∀ {p p' : List Bool}, p ++ false :: s = p' ++ true :: t' →
    p ++ true :: t = p' ++ false :: s' → False
  | [], [], h, _ => by simp at h
  | [], y :: p', h, h' => by simp_all
  | x :: p, [], h, h' => by simp_all
  | x :: p, y :: p', h, h' => by
    simp only [List.cons_append, List.cons.injEq] at h h'
    exact first_diff_asymm h.2 h'.2

theorem WordBefore.asymm {a b : List Bool} (h : WordBefore a b) : ¬ WordBefore b a := by
  rcases h with h | ⟨h, p, s, t, rfl, rfl⟩
  · rintro (h2 | ⟨h2, -⟩) <;> omega
  · rintro (h2 | ⟨-, p', s', t', h3, h4⟩)
    · omega
    · exact first_diff_asymm h4 h3

/-- Of two words of the same length the one that is less as a number with the most significant bit first has the zero at the first
difference. -/
theorem lex_of_lt : ∀ {a b : List Bool}, a.length = b.length → bitsVal a < bitsVal b →
    ∃ p s t, a.reverse = p ++ false :: s ∧ b.reverse = p ++ true :: t
  | [], [], _, h => by simp [bitsVal] at h
  | x :: a, y :: b, hl, h => by
    simp only [List.length_cons, Nat.add_right_cancel_iff] at hl
    simp only [bitsVal] at h
    rcases Nat.lt_trichotomy (bitsVal a) (bitsVal b) with h1 | h1 | h1
    · obtain ⟨p, s, t, e1, e2⟩ := lex_of_lt hl h1
      exact ⟨p, s ++ [x], t ++ [y], by simp [e1], by simp [e2]⟩
    · have e : a = b := by rw [← natBits_bitsVal a, ← natBits_bitsVal b, hl, h1]
      subst e
      refine ⟨a.reverse, [], [], ?_, ?_⟩ <;> cases x <;> cases y <;> simp at h ⊢ <;> omega
    · cases x <;> cases y <;> simp at h <;> omega

theorem omega_lt {u v : Nat} (hu : 1 ≤ u) (huv : u < v) : WordBefore (omegaWord u) (omegaWord v) := by
  have h1 := log2_mono (Nat.le_of_lt huv)
  unfold WordBefore omegaWord
  simp only [List.length_append, List.length_singleton]
  rw [omegaGroups.eq_def v, dif_neg (by omega)]
  rw [omegaGroups.eq_def u]
  split
  · left; simp; omega
  · simp only [List.length_append, List.length_reverse, natBits_length]
    rcases Nat.lt_or_ge u.log2 v.log2 with h2 | h2
    · have := omegaGroups_mono h1
      left; omega
    · right
      have h3 : u.log2 = v.log2 := by omega
      rw [h3]
      refine ⟨rfl, ?_⟩
      have e1 := Nat.lt_log2_self (n := u)
      have e2 := Nat.lt_log2_self (n := v)
      rw [h3] at e1
      obtain ⟨p, s, t, q1, q2⟩ := lex_of_lt (a := natBits (v.log2 + 1) u) (b := natBits (v.log2 + 1) v)
        (by rw [natBits_length, natBits_length]) (by rw [bitsVal_natBits, bitsVal_natBits, Nat.mod_eq_of_lt e1, Nat.mod_eq_of_lt e2]; exact huv)
      exact ⟨omegaGroups v.log2 ++ p, s ++ [false], t ++ [false], by simp [q1], by simp [q2]⟩

/-- C160: so are those of `Omega`, if the first bit is taken for the most significant. -/
theorem C160_omega {u v : Nat} (hu : 1 ≤ u) (hv : 1 ≤ v) : u < v ↔ WordBefore (omegaWord u) (omegaWord v) :=
  order_iff (D := (1 ≤ ·)) (word := omegaWord) (r := WordBefore) WordBefore.asymm (fun h1 _ h => omega_lt h1 h) hu hv

/-- At the first difference `ds` has the smaller number. -/
def Spec.DigitsBefore (ds es : List Nat) : Prop :=
  ∃ p x y s t, ds = p ++ x :: s ∧ es = p ++ y :: t ∧ x < y

theorem digits_lt {b u v : Nat} (hb : 2 ≤ b) (huv : u < v) (hl : (digitsOf b u).length = (digitsOf b v).length) :
    DigitsBefore (digitsOf b u) (digitsOf b v) := by
  induction v using Nat.strongRecOn generalizing u with
  | ind v ih =>
  have hv0 : 0 < v := by omega
  have hu0 : 0 < u := by
    rcases Nat.eq_zero_or_pos u with h | h
    · rw [h, digitsOf_zero, digitsOf_pos hb hv0] at hl
      simp at hl
    · exact h
  rw [digitsOf_pos hb hu0, digitsOf_pos hb hv0] at hl ⊢
  simp only [List.length_append, List.length_singleton, Nat.add_right_cancel_iff] at hl
  have hq : u / b ≤ v / b := Nat.div_le_div_right (Nat.le_of_lt huv)
  have eu := Nat.div_add_mod u b
  have ev := Nat.div_add_mod v b
  rcases Nat.lt_or_ge (u / b) (v / b) with h | h
  · obtain ⟨p, x, y, s, t, e1, e2, h3⟩ := ih (v / b) (Nat.div_lt_self (by omega) (by omega)) h hl
    exact ⟨p, x, y, s ++ [u % b], t ++ [v % b], by simp [e1], by simp [e2], h3⟩
  · have e : u / b = v / b := by omega
    rw [e] at eu ⊢
    exact ⟨digitsOf b (v / b), u % b, v % b, [], [], rfl, rfl, by omega⟩

theorem blockBefore_digits {n : Nat} {ds es : List Nat} (hn : 0 < n) (hl : ds.length = es.length) (hd : ∀ d ∈ es, d < 2 ^ n)
    (h : DigitsBefore ds es) : BlockBefore n (packBits n ds) (packBits n es) := by
  obtain ⟨p, x, y, s, t, rfl, rfl, hxy⟩ := h
  obtain ⟨j, g1, g2, g3⟩ := lt_iff_testBit.1 hxy
  have hy := hd y (by simp)
  have hj : j < n := by
    rcases Nat.lt_or_ge j n with h | h
    · exact h
    · rw [Nat.testBit_lt_two_pow (Nat.lt_of_lt_of_le hy (Nat.pow_le_pow_right (by omega) h))] at g2; cases g2
  have hlp : (packBits n p).length = p.length * n := length_packBits n p
  have hat : ∀ (z : Nat) (r : List Nat) (i : Nat), i < n → (packBits n (p ++ z :: r))[p.length * n + i]? = some (z.testBit i) := by
    intro z r i hi
    rw [packBits_append, packBits_cons, List.getElem?_append_right (by omega), hlp, Nat.add_sub_cancel_left,
      List.getElem?_append_left (by rw [natBits_length]; exact hi), getElem?_natBits, if_pos hi]
  refine ⟨p.length * n + j, by rw [hat x s j hj, g1], by rw [hat y t j hj, g2], fun q hq => ?_, fun q hq hqn => ?_⟩
  · rw [mul_add_div' hj] at hq
    have : q < p.length * n := (Nat.div_lt_iff_lt_mul hn).1 hq
    rw [packBits_append, packBits_append, List.getElem?_append_left (by omega), List.getElem?_append_left (by omega)]
  · rw [mul_add_div' hj] at hqn
    obtain ⟨q', r, hr, he, hq', hr'⟩ := divmod_cases n q hn
    obtain rfl : q' = p.length := by omega
    rw [he, hat x s r hr, hat y t r hr, g3 r (by omega)]

theorem comma_lt {n : Nat} (h2 : 2 ≤ n) {u v : Nat} (huv : u < v) :
    (commaWord n u).length < (commaWord n v).length ∨
      (commaWord n u).length = (commaWord n v).length ∧ BlockBefore n (commaWord n u) (commaWord n v) := by
  have hb : 2 ≤ 2 ^ n - 1 := by
    have : 2 ^ 2 ≤ 2 ^ n := Nat.pow_le_pow_right (by omega) h2
    omega
  have hw : ∀ x, commaWord n x = packBits n (digitsOf (2 ^ n - 1) x ++ [2 ^ n - 1]) := fun x => by
    rw [packBits_append, packBits_cons]
    simp [commaWord, packBits]
  have hm := digitsOf_mono hb (Nat.le_of_lt huv)
  rw [hw, hw, length_packBits, length_packBits]
  simp only [List.length_append, List.length_singleton]
  rcases Nat.lt_or_ge (digitsOf (2 ^ n - 1) u).length (digitsOf (2 ^ n - 1) v).length with h | h
  · exact .inl (Nat.mul_lt_mul_of_pos_right (by omega) (by omega))
  · have hl : (digitsOf (2 ^ n - 1) u).length = (digitsOf (2 ^ n - 1) v).length := by omega
    refine .inr ⟨by rw [hl], blockBefore_digits (by omega) (by simp [hl]) (fun d hd => ?_) ?_⟩
    · rcases List.mem_append.1 hd with hd | hd
      · have := digitsOf_lt hb v d hd; omega
      · have : d = 2 ^ n - 1 := by simpa using hd
        omega
    · obtain ⟨p, x, y, s, t, e1, e2, h3⟩ := digits_lt hb huv hl
      exact ⟨p, x, y, s ++ [2 ^ n - 1], t ++ [2 ^ n - 1], by simp [e1], by simp [e2], h3⟩

theorem blockBefore_asymm {n : Nat} {a b : List Bool} (h : BlockBefore n a b) : ¬ BlockBefore n b a := by
  obtain ⟨p, a1, b1, c1, d1⟩ := h
  rintro ⟨q, b2, a2, c2, d2⟩
  have hp : a[p]? ≠ b[p]? := by rw [a1, b1]; simp
  have hq : a[q]? ≠ b[q]? := by rw [a2, b2]; simp
  rcases Nat.lt_trichotomy (p / n) (q / n) with h1 | h1 | h1
  · exact hp (c2 p h1).symm
  · rcases Nat.lt_trichotomy p q with h2 | h2 | h2
    · exact hq (d1 q h2 h1.symm)
    · subst h2
      rw [a1] at a2
      simp at a2
    · exact hp (d2 p h2 h1).symm
  · exact hq (c1 q h1)

/-- C160: the words of `Comma(n)` are in the order of the values if they are read in blocks of `n` bits. -/
theorem C160_comma {n : Nat} (h2 : 2 ≤ n) {u v : Nat} : u < v ↔ (commaWord n u).length < (commaWord n v).length ∨
    (commaWord n u).length = (commaWord n v).length ∧ BlockBefore n (commaWord n u) (commaWord n v) :=
  order_iff (D := fun _ => True) (word := commaWord n)
    (r := fun a b => a.length < b.length ∨ a.length = b.length ∧ BlockBefore n a b)
    (fun {a b} h => by
      rcases h with h | ⟨h, h'⟩
      · rintro (h3 | ⟨h3, -⟩) <;> omega
      · rintro (h3 | ⟨-, h3⟩)
        · omega
        · exact blockBefore_asymm h' h3) (fun _ _ h => comma_lt h2 h) trivial trivial

theorem blockBefore_num {w : Nat} {a b : List Bool} (hl : a.length = b.length) (hw : a.length ≤ w) (h : bitsVal a < bitsVal b) :
    BlockBefore w a b := by
  rcases Nat.eq_zero_or_pos a.length with h0 | h0
  · have h1 : a = [] := List.eq_nil_of_length_eq_zero h0
    have h2 : b = [] := List.eq_nil_of_length_eq_zero (by omega)
    subst h1 h2
    simp at h
  · refine BlockBefore.small (w := a.length) hl (Nat.le_refl _) hw ?_
    have := blockBefore_digits (n := a.length) (ds := [bitsVal a]) (es := [bitsVal b]) h0 rfl
      (by simpa [hl] using bitsVal_lt b) ⟨[], _, _, [], [], rfl, rfl, h⟩
    rw [packBits_cons, packBits_cons, natBits_bitsVal, hl, natBits_bitsVal] at this
    simpa [packBits, hl] using this

theorem cmp_eq_compare (c : Cfg) (h : IsBlk w) {D : Nat → Prop} {word : Nat → List Bool}
    (ho : ∀ {u v}, D u → D v → u < v → (word u).length < (word v).length ∨
      (word u).length = (word v).length ∧ BlockBefore w (word u) (word v))
    {u v : Nat} (hu : D u) (hv : D v) {s t : VB w} (hs : BvReach c w s (word u)) (ht : BvReach c w t (word v)) :
    VB.cmp s t = compare u v := by
  rcases Nat.lt_trichotomy u v with h1 | h1 | h1
  · rw [Nat.compare_eq_lt.2 h1]
    exact (C87_exact c h hs ht).2 (ho hu hv h1)
  · subst h1
    rw [Nat.compare_eq_eq.2 rfl]
    exact ((C73_bit_vector_order c h hs ht).1).2 rfl
  · rw [Nat.compare_eq_gt.2 h1, (C73_bit_vector_order c h ht hs).2.1, (C87_exact c h ht hs).2 (ho hv hu h1)]
    rfl

/-- Two values encoded into bit vectors of their own, and these compared. -/
def encodedCmp (c : Cfg) (w : Nat) (K : Code) (u v : Nat) : Res Ordering := do
  let (_, s) ← K.encode (BitBuf.write c (bvBitVecPush c w)) u (.from_ VB.new)
  let (_, t) ← K.encode (BitBuf.write c (bvBitVecPush c w)) v (.from_ VB.new)
  .ok (VB.cmp s.inner t.inner)

theorem encodedCmp_ok (c : Cfg) (f : Bool) {K : Code} {D : Nat → Prop} {word : Nat → List Bool} (hk : CodeOf c f K D word)
    (h : IsBlk w) {u v : Nat} (hu : D u) (hv : D v) (fu : Fits c.usz w (word u).length) (fv : Fits c.usz w (word v).length) :
    ∃ s t, BvReach c w s (word u) ∧ BvReach c w t (word v) ∧ encodedCmp c w K u v = .ok (VB.cmp s t) := by
  have h0 : bufR (bvR c w) (.from_ (VB.new : VB w)) ⟨[], 0⟩ := ⟨VR.nil c h 1, rfl, Nat.le_refl _⟩
  have hm : ∀ {m n}, Fits c.usz w n → m ≤ n → Fits c.usz w m := fun h1 h2 => h1.mono h2
  obtain ⟨s, e1, r1⟩ := (buf_sink (bv_pushVec c h)).writeAll hm (word u) h0 (by simpa using fu)
  obtain ⟨t, e2, r2⟩ := (buf_sink (bv_pushVec c h)).writeAll hm (word v) h0 (by simpa using fv)
  refine ⟨s.inner, t.inner, bvR.reach h (show bvR c w s.data _ by simpa using r1.1),
    bvR.reach h (show bvR c w t.data _ by simpa using r2.1), ?_⟩
  have hi := C62_all c f hk
  unfold encodedCmp
  rw [hi.encodes u hu, hi.encodes v hv, e1, Res.ok_bind]
  dsimp only
  rw [e2, Res.ok_bind]

theorem NumericCode.code {c : Cfg} {f : Bool} {K : Code} {D : Nat → Prop} {word : Nat → List Bool} (h : NumericCode c f K D word) :
    CodeOf c f K D word := by
  induction h with
  | unary => exact .unary
  | fibonacci => exact .fibonacci
  | elias h1 h2 => exact .elias h1 h2
  | lift0 _ ih => exact .lift0 ih

theorem fits_few (c : Cfg) (h : IsBlk w) {n : Nat} (hn : n ≤ w * 65) : Fits c.usz w n := by
  have hw : 0 < w ∧ w ≤ 65536 := ⟨h.pos, h.le⟩
  have hb : blocksFor w n ≤ 65 := by
    apply Nat.le_of_not_lt
    rw [lt_blocksFor hw.1, Nat.mul_comm]
    omega
  have h1 := Nat.mul_le_mul hb hw.2
  have h2 : (2 : Nat) ^ 32 ≤ 2 ^ c.usz := Nat.pow_le_pow_right (by decide) (by rcases c.usz_cases with h | h <;> omega)
  exact ⟨by omega, by omega⟩

theorem digits_few {b : Nat} (hb : 2 ≤ b) (k : Nat) {v : Nat} (hv : v < 2 ^ k) : (digitsOf b v).length ≤ k := by
  induction k generalizing v with
  | zero =>
    have : v = 0 := by simpa using hv
    rw [this, digitsOf_zero]; exact Nat.le_refl _
  | succ k ih =>
    rcases Nat.eq_zero_or_pos v with h | h
    · rw [h, digitsOf_zero]; exact Nat.zero_le _
    · rw [digitsOf_pos hb h, List.length_append, List.length_singleton]
      refine Nat.succ_le_succ (ih ?_)
      refine Nat.lt_of_le_of_lt (Nat.div_le_div_left hb (by omega)) ?_
      rw [Nat.pow_succ] at hv
      omega

theorem comma_few {n v : Nat} (h2 : 2 ≤ n) (hv : v < 2 ^ 64) : (commaWord n v).length ≤ n * 65 := by
  have hb : 2 ≤ 2 ^ n - 1 := by
    have : 2 ^ 2 ≤ 2 ^ n := Nat.pow_le_pow_right (by omega) h2
    omega
  have h1 := digits_few hb 64 hv
  have hw : commaWord n v = packBits n (digitsOf (2 ^ n - 1) v ++ [2 ^ n - 1]) := by
    rw [packBits_append, packBits_cons]
    simp [commaWord, packBits]
  rw [hw, length_packBits, List.length_append, List.length_singleton, Nat.mul_comm]
  exact Nat.mul_le_mul_left n (by omega)

/-- C160: bit vectors that hold one codeword each, of at most a block, compare as the values do. -/
theorem C160_vectors (c : Cfg) (f : Bool) {K : Code} {D : Nat → Prop} {word : Nat → List Bool} (hk : NumericCode c f K D word)
    (h : IsBlk w) {u v : Nat} (hu : D u) (hv : D v) (lu : (word u).length ≤ w) (lv : (word v).length ≤ w) :
    encodedCmp c w K u v = .ok (compare u v) := by
  obtain ⟨s, t, hs, ht, e⟩ := encodedCmp_ok c f hk.code h hu hv (fits_few c h (by omega)) (fits_few c h (by omega))
  rw [e, cmp_eq_compare (D := fun x => D x ∧ (word x).length ≤ w) c h
    (fun h1 h2 h3 => (numeric_lt c f hk h1.1 h2.1 h3).imp id fun h => ⟨h.1, blockBefore_num h.1 h1.2 h.2⟩) ⟨hu, lu⟩ ⟨hv, lv⟩ hs ht]

/-- C160: and those that hold a word of `Comma(n)` in blocks of `n` bits, whatever its length. -/
theorem C160_comma_vectors (c : Cfg) (h : IsBlk w) (hw : w < 64) {u v : Nat} (hu : u < 2 ^ 64) (hv : v < 2 ^ 64) :
    encodedCmp c w (comma c w) u v = .ok (compare u v) := by
  have h2 : 2 ≤ w := by have := h.ge; omega
  obtain ⟨s, t, hs, ht, e⟩ := encodedCmp_ok c false (.comma h2 (by omega)) h hu hv (fits_few c h (comma_few h2 hu)) (fits_few c h (comma_few h2 hv))
  rw [e, cmp_eq_compare (D := fun _ => True) c h (fun _ _ h3 => comma_lt h2 h3) trivial trivial hs ht]

theorem blockBefore_at {a b : List Bool} (p : Nat) (hl : a.length = b.length) (h1 : a[p]? = some false) (h2 : b[p]? = some true)
    (h3 : ∀ q < a.length, q / w < p / w → a[q]? = b[q]?) (h4 : ∀ q < a.length, p < q → q / w = p / w → a[q]? = b[q]?) :
    BlockBefore w a b := by
  have hn : ∀ q, ¬ q < a.length → a[q]? = b[q]? := fun q hq => by
    rw [List.getElem?_eq_none (by omega), List.getElem?_eq_none (by omega)]
  refine ⟨p, h1, h2, fun q hq => ?_, fun q hq hq' => ?_⟩ <;> by_cases hql : q < a.length
  · exact h3 q hql hq
  · exact hn q hql
  · exact h4 q hql hq hq'
  · exact hn q hql

/-- C160: longer words of `Gamma`, words of `Omega`, and words of `Comma(n)` in blocks of another size, do not: here the smaller value
has the greater vector. -/
theorem C160_counterexamples (c : Cfg) : encodedCmp c 8 (gamma c) 17 24 = .ok .gt ∧ encodedCmp c 8 (omegaCode c) 5 6 = .ok .gt ∧
    encodedCmp c 64 (comma c 2) 5 6 = .ok .gt := by
  have key : ∀ {w : Nat} {K : Code} {D : Nat → Prop} {word : Nat → List Bool} {u v : Nat}, IsBlk w → CodeOf c false K D word → D u → D v →
      (word u).length ≤ w + w → (word v).length = (word u).length → BlockBefore w (word v) (word u) → encodedCmp c w K u v = .ok .gt := by
    intro w K D word u v h hk hu hv hl1 hl hb
    obtain ⟨s, t, hs, ht, e⟩ := encodedCmp_ok c false hk h hu hv (fits_few c h (by omega)) (fits_few c h (by omega))
    rw [e, (C73_bit_vector_order c h ht hs).2.1, (C87_exact c h ht hs).2 (.inr ⟨hl, hb⟩)]
    rfl
  refine ⟨key isBlk8 (C62_gamma_delta c false).1 ⟨by decide, by decide⟩ ⟨by decide, by decide⟩ (by decide) (by decide)
      (blockBefore_at 5 (by decide) (by decide) (by decide) (by decide) (by decide)),
    key isBlk8 .omega ⟨by decide, by decide⟩ ⟨by decide, by decide⟩ (by decide +kernel) (by decide +kernel)
      (blockBefore_at 4 (by decide +kernel) (by decide +kernel) (by decide +kernel) (by decide +kernel) (by decide +kernel)),
    key isBlk64 (.comma (by decide) (by decide)) (by decide) (by decide) (by decide +kernel) (by decide +kernel)
      (blockBefore_at 3 (by decide +kernel) (by decide +kernel) (by decide +kernel) (by decide +kernel) (by decide +kernel))⟩

end Succinct
