import Verif.Props.Parentheses
/-! Property C170: sequences of numbers of different sizes in pieces of `b` bits, with access to each number at once (directly
addressable codes). The programs here are not in the crate; they call its `IntVector`, `BitVector` and `Rank9`. -/
namespace Succinct
open Spec

/-- How many pieces of `b` bits a number takes, at least one. -/
def Spec.pieces (b n : Nat) : Nat := n.log2 / b + 1

section
variable (c : Cfg) (b : Nat)

/-- One level: the lowest piece of each number, whether there is more of it, and what there is:
`for x in xs { v.push(x & u64::low_mask(b)); let y = x >> b; m.push_bit(y != 0); if y != 0 { rest.push(y) } }` -/
def dacFill : List (BitVec 64) → IV 64 → VB 64 → List (BitVec 64) → Res (IV 64 × VB 64 × List (BitVec 64))
  | [], v, m, rest => .ok (v, m, rest)
  | x :: xs, v, m, rest => do
    let mask ← lowMask c 64 b
    let v ← v.push c (x &&& mask)
    let y ← shrB c x b
    let m ← (bvBitVecPush c 64).pushBit m (y != 0)
    dacFill xs v m (if y != 0 then rest ++ [y] else rest)

/-- `while !xs.is_empty() { fill(xs, &mut v, &mut m, &mut rest); levels.push((v, Rank9::new(m))); xs = rest }` -/
def dacNew (xs : List (BitVec 64)) : Res (List (IV 64 × Rank9 (VB 64))) :=
  if xs.isEmpty then .ok [] else do
    let v ← IV.new 64 b
    let (v, m, rest) ← dacFill c b xs v VB.new []
    let r ← Rank9.new c (bvBitVec c 64) m
    let ls ← dacNew rest
    .ok ((v, r) :: ls)
partial_fixpoint

/-- `let x = v.get(i); if m.get_bit(i) { (get(levels, rank before i) << b) | x } else { x }` -/
def dacGet : List (IV 64 × Rank9 (VB 64)) → Nat → Res (BitVec 64)
  | [], _ => .panic
  | (v, r) :: ls, i => do
    let x ← v.get c i
    let more ← (bvBitVec c 64).getBit r.inner i
    if more then do
      let j ← rankBefore c (Rank9.ops c (bvBitVec c 64)) r i true
      let y ← dacGet ls j
      let y ← shlB c y b
      .ok (y ||| x)
    else .ok x
end

/-- What is left of the numbers after taking the lowest piece of each. -/
def dacRest (b : Nat) (xs : List (BitVec 64)) : List (BitVec 64) := (xs.filter fun x => decide (2 ^ b ≤ x.toNat)).map fun (x : BitVec 64) => x >>> b

theorem pieces_more {b n : Nat} (hb : 1 ≤ b) (h : 2 ^ b ≤ n) : pieces b n = pieces b (n / 2 ^ b) + 1 := by
  have hn : n ≠ 0 := by have := Nat.two_pow_pos b; omega
  have hq : n / 2 ^ b ≠ 0 := by
    have := Nat.div_pos h (Nat.two_pow_pos b)
    omega
  have h1 : b ≤ n.log2 := (Nat.le_log2 hn).2 h
  have h2 : (n / 2 ^ b).log2 = n.log2 - b := by
    rw [Nat.log2_eq_iff hq]
    constructor
    · rw [Nat.le_div_iff_mul_le (Nat.two_pow_pos b), ← Nat.pow_add, Nat.sub_add_cancel h1]
      exact Nat.log2_self_le hn
    · rw [Nat.div_lt_iff_lt_mul (Nat.two_pow_pos b), ← Nat.pow_add, show n.log2 - b + 1 + b = n.log2 + 1 by omega]
      exact (Nat.log2_lt hn).1 (Nat.lt_succ_self _)
  rw [pieces, pieces, h2, ← Nat.div_eq_sub_div hb h1]

theorem pieces_one {b n : Nat} (h : n < 2 ^ b) : pieces b n = 1 := by
  rw [pieces]
  by_cases h0 : n = 0
  · subst h0; simp
  · rw [Nat.div_eq_of_lt ((Nat.log2_lt h0).2 h)]

theorem pieces_rest {b : Nat} (hb : 1 ≤ b) (xs : List (BitVec 64)) :
    (xs.map fun x => pieces b x.toNat).sum = xs.length + ((dacRest b xs).map fun x => pieces b x.toNat).sum := by
  induction xs with
  | nil => rfl
  | cons x xs ih =>
    rw [dacRest] at ih ⊢
    rw [List.map_cons, List.sum_cons, ih, List.length_cons]
    by_cases h : 2 ^ b ≤ x.toNat
    · rw [List.filter_cons_of_pos (by simpa using h), List.map_cons, List.map_cons, List.sum_cons, pieces_more hb h, BitVec.toNat_ushiftRight,
        Nat.shiftRight_eq_div_pow]
      omega
    · rw [List.filter_cons_of_neg (by simpa using h), pieces_one (by omega)]
      omega

theorem dacRest_length (b : Nat) (xs : List (BitVec 64)) : (dacRest b xs).length ≤ xs.length := by
  rw [dacRest, List.length_map]
  exact List.length_filter_le _ _

theorem shiftRight_ne_zero {b : Nat} {x : BitVec 64} : (x >>> b != 0) = decide (2 ^ b ≤ x.toNat) := by
  have h : x >>> b = 0 ↔ x.toNat / 2 ^ b = 0 := by
    rw [← BitVec.toNat_inj, BitVec.toNat_ushiftRight, Nat.shiftRight_eq_div_pow]
    simp
  have h' : x.toNat / 2 ^ b = 0 ↔ x.toNat < 2 ^ b := Nat.div_eq_zero_iff_lt (Nat.two_pow_pos b)
  rw [Bool.eq_iff_iff, bne_iff_ne, Ne, h, h']
  simp

section
variable {c : Cfg} {b : Nat}

theorem dacFill_ok (hb : b < 64) {xs : List (BitVec 64)} {v : IV 64} {m : VB 64} {rest : List (BitVec 64)} {ys : List Nat} {bits : List Bool}
    (hv : IR c 64 b v ys) (hm : bvR c 64 m bits) (hl : bits.length = ys.length) (hf : Fits c.usz 64 ((ys.length + xs.length) * b))
    (hg : Fits c.usz 64 (ys.length + xs.length)) :
    ∃ v' m', dacFill c b xs v m rest = .ok (v', m', rest ++ dacRest b xs) ∧ IR c 64 b v' (ys ++ xs.map fun x => x.toNat % 2 ^ b) ∧
      bvR c 64 m' (bits ++ xs.map fun x => decide (2 ^ b ≤ x.toNat)) := by
  induction xs generalizing v m rest ys bits with
  | nil => exact ⟨v, m, by simp [dacFill, dacRest], by simpa using hv, by simpa using hm⟩
  | cons x xs ih =>
    rw [List.length_cons] at hf hg
    have hx : (x &&& maskB 64 b).toNat = x.toNat % 2 ^ b := by
      rw [BitVec.toNat_and, maskB_toNat (by omega), Nat.and_two_pow_sub_one_eq_mod]
    have hp : ys.length * b + b ≤ (ys.length + (xs.length + 1)) * b := by
      rw [← Nat.succ_mul]
      exact Nat.mul_le_mul_right _ (by omega)
    obtain ⟨v1, e1, r1⟩ := hv.push_ok isBlk64 (x &&& maskB 64 b) (hf.mono hp) (by rw [hx]; exact Nat.mod_lt _ (Nat.two_pow_pos b))
    obtain ⟨m1, e2, r2⟩ := bv_pushBit c isBlk64 hm (x >>> b != 0) (hg.mono (by omega))
    obtain ⟨v2, m2, e3, r3, r4⟩ := ih (rest := if x >>> b != 0 then rest ++ [x >>> b] else rest) r1 r2 (by simp [hl])
      (by rw [List.length_append, List.length_singleton, Nat.add_assoc, Nat.add_comm 1]; exact hf)
      (by rw [List.length_append, List.length_singleton, Nat.add_assoc, Nat.add_comm 1]; exact hg)
    rw [shiftRight_ne_zero] at r4
    refine ⟨v2, m2, ?_, by simpa [hx] using r3, by simpa using r4⟩
    rw [dacFill, lowMask_ok c isBlk64 (by omega), Res.ok_bind, e1, Res.ok_bind, shrB_ok hb, Res.ok_bind, e2, Res.ok_bind, e3, shiftRight_ne_zero]
    by_cases h : 2 ^ b ≤ x.toNat
    · simp [dacRest, List.filter_cons_of_pos, h]
    · simp [dacRest, List.filter_cons_of_neg, h]

/-- The levels hold the numbers. -/
def DacRep (c : Cfg) (b : Nat) : List (IV 64 × Rank9 (VB 64)) → List (BitVec 64) → Prop
  | [], xs => xs = []
  | (v, r) :: ls, xs => IR c 64 b v (xs.map fun x => x.toNat % 2 ^ b) ∧ HoldsBits c r (xs.map fun x => decide (2 ^ b ≤ x.toNat)) ∧
    DacRep c b ls (dacRest b xs)

theorem dacNew_ok (hb : 1 ≤ b) (hb' : b < 64) {xs : List (BitVec 64)} (hf : Fits c.usz 64 (xs.length * b))
    (hu : blocksFor 64 xs.length + 8 < 2 ^ c.usz) : ∃ ls, dacNew c b xs = .ok ls ∧ DacRep c b ls xs := by
  generalize hn : (xs.map fun x => pieces b x.toNat).sum = n
  induction n using Nat.strongRecOn generalizing xs with
  | ind n ih =>
    rw [dacNew]
    by_cases h0 : xs = []
    · subst h0
      exact ⟨[], rfl, rfl⟩
    · have hpos : 0 < xs.length := List.length_pos_iff.2 h0
      rw [if_neg (by simpa using h0)]
      obtain ⟨v, e1, r1⟩ := ivInit_ok c isBlk64 hb (by omega : b ≤ 64) (.new : IvInit 64) trivial
      have e1 : IV.new 64 b = .ok v := e1
      have r1 : IR c 64 b v [] := r1
      have hle : xs.length ≤ xs.length * b := Nat.le_mul_of_pos_right _ hb
      obtain ⟨v', m', e2, r2, r3⟩ := dacFill_ok (rest := []) hb' r1 (VR.nil c isBlk64 1) rfl (xs := xs) (by simpa using hf)
        (by simpa using hf.mono hle)
      rw [List.nil_append] at e2 r2 r3
      obtain ⟨r, e3, e4, hr⟩ := C39_rank9 (bv_law c isBlk64) (bv_block c isBlk64).toBVBlockRead r3 (by rw [List.length_map]; exact hu)
      have hrest := dacRest_length b xs
      have hsum := pieces_rest hb xs
      obtain ⟨ls, e5, hls⟩ := ih _ (by rw [← hn, hsum]; exact Nat.lt_add_of_pos_left hpos) (xs := dacRest b xs)
        (hf.mono (Nat.mul_le_mul_right _ hrest))
        (by
          have : blocksFor 64 (dacRest b xs).length ≤ blocksFor 64 xs.length := Nat.div_le_div_right (by omega)
          omega) rfl
      refine ⟨(v', r) :: ls, ?_, r2, ⟨by rw [e4]; exact r3, hr⟩, hls⟩
      rw [e1, Res.ok_bind]
      show (dacFill c b xs v VB.new []).bind _ = _
      rw [show dacFill c b xs v VB.new [] = _ from e2]
      show (Rank9.new c (bvBitVec c 64) m').bind _ = _
      rw [e3]
      show (dacNew c b (dacRest b xs)).bind _ = _
      rw [e5]
      rfl

theorem dacGet_ok (hb : b < 64) {ls : List (IV 64 × Rank9 (VB 64))} {as cs : List (BitVec 64)} {x : BitVec 64}
    (h : DacRep c b ls (as ++ x :: cs)) : dacGet c b ls as.length = .ok x := by
  induction ls generalizing as cs x with
  | nil => simp [DacRep] at h
  | cons l ls ih =>
    obtain ⟨v, r⟩ := l
    obtain ⟨h1, h2, h3⟩ := h
    obtain ⟨y, e1, e2⟩ := h1.get_ok isBlk64 (i := as.length) (by simp)
    simp only [List.map_append, List.map_cons] at h2 e2
    have e3 : y.toNat = x.toNat % 2 ^ b := by rw [e2]; simp
    have e4 := h2.getBit
    rw [List.length_map] at e4
    rw [dacGet, e1, Res.ok_bind, e4, Res.ok_bind]
    by_cases hx : 2 ^ b ≤ x.toNat
    · have e5 := rankBefore_ok c h2.rank (p := (as.map fun x => decide (2 ^ b ≤ x.toNat)).length) (by simp) true
      rw [occ, List.take_left, List.length_map] at e5
      have e6 : dacRest b (as ++ x :: cs) = dacRest b as ++ (x >>> b) :: dacRest b cs := by
        simp [dacRest, List.filter_cons_of_pos, hx]
      rw [e6] at h3
      have e7 := ih h3
      have e8 : (as.map fun x => decide (2 ^ b ≤ x.toNat)).count true = (dacRest b as).length := by
        rw [dacRest, List.length_map, ← List.countP_eq_length_filter, List.count, List.countP_map]
        congr 1
        funext a
        simp
      rw [e8] at e5
      rw [if_pos (by simpa using hx), e5, Res.ok_bind, e7, Res.ok_bind, shlB_ok hb, Res.ok_bind]
      congr 1
      apply BitVec.eq_of_getLsbD_eq
      intro i hi
      have hy : y.getLsbD i = (decide (i < b) && x.getLsbD i) := by
        rw [BitVec.getLsbD, e3, Nat.testBit_mod_two_pow, BitVec.getLsbD]
      rw [BitVec.getLsbD_or, BitVec.getLsbD_shiftLeft, BitVec.getLsbD_ushiftRight, hy]
      by_cases hib : i < b
      · simp [hib]
      · simp [hib, hi, show b + (i - b) = i by omega]
    · rw [if_neg (by simpa using hx)]
      congr 1
      apply BitVec.eq_of_toNat_eq
      rw [e3, Nat.mod_eq_of_lt (by omega)]

theorem DacRep.space (hb : 1 ≤ b) {ls : List (IV 64 × Rank9 (VB 64))} {xs : List (BitVec 64)} (h : DacRep c b ls xs) :
    (ls.map fun l => l.1.len).sum = (xs.map fun x => pieces b x.toNat).sum ∧
      ∀ l ∈ ls, l.1.elementBits = b ∧ (bvBitVec c 64).bitLen l.2.inner = .ok l.1.len := by
  induction ls generalizing xs with
  | nil =>
    have h : xs = [] := h
    subst h
    exact ⟨rfl, by simp⟩
  | cons l ls ih =>
    obtain ⟨v, r⟩ := l
    obtain ⟨h1, h2, h3⟩ := h
    obtain ⟨i1, i2⟩ := ih h3
    have e : v.len = xs.length := by rw [IV.len, h1.len, List.length_map]
    refine ⟨by rw [List.map_cons, List.sum_cons, i1, pieces_rest hb xs, e], fun l hl => ?_⟩
    rcases List.mem_cons.1 hl with rfl | hl
    · exact ⟨h1.eb, by rw [bv_bitLen c h2.inner, List.length_map, e]⟩
    · exact i2 l hl
end

/-- C170: numbers below `2^64` are kept in levels, each an `IntVector` of pieces of `b` bits and a bit for each piece that says whether
there is more of its number in the next level. Every number is read back at its place, past the end the program panics, and each
number takes only as many pieces of `b + 1` bits as it needs. -/
theorem C170_variable_width (c : Cfg) {b : Nat} (hb : 1 ≤ b) (hb' : b < 64) (xs : List (BitVec 64)) (hf : Fits c.usz 64 (xs.length * b))
    (hu : blocksFor 64 xs.length + 8 < 2 ^ c.usz) :
    ∃ ls, dacNew c b xs = .ok ls ∧ (∀ (i : Nat) (h : i < xs.length), dacGet c b ls i = .ok xs[i]) ∧
      (∀ i, xs.length ≤ i → dacGet c b ls i = .panic) ∧
      (ls.map fun l => l.1.len).sum = (xs.map fun x => pieces b x.toNat).sum ∧
      ∀ l ∈ ls, l.1.elementBits = b ∧ (bvBitVec c 64).bitLen l.2.inner = .ok l.1.len := by
  obtain ⟨ls, h1, h2⟩ := dacNew_ok hb hb' hf hu
  obtain ⟨h3, h4⟩ := h2.space hb
  refine ⟨ls, h1, fun i h => ?_, fun i h => ?_, h3, h4⟩
  · have e : xs = xs.take i ++ xs[i] :: xs.drop (i + 1) := by rw [List.getElem_cons_drop, List.take_append_drop]
    have := dacGet_ok hb' (as := xs.take i) (cs := xs.drop (i + 1)) (x := xs[i]) (by rw [← e]; exact h2)
    rwa [List.length_take, Nat.min_eq_left (by omega)] at this
  · cases ls with
    | nil => rfl
    | cons l ls =>
      obtain ⟨v, r⟩ := l
      rw [dacGet, h2.1.get_panic isBlk64 (by simpa using h) (by omega)]
      rfl

end Succinct
