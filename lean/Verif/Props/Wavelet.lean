import Verif.Props.Reach
import Verif.Props.Neighbours
/-! Property C159: sequences of numbers below `2^k` as `k` bit vectors under rank (a wavelet matrix). The programs here are not in the
crate; they call its `get_bit`, `push_bit` and `rank`. -/
namespace Succinct
open Spec

/-- One bit of every number, and how many of them are zero. -/
structure WaveLevel where
  bits : Rank9 (VB 64)
  zeros : Nat

section
variable (c : Cfg)

/-- `for x in xs { v.push_bit(x.get_bit(l)) }` -/
def pushLevel (l : Nat) : List (BitVec 64) → VB 64 → Res (VB 64)
  | [], v => .ok v
  | x :: xs, v => do
    let b ← blkGetBit c x l
    let v ← VB.pushBit c v b
    pushLevel l xs v

/-- From the highest bit to the lowest: the bits under `Rank9`, then the numbers with a zero there, in order, and after them those
with a one. -/
def levels : Nat → List (BitVec 64) → Res (List WaveLevel)
  | 0, _ => .ok []
  | l + 1, xs => do
    let v ← pushLevel c l xs VB.new
    let r ← Rank9.new c (bvBitVec c 64) v
    let (os, zs) := xs.partition fun x => x.getLsbD l
    let rest ← levels l (zs ++ os)
    .ok (⟨r, zs.length⟩ :: rest)

/-- Where the `b`s among the first `i` end on the next level. -/
def WaveLevel.down (t : WaveLevel) (b : Bool) (i : Nat) : Res Nat := do
  let n ← rankBefore c (Rank9.ops c (bvBitVec c 64)) t.bits i b
  if b then addN c 64 t.zeros n else .ok n

/-- Number `i`, `acc` being what is known of it. -/
def levelsGet : List WaveLevel → Nat → BitVec 64 → Res (BitVec 64)
  | [], _, acc => .ok acc
  | t :: ts, i, acc => do
    let b ← (Rank9.bitVec (bvBitVec c 64)).getBit t.bits i
    let i ← t.down c b i
    let acc ← shlB c acc 1
    levelsGet ts i (if b then acc ||| 1 else acc)

/-- How many of the numbers from `lo` up to `hi` are `x`. -/
def levelsCount (x : BitVec 64) : List WaveLevel → Nat → Nat → Res Nat
  | [], lo, hi => subN c 64 hi lo
  | t :: ts, lo, hi => do
    let b ← blkGetBit c x ts.length
    let lo ← t.down c b lo
    let hi ← t.down c b hi
    levelsCount x ts lo hi

/-- Number `j` in increasing order of the numbers from `lo` up to `hi`. -/
def levelsNth : List WaveLevel → Nat → Nat → Nat → BitVec 64 → Res (BitVec 64)
  | [], _, _, _, acc => .ok acc
  | t :: ts, lo, hi, j, acc => do
    let acc ← shlB c acc 1
    let lo0 ← t.down c false lo
    let hi0 ← t.down c false hi
    let z ← subN c 64 hi0 lo0
    if j < z then levelsNth ts lo0 hi0 j acc
    else do
      let lo1 ← t.down c true lo
      let hi1 ← t.down c true hi
      let j ← subN c 64 j z
      levelsNth ts lo1 hi1 j (acc ||| 1)
end

/-- The elements from `lo` up to `hi`. -/
def Spec.seg (l : List α) (lo hi : Nat) : List α := (l.drop lo).take (hi - lo)

/-- The numbers with a zero at `l`, then those with a one. -/
def splitAt (l : Nat) (xs : List (BitVec 64)) : List (BitVec 64) :=
  xs.filter (fun x => !x.getLsbD l) ++ xs.filter fun x => x.getLsbD l

def levelBits (l : Nat) (xs : List (BitVec 64)) : List Bool := xs.map fun x => x.getLsbD l

/-- Where the `b`s among the first `i` end on the next level. -/
def below (l : Nat) (xs : List (BitVec 64)) (b : Bool) (i : Nat) : Nat :=
  if b then (xs.filter fun x => !x.getLsbD l).length + occ true (levelBits l xs) i else occ false (levelBits l xs) i

theorem occ_levelBits (l : Nat) (xs : List (BitVec 64)) (b : Bool) (i : Nat) :
    occ b (levelBits l xs) i = ((xs.take i).filter fun x => x.getLsbD l == b).length := by
  unfold occ levelBits
  rw [← List.map_take, List.count_eq_countP, List.countP_map, List.countP_eq_length_filter]
  rfl

theorem seg_split (l : Nat) (xs : List (BitVec 64)) (b : Bool) {lo hi : Nat} (h : lo ≤ hi) :
    seg (splitAt l xs) (below l xs b lo) (below l xs b hi) = (seg xs lo hi).filter (fun x => x.getLsbD l == b) ∧
      below l xs b lo ≤ below l xs b hi ∧ below l xs b hi ≤ xs.length ∧ (splitAt l xs).length = xs.length := by
  have e1 : xs.take hi = xs.take lo ++ seg xs lo hi := by
    rw [seg, ← List.take_add, Nat.add_sub_cancel' h]
  have e2 : ∀ g : BitVec 64 → Bool, xs.filter g = (xs.take lo).filter g ++ (seg xs lo hi).filter g ++ (xs.drop hi).filter g := fun g => by
    rw [← List.filter_append, ← e1, ← List.filter_append, List.take_append_drop]
  have e3 : ∀ b', occ b' (levelBits l xs) hi = occ b' (levelBits l xs) lo + ((seg xs lo hi).filter fun x => x.getLsbD l == b').length := fun b' => by
    rw [occ_levelBits, occ_levelBits, e1, List.filter_append, List.length_append]
  have e4 : (splitAt l xs).length = xs.length := by
    unfold splitAt
    rw [List.length_append, ← List.countP_eq_length_filter, ← List.countP_eq_length_filter]
    have := List.length_eq_countP_add_countP (fun x : BitVec 64 => x.getLsbD l) (l := xs)
    simp only [Bool.not_eq_true, Bool.decide_eq_false] at this
    omega
  have e5 : occ b (levelBits l xs) hi ≤ (xs.filter fun x => x.getLsbD l == b).length := by
    rw [occ_levelBits]
    exact ((List.take_sublist hi xs).filter _).length_le
  have hT : (fun x : BitVec 64 => x.getLsbD l == true) = fun x => x.getLsbD l := by funext x; simp
  have hF : (fun x : BitVec 64 => x.getLsbD l == false) = fun x => !x.getLsbD l := by funext x; cases x.getLsbD l <;> rfl
  refine ⟨?_, ?_, ?_, e4⟩
  · have key : ∀ P A B C D : List (BitVec 64), ∀ p q : Nat, p = P.length + A.length → q = p + B.length →
        seg (P ++ (A ++ B ++ C) ++ D) p q = B := fun P A B C D p q hp hq => by
      subst hq hp
      have : P ++ (A ++ B ++ C) ++ D = (P ++ A) ++ (B ++ (C ++ D)) := by simp
      rw [seg, this, ← List.length_append, List.drop_left, Nat.add_sub_cancel_left, List.take_left]
    unfold splitAt below
    cases b
    · rw [← hF, e2 fun x => x.getLsbD l == false]
      exact key [] _ _ _ _ _ _ (by simp [occ_levelBits]) (by simpa using e3 false)
    · rw [← hT, e2 fun x => x.getLsbD l == true]
      have := key (xs.filter fun x => !x.getLsbD l) ((xs.take lo).filter fun x => x.getLsbD l == true)
        ((seg xs lo hi).filter fun x => x.getLsbD l == true) ((xs.drop hi).filter fun x => x.getLsbD l == true) [] _ _ rfl rfl
      rw [List.append_nil] at this
      simp only [if_true]
      rw [e3 true, occ_levelBits]
      simpa [Nat.add_assoc] using this
  · unfold below
    have := e3 true; have := e3 false
    cases b <;> simp <;> omega
  · rw [← e4]
    unfold below splitAt
    rw [List.length_append]
    cases b
    · rw [hF] at e5; simp; omega
    · rw [hT] at e5; simp; omega

/-- The levels hold `xs`, the numbers being read modulo `2^l`. -/
def Holds (c : Cfg) : Nat → List (BitVec 64) → List WaveLevel → Prop
  | 0, _, ts => ts = []
  | l + 1, xs, ts => ∃ t rest, ts = t :: rest ∧ RankLaw (Rank9.ops c (bvBitVec c 64)) t.bits (levelBits l xs) ∧
      (∀ i < xs.length, (Rank9.bitVec (bvBitVec c 64)).getBit t.bits i = expectR (levelBits l xs)[i]?) ∧
      t.zeros = (xs.filter fun x => !x.getLsbD l).length ∧ Holds c l (splitAt l xs) rest

theorem Holds.length_eq {c : Cfg} : {l : Nat} → {xs : List (BitVec 64)} → {ts : List WaveLevel} → Holds c l xs ts → ts.length = l
  | 0, _, _, h => by rw [show _ = [] from h]; rfl
  | l + 1, _, _, ⟨_, _, e, _, _, _, h⟩ => by rw [e, List.length_cons, Holds.length_eq h]

theorem levelBits_length (l : Nat) (xs : List (BitVec 64)) : (levelBits l xs).length = xs.length := by simp [levelBits]

theorem down_ok {c : Cfg} {t : WaveLevel} (hr : RankLaw (Rank9.ops c (bvBitVec c 64)) t.bits (levelBits l xs))
    (hz : t.zeros = (xs.filter fun x => !x.getLsbD l).length) (hn : xs.length < 2 ^ 64) (b : Bool) {i : Nat} (hi : i ≤ xs.length) :
    t.down c b i = .ok (below l xs b i) := by
  unfold WaveLevel.down below
  rw [rankBefore_ok c hr (by rw [levelBits_length]; exact hi) b, Res.ok_bind]
  cases b
  · rfl
  · have := (seg_split l xs true hi).2.2.1
    have := (seg_split l xs true (Nat.zero_le i)).2.2.1
    simp only [below, if_true] at this
    simp only [if_true]
    rw [hz, addN_ok (by omega)]

theorem pushLevel_ok (c : Cfg) {l : Nat} (hl : l < 64) : ∀ (xs : List (BitVec 64)) (v : VB 64) (bits : List Bool), bvR c 64 v bits →
    Fits c.usz 64 (bits.length + xs.length) → ∃ v', pushLevel c l xs v = .ok v' ∧ bvR c 64 v' (bits ++ levelBits l xs)
  | [], v, bits, h, _ => ⟨v, rfl, by simpa [levelBits] using h⟩
  | x :: xs, v, bits, h, hf => by
    rw [List.length_cons] at hf
    obtain ⟨v1, e1, h1⟩ := VR.pushBit_ok isBlk64 h (hf.mono (by omega)) (x.getLsbD l)
    obtain ⟨v2, e2, h2⟩ := pushLevel_ok c hl xs v1 _ h1 (by rw [List.length_append]; exact hf.mono (by simp; omega))
    refine ⟨v2, ?_, by simpa [levelBits] using h2⟩
    rw [pushLevel, blkGetBit_eq, if_pos hl, Res.ok_bind, e1, Res.ok_bind, e2]

theorem levels_ok (c : Cfg) : ∀ (l : Nat) (xs : List (BitVec 64)), l ≤ 64 → Fits c.usz 64 xs.length →
    blocksFor 64 xs.length + 8 < 2 ^ c.usz → ∃ ts, levels c l xs = .ok ts ∧ Holds c l xs ts
  | 0, _, _, _, _ => ⟨[], rfl, rfl⟩
  | l + 1, xs, hl, hf, hu => by
    obtain ⟨v, e1, h1⟩ := pushLevel_ok c (by omega : l < 64) xs VB.new [] (VR.nil c isBlk64 1) (by simpa using hf)
    rw [List.nil_append] at h1
    obtain ⟨r, e2, e3, h2⟩ := C39_rank9 (bv_law c isBlk64) (bv_block c isBlk64).toBVBlockRead h1 (by rw [levelBits_length]; exact hu)
    have hlen := (seg_split l xs true (Nat.le_refl 0)).2.2.2
    obtain ⟨ts, e4, h4⟩ := levels_ok c l (splitAt l xs) (by omega) (by rw [hlen]; exact hf) (by rw [hlen]; exact hu)
    have hs : xs.partition (fun x => x.getLsbD l) = (xs.filter (fun x => x.getLsbD l), xs.filter fun x => !x.getLsbD l) := by
      rw [List.partition_eq_filter_filter]; rfl
    refine ⟨⟨r, (xs.filter fun x => !x.getLsbD l).length⟩ :: ts, ?_, _, _, rfl, h2, fun i hi => ?_, rfl, h4⟩
    · rw [levels, e1, Res.ok_bind, e2, Res.ok_bind, hs]
      show (levels c l (splitAt l xs) >>= _) = _
      rw [e4, Res.ok_bind]
    · subst e3
      exact (bv_law c isBlk64).getBit h1 i (by have := hf.lt (by omega); have := c.usz_le; omega)

theorem push_low {acc : BitVec 64} (b : Bool) (h : (acc.toNat + 1) * 2 ≤ 2 ^ 64) :
    (if b then acc <<< 1 ||| 1 else acc <<< 1).toNat = acc.toNat * 2 + b.toNat := by
  have e : (acc <<< 1).toNat = acc.toNat * 2 := by
    rw [BitVec.toNat_shiftLeft, Nat.shiftLeft_eq, Nat.mod_eq_of_lt (by omega)]
  cases b
  · simpa using e
  · simp only [if_true, BitVec.toNat_or, e]
    have : acc.toNat * 2 ||| 1 = acc.toNat * 2 + 1 := by
      have := Nat.two_pow_add_eq_or_of_lt (i := 1) (b := 1) (by omega) acc.toNat
      rw [Nat.pow_one, Nat.mul_comm] at this
      exact this.symm
    simpa using this

theorem mod_succ (x : BitVec 64) (l : Nat) : x.toNat % 2 ^ (l + 1) = (x.getLsbD l).toNat * 2 ^ l + x.toNat % 2 ^ l := by
  rw [Nat.pow_succ, Nat.mod_mul, ← BitVec.testBit_toNat, Nat.testBit_eq_decide_div_mod_eq, Nat.add_comm, Nat.mul_comm]
  congr 2
  rcases Nat.mod_two_eq_zero_or_one (x.toNat / 2 ^ l) with h | h <;> simp [h]

theorem Holds.get {c : Cfg} : {l : Nat} → {xs : List (BitVec 64)} → {ts : List WaveLevel} → Holds c l xs ts → xs.length < 2 ^ 64 →
    {i : Nat} → (x : BitVec 64) → xs[i]? = some x → (acc : BitVec 64) → (acc.toNat + 1) * 2 ^ l ≤ 2 ^ 64 →
    ∃ y, levelsGet c ts i acc = .ok y ∧ y.toNat = acc.toNat * 2 ^ l + x.toNat % 2 ^ l
  | 0, _, _, h, _, _, x, _, acc, _ => by
    rw [show _ = [] from h]
    exact ⟨acc, rfl, by simp [Nat.mod_one]⟩
  | l + 1, xs, _, ⟨t, rest, e, hr, hg, hz, h⟩, hn, i, x, hx, acc, ha => by
    obtain ⟨hi, hxi⟩ := List.getElem?_eq_some_iff.mp hx
    obtain ⟨s1, s2, s3, s4⟩ := seg_split l xs (x.getLsbD l) (Nat.le_succ i)
    have hseg : seg xs i (i + 1) = [x] := by
      rw [seg, Nat.add_sub_cancel_left, List.drop_eq_getElem_cons hi, hxi]; rfl
    rw [hseg] at s1
    simp only [BEq.rfl, List.filter_cons_of_pos, List.filter_nil] at s1
    have hx' : (splitAt l xs)[below l xs (x.getLsbD l) i]? = some x := by
      have : (seg (splitAt l xs) (below l xs (x.getLsbD l) i) (below l xs (x.getLsbD l) (i + 1)))[0]? = some x := by rw [s1]; rfl
      rw [seg, List.getElem?_take, List.getElem?_drop] at this
      split at this
      · simpa using this
      · cases this
    have hpos : 0 < 2 ^ l := Nat.two_pow_pos l
    have hb : (acc.toNat + 1) * 2 ≤ 2 ^ 64 := by
      refine Nat.le_trans (Nat.mul_le_mul_left _ ?_) ha
      rw [Nat.pow_succ]; omega
    have hlow := push_low (x.getLsbD l) hb
    have hbit : (x.getLsbD l).toNat ≤ 1 := Bool.toNat_le _
    obtain ⟨y, hy, hv⟩ := Holds.get h (by rw [s4]; exact hn) x hx' (if x.getLsbD l then acc <<< 1 ||| 1 else acc <<< 1) (by
      rw [hlow]
      refine Nat.le_trans (Nat.mul_le_mul_right _ (?_ : _ ≤ (acc.toNat + 1) * 2)) (by rw [Nat.mul_assoc, Nat.mul_comm 2, ← Nat.pow_succ]; exact ha)
      omega)
    refine ⟨y, ?_, ?_⟩
    · rw [e, levelsGet, hg i hi, show (levelBits l xs)[i]? = some (x.getLsbD l) by simp [levelBits, hx]]
      show ((t.down c (x.getLsbD l) i) >>= _) = _
      rw [down_ok hr hz hn _ (by omega), Res.ok_bind, shlB_ok (by omega), Res.ok_bind, hy]
    · rw [hv, hlow, mod_succ, Nat.pow_succ, Nat.add_mul, Nat.mul_assoc, Nat.mul_comm 2, Nat.add_assoc]

theorem Holds.count {c : Cfg} {x : BitVec 64} : {l : Nat} → {xs : List (BitVec 64)} → {ts : List WaveLevel} → Holds c l xs ts → l ≤ 64 →
    xs.length < 2 ^ 64 → {lo hi : Nat} → lo ≤ hi → hi ≤ xs.length →
    levelsCount c x ts lo hi = .ok ((seg xs lo hi).countP fun y => y.toNat % 2 ^ l == x.toNat % 2 ^ l)
  | 0, xs, _, h, _, _, lo, hi, h1, h2 => by
    rw [show _ = [] from h, levelsCount, subN_ok h1]
    simp [Nat.mod_one, seg]
    omega
  | l + 1, xs, _, ⟨t, rest, e, hr, _, hz, h⟩, hl, hn, lo, hi, h1, h2 => by
    obtain ⟨s1, s2, s3, s4⟩ := seg_split l xs (x.getLsbD l) h1
    rw [e, levelsCount, blkGetBit_eq, h.length_eq, if_pos (by omega), Res.ok_bind, down_ok hr hz hn _ (by omega), Res.ok_bind,
      down_ok hr hz hn _ h2, Res.ok_bind, Holds.count h (by omega) (by omega) s2 (by omega), s1, List.countP_filter]
    congr 2
    funext y
    have := Nat.mod_lt y.toNat (Nat.two_pow_pos l)
    have := Nat.mod_lt x.toNat (Nat.two_pow_pos l)
    rw [mod_succ, mod_succ, Bool.eq_iff_iff]
    cases y.getLsbD l <;> cases x.getLsbD l <;> simp <;> omega

theorem Holds.nth {c : Cfg} : {l : Nat} → {xs : List (BitVec 64)} → {ts : List WaveLevel} → Holds c l xs ts →
    xs.length < 2 ^ 64 → {lo hi j : Nat} → lo ≤ hi → hi ≤ xs.length → j < hi - lo → (acc : BitVec 64) →
    (acc.toNat + 1) * 2 ^ l ≤ 2 ^ 64 → ∃ y v, levelsNth c ts lo hi j acc = .ok y ∧ y.toNat = acc.toNat * 2 ^ l + v ∧ v < 2 ^ l ∧
      ((seg xs lo hi).countP fun u => decide (u.toNat % 2 ^ l < v)) ≤ j ∧ j < (seg xs lo hi).countP fun u => decide (u.toNat % 2 ^ l ≤ v)
  | 0, xs, _, h, _, lo, hi, j, h1, h2, hj, acc, _ => by
    rw [show _ = [] from h]
    refine ⟨acc, 0, rfl, by simp, by simp, by simp, ?_⟩
    simp [Nat.mod_one, seg]
    omega
  | l + 1, xs, _, ⟨t, rest, e, hr, _, hz, h⟩, hn, lo, hi, j, h1, h2, hj, acc, ha => by
    obtain ⟨s1, s2, s3, s4⟩ := seg_split l xs false h1
    obtain ⟨t1, t2, t3, -⟩ := seg_split l xs true h1
    have hpos : 0 < 2 ^ l := Nat.two_pow_pos l
    have hb : (acc.toNat + 1) * 2 ≤ 2 ^ 64 := by
      refine Nat.le_trans (Nat.mul_le_mul_left _ ?_) ha
      rw [Nat.pow_succ]; omega
    have hacc : ∀ b : Bool, (acc.toNat * 2 + b.toNat + 1) * 2 ^ l ≤ 2 ^ 64 := fun b => by
      have : b.toNat ≤ 1 := Bool.toNat_le _
      refine Nat.le_trans (Nat.mul_le_mul_right _ (?_ : _ ≤ (acc.toNat + 1) * 2)) (by rw [Nat.mul_assoc, Nat.mul_comm 2, ← Nat.pow_succ]; exact ha)
      omega
    have hlen : ∀ b, below l xs b hi - below l xs b lo = (seg xs lo hi).countP fun x => x.getLsbD l == b := fun b => by
      obtain ⟨q1, q2, q3, q4⟩ := seg_split l xs b h1
      have := congrArg List.length q1
      rw [← List.countP_eq_length_filter] at this
      rw [← this, seg, List.length_take, List.length_drop]
      omega
    have htot : (seg xs lo hi).length = hi - lo := by rw [seg, List.length_take, List.length_drop]; omega
    have hsum : ∀ S : List (BitVec 64), S.length = (S.countP fun x => x.getLsbD l == false) + S.countP fun x => x.getLsbD l == true := fun S => by
      have := List.length_eq_countP_add_countP (fun x : BitVec 64 => x.getLsbD l == false) (l := S)
      simpa using this
    have hl0 := hlen false
    have hl1 := hlen true
    have hsm := hsum (seg xs lo hi)
    rw [e, levelsNth, shlB_ok (by omega), Res.ok_bind, down_ok hr hz hn _ (by omega), Res.ok_bind, down_ok hr hz hn _ h2, Res.ok_bind,
      subN_ok s2, Res.ok_bind]
    by_cases hjz : j < below l xs false hi - below l xs false lo
    · rw [if_pos hjz]
      obtain ⟨y, v, r1, r2, r3, r4, r5⟩ := Holds.nth h (by omega) s2 (by omega) hjz (acc <<< 1) (by
        have := hacc false; rw [← push_low false hb] at this; exact this)
      have hp := push_low false hb
      simp only [Bool.false_eq_true, if_false, Bool.toNat_false, Nat.add_zero] at hp
      rw [s1, List.countP_filter] at r4 r5
      refine ⟨y, v, r1, ?_, by rw [Nat.pow_succ]; omega, Nat.le_trans (Nat.le_of_eq ?_) r4, Nat.lt_of_lt_of_le r5 (Nat.le_of_eq ?_)⟩
      · rw [r2, hp, Nat.pow_succ, Nat.mul_assoc, Nat.mul_comm 2]
      all_goals
        congr 1
        funext u
        rw [mod_succ, Bool.eq_iff_iff]
        cases u.getLsbD l <;> simp <;> omega
    · rw [if_neg hjz, down_ok hr hz hn _ (by omega), Res.ok_bind, down_ok hr hz hn _ h2, Res.ok_bind, subN_ok (by omega), Res.ok_bind]
      obtain ⟨y, v, r1, r2, r3, r4, r5⟩ := Holds.nth h (by omega) t2 (by omega)
        (by omega : j - (below l xs false hi - below l xs false lo) < below l xs true hi - below l xs true lo) (acc <<< 1 ||| 1) (by
        have := hacc true; rw [← push_low true hb] at this; exact this)
      have hp := push_low true hb
      simp only [if_true, Bool.toNat_true] at hp
      rw [t1, List.countP_filter, hlen false] at r4 r5
      have hadd : ∀ q : Nat → Bool, (seg xs lo hi).countP (fun u => decide (u.toNat % 2 ^ (l + 1) < 2 ^ l) || q (u.toNat % 2 ^ (l + 1))) =
          ((seg xs lo hi).countP fun u => u.getLsbD l == false) + (seg xs lo hi).countP fun u => q (2 ^ l + u.toNat % 2 ^ l) && u.getLsbD l == true := by
        intro q
        generalize seg xs lo hi = S
        induction S with
        | nil => rfl
        | cons u S ih =>
          have := Nat.mod_lt u.toNat hpos
          have : (if (decide (u.toNat % 2 ^ (l + 1) < 2 ^ l) || q (u.toNat % 2 ^ (l + 1))) = true then 1 else 0) =
              (if (u.getLsbD l == false) = true then 1 else 0) + if (q (2 ^ l + u.toNat % 2 ^ l) && u.getLsbD l == true) = true then 1 else 0 := by
            rw [mod_succ]
            cases u.getLsbD l
            · simp [this]
            · have : ¬ 2 ^ l + u.toNat % 2 ^ l < 2 ^ l := by omega
              simp [this]
          rw [List.countP_cons, List.countP_cons, List.countP_cons, ih, this]
          omega
      have h4 := hadd fun n => decide (n < 2 ^ l + v)
      have h5 := hadd fun n => decide (n ≤ 2 ^ l + v)
      have c4 : (fun u : BitVec 64 => decide (u.toNat % 2 ^ (l + 1) < 2 ^ l) || decide (u.toNat % 2 ^ (l + 1) < 2 ^ l + v)) =
          fun u => decide (u.toNat % 2 ^ (l + 1) < 2 ^ l + v) := by
        funext u; rw [Bool.eq_iff_iff]; simp; omega
      have c5 : (fun u : BitVec 64 => decide (u.toNat % 2 ^ (l + 1) < 2 ^ l) || decide (u.toNat % 2 ^ (l + 1) ≤ 2 ^ l + v)) =
          fun u => decide (u.toNat % 2 ^ (l + 1) ≤ 2 ^ l + v) := by
        funext u; rw [Bool.eq_iff_iff]; simp; omega
      rw [c4] at h4
      rw [c5] at h5
      simp only [Nat.add_lt_add_iff_left, Nat.add_le_add_iff_left] at h4 h5
      refine ⟨y, 2 ^ l + v, r1, ?_, by rw [Nat.pow_succ]; omega, by omega, by omega⟩
      rw [r2, hp, Nat.pow_succ, Nat.add_mul, Nat.mul_assoc, Nat.mul_comm 2]; omega

/-- In a sorted list the element at `j` is the one with at most `j` below it and more than `j` up to it. -/
theorem sorted_at {s : List Nat} (hs : s.Pairwise (· ≤ ·)) {j : Nat} (hj : j < s.length) {v : Nat}
    (h1 : s.countP (fun u => decide (u < v)) ≤ j) (h2 : j < s.countP fun u => decide (u ≤ v)) : s[j] = v := by
  rw [List.pairwise_iff_getElem] at hs
  rcases Nat.lt_trichotomy s[j] v with h | h | h
  · exfalso
    have : ((s.take (j + 1)).countP fun u => decide (u < v)) = (s.take (j + 1)).length := by
      rw [List.countP_eq_length]
      intro a ha
      obtain ⟨i, hi, rfl⟩ := List.getElem_of_mem ha
      rw [List.length_take] at hi
      rw [List.getElem_take]
      rcases Nat.lt_or_ge i j with q | q
      · have := hs i j (by omega) hj q
        simp; omega
      · have : i = j := by omega
        subst this; simpa using h
    have q := (List.take_sublist (j + 1) s).countP_le (p := fun u => decide (u < v))
    rw [this, List.length_take] at q
    omega
  · exact h
  · exfalso
    have e := congrArg (List.countP fun u => decide (u ≤ v)) (List.take_append_drop j s)
    rw [List.countP_append] at e
    have : (s.drop j).countP (fun u => decide (u ≤ v)) = 0 := by
      rw [List.countP_eq_zero]
      intro a ha
      obtain ⟨i, hi, rfl⟩ := List.getElem_of_mem ha
      rw [List.length_drop] at hi
      rw [List.getElem_drop]
      rcases Nat.eq_zero_or_pos i with q | q
      · subst q; simpa using h
      · have := hs j (j + i) hj (by omega) (by omega)
        simp; omega
    have q := List.countP_le_length (p := fun u => decide (u ≤ v)) (l := s.take j)
    rw [List.length_take] at q
    omega

/-- C159: any sequence of numbers below `2^k` becomes `k` bit vectors, from which every number, how often a number occurs in any range,
and the numbers of any range in increasing order can be had. -/
theorem C159_wavelet (c : Cfg) {k : Nat} (hk : k ≤ 64) (xs : List (BitVec 64)) (hx : ∀ x ∈ xs, x.toNat < 2 ^ k)
    (hf : Fits c.usz 64 xs.length) (hu : blocksFor 64 xs.length + 8 < 2 ^ c.usz) :
    ∃ ts, levels c k xs = .ok ts ∧ ts.length = k ∧
      (∀ (i : Nat) (h : i < xs.length), levelsGet c ts i 0 = .ok xs[i]) ∧
      ∀ lo hi, lo ≤ hi → hi ≤ xs.length →
        (∀ x : BitVec 64, x.toNat < 2 ^ k → levelsCount c x ts lo hi = .ok (((xs.take hi).drop lo).count x)) ∧
        ∀ s : List (BitVec 64), s.Perm ((xs.take hi).drop lo) → s.Pairwise (fun x y => x.toNat ≤ y.toNat) →
          ∀ (j : Nat) (h : j < s.length), levelsNth c ts lo hi j 0 = .ok s[j] := by
  obtain ⟨ts, e, h⟩ := levels_ok c k xs hk hf hu
  have hn : xs.length < 2 ^ 64 := by have := hf.lt (by omega); have := c.usz_le; omega
  have h0 : ((0 : BitVec 64).toNat + 1) * 2 ^ k ≤ 2 ^ 64 := by
    have := Nat.pow_le_pow_right (n := 2) (by omega) hk
    simpa using this
  refine ⟨ts, e, h.length_eq, fun i hi => ?_, fun lo hi h1 h2 => ?_⟩
  · obtain ⟨y, hy, hv⟩ := h.get hn xs[i] (List.getElem?_eq_getElem hi) 0 h0
    rw [hy]
    congr 1
    apply BitVec.eq_of_toNat_eq
    rw [hv, Nat.mod_eq_of_lt (hx _ (List.getElem_mem hi))]
    simp
  · have hseg : seg xs lo hi = (xs.take hi).drop lo := by rw [seg, List.drop_take]
    have hmem : ∀ u ∈ (xs.take hi).drop lo, u.toNat % 2 ^ k = u.toNat := fun u hu' =>
      Nat.mod_eq_of_lt (hx u (List.mem_of_mem_take (List.mem_of_mem_drop hu')))
    refine ⟨fun x hxk => ?_, fun s hp hs j hj => ?_⟩
    · rw [h.count hk hn h1 h2, hseg, List.count_eq_countP]
      congr 1
      apply List.countP_congr
      intro u hu'
      rw [hmem u hu', Nat.mod_eq_of_lt hxk]
      simp [BitVec.toNat_eq]
    · have hlen : s.length = hi - lo := by rw [hp.length_eq, List.length_drop, List.length_take]; omega
      obtain ⟨y, v, r1, r2, r3, r4, r5⟩ := h.nth hn h1 h2 (by omega : j < hi - lo) 0 h0
      rw [r1]
      congr 1
      apply BitVec.eq_of_toNat_eq
      have hq : ∀ q : Nat → Bool, ((seg xs lo hi).countP fun u => q (u.toNat % 2 ^ k)) = (s.map (·.toNat)).countP q := fun q => by
        rw [hseg, List.countP_map, hp.countP_eq]
        apply List.countP_congr
        intro u hu'
        rw [hmem u hu']; rfl
      have := sorted_at (s := s.map (·.toNat)) (List.pairwise_map.mpr hs) (j := j) (by simpa using hj)
        (by rw [← hq]; exact r4) (by rw [← hq fun u => decide (u ≤ v)]; exact r5)
      rw [List.getElem_map] at this
      rw [r2, this]; simp

end Succinct
