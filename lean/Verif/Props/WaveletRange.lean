import Verif.Props.Wavelet
/-! Property C172: over the bit vectors of C159, how many numbers of a range lie below a bound or between two, and which number of a
range is next to a bound. The programs here are not in the crate; they call its `get_bit` and `rank`. -/
namespace Succinct
open Spec

section
variable (c : Cfg)

/-- How many of the numbers from `lo` up to `hi` are below `x`, `acc` being counted already. -/
def levelsBelow (x : BitVec 64) : List WaveLevel → Nat → Nat → Nat → Res Nat
  | [], _, _, acc => .ok acc
  | t :: ts, lo, hi, acc => do
    let b ← blkGetBit c x ts.length
    let lo0 ← t.down c false lo
    let hi0 ← t.down c false hi
    if b then do
      let z ← subN c 64 hi0 lo0
      let acc ← addN c 64 acc z
      let lo1 ← t.down c true lo
      let hi1 ← t.down c true hi
      levelsBelow x ts lo1 hi1 acc
    else levelsBelow x ts lo0 hi0 acc

/-- `below(b) - below(a)` -/
def levelsBetween (ts : List WaveLevel) (lo hi : Nat) (a b : BitVec 64) : Res Nat := do
  let n ← levelsBelow c b ts lo hi 0
  let m ← levelsBelow c a ts lo hi 0
  subN c 64 n m

/-- The least number from `lo` up to `hi` that is not below `x`:
`let n = below(x); if n < hi - lo { Some(nth(n)) } else { None }` -/
def levelsNext (ts : List WaveLevel) (lo hi : Nat) (x : BitVec 64) : Res (Option (BitVec 64)) := do
  let n ← levelsBelow c x ts lo hi 0
  let l ← subN c 64 hi lo
  if n < l then do
    let y ← levelsNth c ts lo hi n 0
    .ok (some y)
  else .ok none

/-- The greatest number from `lo` up to `hi` that is below `x`: `let n = below(x); if n > 0 { Some(nth(n - 1)) } else { None }` -/
def levelsPrev (ts : List WaveLevel) (lo hi : Nat) (x : BitVec 64) : Res (Option (BitVec 64)) := do
  let n ← levelsBelow c x ts lo hi 0
  if 0 < n then do
    let n ← subN c 64 n 1
    let y ← levelsNth c ts lo hi n 0
    .ok (some y)
  else .ok none
end

theorem below_diff (l : Nat) (xs : List (BitVec 64)) (b : Bool) {lo hi : Nat} (h : lo ≤ hi) :
    below l xs b hi - below l xs b lo = (seg xs lo hi).countP fun x => x.getLsbD l == b := by
  obtain ⟨q1, q2, q3, q4⟩ := seg_split l xs b h
  have := congrArg List.length q1
  rw [← List.countP_eq_length_filter] at this
  rw [← this, seg, List.length_take, List.length_drop]
  omega

theorem countP_below (l m : Nat) (S : List (BitVec 64)) : (S.countP fun y => decide (y.toNat % 2 ^ (l + 1) < 2 ^ l + m)) =
    (S.countP fun y => y.getLsbD l == false) + S.countP fun y => decide (y.toNat % 2 ^ l < m) && y.getLsbD l == true := by
  induction S with
  | nil => rfl
  | cons y S ih =>
    have h := Nat.mod_lt y.toNat (Nat.two_pow_pos l)
    rw [List.countP_cons, List.countP_cons, List.countP_cons, ih, mod_succ]
    cases y.getLsbD l
    · simp [show y.toNat % 2 ^ l < 2 ^ l + m by omega]
      omega
    · simp
      omega

theorem Holds.below {c : Cfg} {x : BitVec 64} : {l : Nat} → {xs : List (BitVec 64)} → {ts : List WaveLevel} → Holds c l xs ts → l ≤ 64 →
    xs.length < 2 ^ 64 → {lo hi : Nat} → lo ≤ hi → hi ≤ xs.length → (acc : Nat) → acc + (hi - lo) < 2 ^ 64 →
    levelsBelow c x ts lo hi acc = .ok (acc + (seg xs lo hi).countP fun y => decide (y.toNat % 2 ^ l < x.toNat % 2 ^ l))
  | 0, xs, _, h, _, _, lo, hi, h1, h2, acc, _ => by
    rw [show _ = [] from h, levelsBelow]
    simp [Nat.mod_one]
  | l + 1, xs, _, ⟨t, rest, e, hr, _, hz, h⟩, hl, hn, lo, hi, h1, h2, acc, ha => by
    obtain ⟨s1, s2, s3, s4⟩ := seg_split l xs false h1
    obtain ⟨t1, t2, t3, -⟩ := seg_split l xs true h1
    have d0 := below_diff l xs false h1
    have d1 := below_diff l xs true h1
    have htot : (seg xs lo hi).length = hi - lo := by rw [seg, List.length_take, List.length_drop]; omega
    have hsm := List.length_eq_countP_add_countP (fun x : BitVec 64 => x.getLsbD l == false) (l := seg xs lo hi)
    have hsm' : (seg xs lo hi).length = ((seg xs lo hi).countP fun x => x.getLsbD l == false) + (seg xs lo hi).countP fun x => x.getLsbD l == true := by
      simpa using hsm
    have hx := mod_succ x l
    rw [e, levelsBelow, blkGetBit_eq, h.length_eq, if_pos (by omega), Res.ok_bind, down_ok hr hz hn _ (by omega), Res.ok_bind,
      down_ok hr hz hn _ h2, Res.ok_bind]
    cases hb : x.getLsbD l
    · rw [if_neg (by simp), Holds.below h (by omega) (by omega) s2 (by omega) acc (by omega), s1, List.countP_filter]
      rw [hb, Bool.toNat_false, Nat.zero_mul, Nat.zero_add] at hx
      congr 3
      funext y
      have hm := Nat.mod_lt x.toNat (Nat.two_pow_pos l)
      rw [hx, mod_succ, Bool.eq_iff_iff]
      cases y.getLsbD l <;> simp
      omega
    · rw [if_pos rfl, subN_ok s2, Res.ok_bind, addN_ok (by omega), Res.ok_bind, down_ok hr hz hn _ (by omega), Res.ok_bind,
        down_ok hr hz hn _ h2, Res.ok_bind, Holds.below h (by omega) (by omega) t2 (by omega) _ (by omega), t1, List.countP_filter]
      rw [hb, Bool.toNat_true, Nat.one_mul] at hx
      rw [hx, countP_below, d0, Nat.add_assoc]

/-- C172: over the bit vectors of a sequence of numbers below `2^k`, for each range: how many of its numbers are below a bound, and how
many lie between two; the least that is not below a bound, and the greatest that is, or none if there is none. -/
theorem C172_ranges (c : Cfg) {k : Nat} (hk : k ≤ 64) (xs : List (BitVec 64)) (hx : ∀ x ∈ xs, x.toNat < 2 ^ k)
    (hf : Fits c.usz 64 xs.length) (hu : blocksFor 64 xs.length + 8 < 2 ^ c.usz) :
    ∃ ts, levels c k xs = .ok ts ∧
      ∀ lo hi, lo ≤ hi → hi ≤ xs.length → ∀ x : BitVec 64, x.toNat < 2 ^ k →
        levelsBelow c x ts lo hi 0 = .ok (((xs.take hi).drop lo).countP fun y => decide (y < x)) ∧
        (∀ z : BitVec 64, x ≤ z → z.toNat < 2 ^ k →
          levelsBetween c ts lo hi x z = .ok (((xs.take hi).drop lo).countP fun y => decide (x ≤ y) && decide (y < z))) ∧
        (∃ o, levelsNext c ts lo hi x = .ok o ∧ (∀ y, o = some y → y ∈ (xs.take hi).drop lo ∧ x ≤ y ∧ ∀ z ∈ (xs.take hi).drop lo, x ≤ z → y ≤ z) ∧
          (o = none → ∀ z ∈ (xs.take hi).drop lo, z < x)) ∧
        ∃ o, levelsPrev c ts lo hi x = .ok o ∧ (∀ y, o = some y → y ∈ (xs.take hi).drop lo ∧ y < x ∧ ∀ z ∈ (xs.take hi).drop lo, z < x → z ≤ y) ∧
          (o = none → ∀ z ∈ (xs.take hi).drop lo, x ≤ z) := by
  obtain ⟨ts, e, h⟩ := levels_ok c k xs hk hf hu
  obtain ⟨ts', e', -, -, hw⟩ := C159_wavelet c hk xs hx hf hu
  have : ts' = ts := by rw [e] at e'; cases e'; rfl
  subst this
  have hn : xs.length < 2 ^ 64 := by have := hf.lt (by omega); have := c.usz_le; omega
  refine ⟨ts', e, fun lo hi h1 h2 x hxk => ?_⟩
  have hseg : seg xs lo hi = (xs.take hi).drop lo := by rw [seg, List.drop_take]
  have hlen : ((xs.take hi).drop lo).length = hi - lo := by rw [List.length_drop, List.length_take]; omega
  have hnth := (hw lo hi h1 h2).2
  have hmem : ∀ u ∈ (xs.take hi).drop lo, u.toNat < 2 ^ k := fun u hu' => hx u (List.mem_of_mem_take (List.mem_of_mem_drop hu'))
  generalize (xs.take hi).drop lo = S at hseg hlen hnth hmem
  have hb : ∀ z : BitVec 64, z.toNat < 2 ^ k → levelsBelow c z ts' lo hi 0 = .ok (S.countP fun y => decide (y < z)) := fun z hz => by
    rw [h.below hk hn h1 h2 0 (by omega), hseg, Nat.zero_add]
    congr 1
    apply List.countP_congr
    intro u hu'
    rw [Nat.mod_eq_of_lt (hmem u hu'), Nat.mod_eq_of_lt hz]
    simp [BitVec.lt_def]
  let s := S.mergeSort fun a b => decide (a ≤ b)
  have hp : s.Perm S := List.mergeSort_perm _ _
  have hs : s.Pairwise (fun a b : BitVec 64 => a ≤ b) := by
    have := List.pairwise_mergeSort (le := fun a b : BitVec 64 => decide (a ≤ b)) (fun a b d => by simpa using BitVec.le_trans)
      (fun a b => by simpa using BitVec.le_total a b) S
    exact this.imp fun h => by simpa using h
  have hl : s.length = hi - lo := by rw [hp.length_eq, hlen]
  have hc : (S.countP fun y => decide (y < x)) = s.countP fun y => decide (y < x) := (hp.countP_eq _).symm
  replace hnth := hnth s hp (hs.imp fun h => by simpa [BitVec.le_def] using h)
  -- the numbers below `x` are the first of the sorted ones
  have hfirst : ∀ (j : Nat) (hj : j < s.length), s[j] < x ↔ j < s.countP fun y => decide (y < x) := by
    clear hnth hc hp hl
    clear_value s
    induction s with
    | nil => intro j hj; simp at hj
    | cons a s ih =>
      rw [List.pairwise_cons] at hs
      intro j hj
      rw [List.countP_cons]
      cases j with
      | zero =>
        by_cases ha : a < x
        · simp [ha]
        · have : (s.countP fun y => decide (y < x)) = 0 := by
            rw [List.countP_eq_zero]
            intro y hy
            have := hs.1 y hy
            simp only [decide_eq_true_eq]
            intro hyx
            exact ha (Nat.lt_of_le_of_lt this hyx)
          simp [ha, this]
      | succ j =>
        have hj' : j < s.length := by simpa using hj
        rw [List.getElem_cons_succ, ih hs.2 j hj']
        by_cases ha : a < x
        · simp [ha]
        · have : (s.countP fun y => decide (y < x)) = 0 := by
            rw [List.countP_eq_zero]
            intro y hy
            have := hs.1 y hy
            simp only [decide_eq_true_eq]
            intro hyx
            exact ha (Nat.lt_of_le_of_lt this hyx)
          simp [ha, this]
  have hcl : (s.countP fun y => decide (y < x)) ≤ s.length := List.countP_le_length
  refine ⟨hb x hxk, fun z hxz hz => ?_, ?_, ?_⟩
  · rw [levelsBetween, hb z hz, Res.ok_bind, hb x hxk, Res.ok_bind]
    have e1 : (S.countP fun y => decide (y < z)) = (S.countP fun y => decide (y < x)) + S.countP fun y => decide (x ≤ y) && decide (y < z) := by
      clear_value s
      clear hb hfirst hnth hc hp hl hs hmem hlen hseg
      induction S with
      | nil => rfl
      | cons y S ih =>
        rw [List.countP_cons, List.countP_cons, List.countP_cons, ih]
        simp only [BitVec.lt_def, BitVec.le_def] at hxz ⊢
        by_cases h3 : y.toNat < x.toNat
        · simp [h3, show y.toNat < z.toNat by omega, show ¬ x.toNat ≤ y.toNat by omega]
          omega
        · simp [h3, show x.toNat ≤ y.toNat by omega, Nat.add_assoc]
    rw [e1, subN_ok (by omega), Nat.add_sub_cancel_left]
  · rw [levelsNext, hb x hxk, Res.ok_bind, subN_ok h1, Res.ok_bind, hc]
    split
    · next hlt =>
      rw [← hl] at hlt
      rw [hnth _ hlt, Res.ok_bind]
      refine ⟨_, rfl, fun y hy => ?_, nofun⟩
      cases hy
      have hnx : ¬ s[s.countP fun y => decide (y < x)] < x := fun hlt' => by
        have := (hfirst _ hlt).1 hlt'
        omega
      refine ⟨hp.mem_iff.1 (List.getElem_mem _), BitVec.not_lt.1 hnx, fun z hz hxz => ?_⟩
      obtain ⟨j, hj, rfl⟩ := List.getElem_of_mem (hp.mem_iff.2 hz)
      have hj' : ¬ j < s.countP fun y => decide (y < x) := fun hj' => BitVec.not_lt.2 hxz ((hfirst j hj).2 hj')
      rcases Nat.lt_or_ge (s.countP fun y => decide (y < x)) j with q | q
      · exact (List.pairwise_iff_getElem.1 hs) _ _ hlt hj q
      · have : j = s.countP fun y => decide (y < x) := by omega
        simp only [this]
        exact BitVec.le_refl _
    · next hge =>
      refine ⟨none, rfl, nofun, fun _ z hz => ?_⟩
      obtain ⟨j, hj, rfl⟩ := List.getElem_of_mem (hp.mem_iff.2 hz)
      exact (hfirst j hj).2 (by omega)
  · rw [levelsPrev, hb x hxk, Res.ok_bind, hc]
    split
    · next hpos =>
      have hlt : (s.countP fun y => decide (y < x)) - 1 < s.length := by omega
      rw [subN_ok hpos, Res.ok_bind, hnth _ hlt, Res.ok_bind]
      refine ⟨_, rfl, fun y hy => ?_, nofun⟩
      cases hy
      refine ⟨hp.mem_iff.1 (List.getElem_mem _), (hfirst _ hlt).2 (by omega), fun z hz hzx => ?_⟩
      obtain ⟨j, hj, rfl⟩ := List.getElem_of_mem (hp.mem_iff.2 hz)
      have hj' := (hfirst j hj).1 hzx
      rcases Nat.lt_or_ge j ((s.countP fun y => decide (y < x)) - 1) with q | q
      · exact (List.pairwise_iff_getElem.1 hs) _ _ hj hlt q
      · have : j = (s.countP fun y => decide (y < x)) - 1 := by omega
        simp only [this]
        exact BitVec.le_refl _
    · next hge =>
      refine ⟨none, rfl, nofun, fun _ z hz => ?_⟩
      obtain ⟨j, hj, rfl⟩ := List.getElem_of_mem (hp.mem_iff.2 hz)
      apply BitVec.not_lt.1
      intro hlt
      have := (hfirst j hj).1 hlt
      omega

end Succinct
