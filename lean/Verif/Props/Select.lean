import Verif.Lemmas.Select
import Verif.Props.Rank
/-! Properties C43–C45 (binary search and select). -/
namespace Succinct
open Spec

/-! ### C43 -/

/-- C43, midpoints: the average of any two values of an unsigned type is computed without overflow. -/
theorem C43_average (c : Cfg) {bits x y : Nat} (hb : 2 ≤ bits) (hx : x < 2 ^ bits) (hy : y < 2 ^ bits) :
    average c bits x y = .ok ((x + y) / 2) := average_ok c hb hx hy

/-- C43. Search for the least point at which a monotone `f` reaches `value`. Nothing is assumed about `f`
outside the interval (it may panic or diverge there), so it is not evaluated outside; the result is `ok`, so the
search terminates without overflow, for intervals up to the whole type. -/
theorem C43_binary_search (c : Cfg) {bits start limit value : Nat} {f : Nat → Res Nat} {g : Nat → Nat} (hb : 2 ≤ bits)
    (hl : limit < 2 ^ bits) (hf : ∀ i, start ≤ i → i < limit → f i = .ok (g i))
    (hg : ∀ i j, start ≤ i → i ≤ j → j < limit → g i ≤ g j) :
    ∃ r, binarySearch c bits start limit value f = .ok r ∧ FirstIn start limit (fun d => value ≤ g d) r := by
  unfold binarySearch
  split
  · exact ⟨none, rfl, fun e _ _ => by omega⟩
  · rw [hf start (by omega) (by omega), Res.ok_bind]
    split
    · rename_i h
      exact ⟨_, rfl, Nat.le_refl _, by omega, h, fun e _ _ => by omega⟩
    · rename_i h
      rw [addN_ok (by omega), Res.ok_bind]
      obtain ⟨r, h1, h2⟩ := searchLoop_ok c (f := f) (g := g) (value := value) (start := start + 1) (limit := limit) hb (by omega) hl
        (fun i h1 h2 => hf i (by omega) h2) (fun i j h1 h2 h3 => hg i j (by omega) h2 h3) (by rw [Nat.add_sub_cancel]; omega)
      refine ⟨r, h1, ?_⟩
      cases r with
      | some d =>
        refine ⟨by have := h2.1; omega, h2.2.1, h2.2.2.1, fun e he1 he2 => ?_⟩
        rcases Nat.eq_or_lt_of_le he1 with rfl | hlt
        · exact h
        · exact h2.2.2.2 e hlt he2
      | none =>
        intro e he1 he2
        rcases Nat.eq_or_lt_of_le he1 with rfl | hlt
        · exact h
        · exact h2 e hlt he2

/-- Squares, starting at 3: the first square of at least 50 is that of 8; the `f` given panics outside `3..20`. -/
example (c : Cfg) : binarySearch c 64 3 20 50 (fun i => if 3 ≤ i ∧ i < 20 then .ok (i * i) else .panic) = .ok (some 8) := by
  obtain ⟨r, h1, h2⟩ := C43_binary_search c (bits := 64) (start := 3) (limit := 20) (value := 50)
    (f := fun i => if 3 ≤ i ∧ i < 20 then .ok (i * i) else .panic) (g := fun i => i * i) (by decide) (by decide)
    (fun i h1 h2 => if_pos ⟨h1, h2⟩) (fun i j _ h _ => Nat.mul_le_mul h h)
  rw [h1]
  cases r with
  | none => exact absurd (show 50 ≤ 8 * 8 by decide) (h2 8 (by decide) (by decide))
  | some d =>
    obtain ⟨h3, h4, h5, h6⟩ := h2
    have h5 : 50 ≤ d * d := h5
    have h7 : ¬ 8 < d := fun h => h6 8 (by decide) h (by decide)
    have h8 : ¬ d ≤ 7 := fun h => by have := Nat.mul_le_mul h h; omega
    rw [show d = 8 by omega]

/-! ### C44 -/

theorem occ_succ (v : Bool) (bits : List Bool) {k : Nat} (h : k < bits.length) :
    occ v bits (k + 1) = occ v bits k + if bits[k] = v then 1 else 0 := by
  unfold occ
  rw [List.take_add_one, List.getElem?_eq_getElem h, List.count_append]
  congr 1
  simp [List.count_singleton]

theorem occ_mono (v : Bool) (bits : List Bool) {j k : Nat} (h : j ≤ k) : occ v bits j ≤ occ v bits k := by
  unfold occ
  rw [show bits.take j = (bits.take k).take j by rw [List.take_take, Nat.min_eq_left h]]
  exact (List.take_sublist _ _).count_le _

theorem isSelect_of_firstIn {v : Bool} {bits : List Bool} {k : Nat} {r : Option Nat}
    (h : FirstIn 0 bits.length (fun d => k + 1 ≤ occ v bits (d + 1)) r) : IsSelect v bits k r := by
  cases r with
  | none =>
    show bits.count v ≤ k
    rcases Nat.eq_zero_or_pos bits.length with h0 | h0
    · rw [List.length_eq_zero_iff.1 h0]; simp
    · have : ¬ k + 1 ≤ occ v bits (bits.length - 1 + 1) := h (bits.length - 1) (Nat.zero_le _) (by omega)
      rw [Nat.sub_add_cancel h0, occ, List.take_length] at this
      omega
  | some p =>
    obtain ⟨-, hp, h1, h2⟩ := h
    have h1 : k + 1 ≤ occ v bits (p + 1) := h1
    have h3 : occ v bits p ≤ k := by
      cases p with
      | zero => exact Nat.zero_le _
      | succ p => have := h2 p (Nat.zero_le _) (by omega); omega
    rw [occ_succ v bits hp] at h1
    refine ⟨?_, ?_⟩
    · rw [List.getElem?_eq_getElem hp]
      split at h1
      · rename_i hb; rw [hb]
      · omega
    · split at h1 <;> omega

/-- A rank function that counts `v`. -/
theorem selectBy_ok (c : Cfg) {r : RankOps S} {rank : S → Nat → Res Nat} {s : S} {bits : List Bool} {v : Bool}
    (hr : RankLaw r s bits) (hrank : ∀ p < bits.length, rank s p = .ok (occ v bits (p + 1))) {k : Nat} (hk : k + 1 < 2 ^ 64) :
    ∃ x, BinSearchSelect.selectBy c r rank ⟨s⟩ k = .ok x ∧ IsSelect v bits k x := by
  unfold BinSearchSelect.selectBy
  have hlim : (BinSearchSelect.rankOps r).limit ⟨s⟩ = .ok bits.length := hr.limit
  rw [hlim, Res.ok_bind, addN_ok hk, Res.ok_bind]
  obtain ⟨x, h1, h2⟩ := C43_binary_search c (bits := 64) (start := 0) (limit := bits.length) (value := k + 1)
    (f := fun i => rank s i) (g := fun i => occ v bits (i + 1)) (by decide) hr.small (fun i _ hi => hrank i hi)
    (fun i j _ hij _ => occ_mono v bits (by omega))
  exact ⟨x, h1, isSelect_of_firstIn h2⟩

/-- C44, for every `k` but `u64::MAX`: over a lawful rank structure `select1`, `select0` and `select` find the
`k`-th occurrence, or report that there is none. Missing for the full claim: `k = u64::MAX`
(`C44_max`). -/
theorem C44_select_partial (c : Cfg) {r : RankOps S} {s : S} {bits : List Bool} (hr : RankLaw r s bits) {k : Nat}
    (hk : k + 1 < 2 ^ 64) :
    (∃ x, BinSearchSelect.select1 c r (.new s) k = .ok x ∧ IsSelect true bits k x) ∧
    (∃ x, BinSearchSelect.select0 c r (.new s) k = .ok x ∧ IsSelect false bits k x) ∧
    ∀ v, ∃ x, BinSearchSelect.select c r (.new s) k v = .ok x ∧ IsSelect v bits k x :=
  ⟨selectBy_ok c hr hr.rank1 hk, selectBy_ok c hr hr.rank0 hk, fun v => selectBy_ok c (rank := fun s i => r.rank s i v) hr
    (fun p hp => hr.rank p hp v) hk⟩

theorem selectBy_max (c : Cfg) {r : RankOps S} {rank : S → Nat → Res Nat} {s : S} {bits : List Bool} {v : Bool}
    (hr : RankLaw r s bits) (hrank : ∀ p < bits.length, rank s p = .ok (occ v bits (p + 1))) :
    BinSearchSelect.selectBy c r rank ⟨s⟩ (2 ^ 64 - 1) =
      if c.debug then .panic else .ok (if bits = [] then none else some 0) := by
  unfold BinSearchSelect.selectBy
  have hlim : (BinSearchSelect.rankOps r).limit ⟨s⟩ = .ok bits.length := hr.limit
  have hadd : addN c 64 (2 ^ 64 - 1) 1 = if c.debug then .panic else .ok 0 := by
    unfold addN overflow
    rw [if_neg (by omega)]
  rw [hlim, Res.ok_bind, hadd]
  cases c.debug
  · rw [if_neg (by simp), if_neg (by simp), Res.ok_bind]
    unfold binarySearch
    cases bits with
    | nil => rfl
    | cons b bits =>
      rw [if_neg (by simp)]
      show (rank s 0 >>= _) = _
      rw [hrank 0 (by simp), Res.ok_bind, if_pos (Nat.zero_le _)]
      simp
  · rfl

/-- C44 at `k = u64::MAX`, exactly: `select1`, `select0` and `select` panic in debug builds; in release builds they return
`Some(0)` on every non-empty vector, and `None` on the empty one. -/
theorem C44_max (c : Cfg) {r : RankOps S} {s : S} {bits : List Bool} (hr : RankLaw r s bits) :
    let x := if c.debug then .panic else .ok (if bits = [] then none else some 0)
    BinSearchSelect.select1 c r (.new s) (2 ^ 64 - 1) = x ∧ BinSearchSelect.select0 c r (.new s) (2 ^ 64 - 1) = x ∧
    ∀ v, BinSearchSelect.select c r (.new s) (2 ^ 64 - 1) v = x :=
  ⟨selectBy_max c hr hr.rank1, selectBy_max c hr hr.rank0, fun v => selectBy_max c (rank := fun s i => r.rank s i v) hr
    (fun p hp => hr.rank p hp v)⟩

/-- C44, counterexample in release builds: `select1(u64::MAX)` on a non-empty vector is `Some(0)`, although no
vector has that many ones. -/
theorem C44_max_release {c : Cfg} (hd : c.debug = false) {r : RankOps S} {s : S} {bits : List Bool} (hr : RankLaw r s bits)
    (h0 : 0 < bits.length) : BinSearchSelect.select1 c r (.new s) (2 ^ 64 - 1) = .ok (some 0) ∧
      ¬ IsSelect true bits (2 ^ 64 - 1) (some 0) := by
  constructor
  · rw [(C44_max c hr).1, hd, if_neg (by simp), if_neg (List.ne_nil_of_length_pos h0)]
  · rintro ⟨-, h⟩
    simp [occ] at h

/-- C44, the same call in debug builds panics. -/
theorem C44_max_debug {c : Cfg} (hd : c.debug = true) {r : RankOps S} {s : S} {bits : List Bool} (hr : RankLaw r s bits) :
    BinSearchSelect.select1 c r (.new s) (2 ^ 64 - 1) = .panic := by
  rw [(C44_max c hr).1, hd]; rfl

example (c : Cfg) : BinSearchSelect.select1 c (primRank c 8) (.new 0b10110100) 2 = .ok (some 5) := by
  obtain ⟨x, h1, h2⟩ := (C44_select_partial c (C36_words c isBlk8 0b10110100) (k := 2) (by decide)).1
  rw [h1]
  cases x with
  | none => revert h2; unfold IsSelect; decide
  | some p =>
    have hp : p < 8 := by
      have := h2.1
      rcases Nat.lt_or_ge p 8 with h | h
      · exact h
      · rw [List.getElem?_eq_none (by simpa [blockBits, natBits] using h)] at this; cases this
    revert h2; unfold IsSelect
    have : ∀ p < 8, (blockBits (0b10110100 : BitVec 8))[p]? = some true ∧ occ true (blockBits (0b10110100 : BitVec 8)) p = 2 →
        Res.ok (some p) = Res.ok (some 5) := by decide
    exact this p hp

/-! ### C45 -/

/-- `IsSelect` has exactly one solution. -/
theorem isSelect_unique {v : Bool} {bits : List Bool} {k : Nat} {x y : Option Nat} (hx : IsSelect v bits k x)
    (hy : IsSelect v bits k y) : x = y := by
  have lt : ∀ {p q}, bits[p]? = some v → occ v bits p = k → occ v bits q = k → ¬ p < q := by
    intro p q hp h1 h2 hlt
    obtain ⟨hpl, hpe⟩ := List.getElem?_eq_some_iff.1 hp
    have h3 := occ_succ v bits hpl
    rw [if_pos hpe] at h3
    have h4 := occ_mono v bits (show p + 1 ≤ q from hlt)
    omega
  have none : ∀ {p}, bits[p]? = some v → occ v bits p = k → ¬ bits.count v ≤ k := by
    intro p hp h1 h2
    obtain ⟨hpl, hpe⟩ := List.getElem?_eq_some_iff.1 hp
    have h3 := occ_succ v bits hpl
    rw [if_pos hpe] at h3
    have h4 := occ_mono v bits (show p + 1 ≤ bits.length from hpl)
    rw [show occ v bits bits.length = bits.count v by unfold occ; rw [List.take_length]] at h4
    omega
  cases x with
  | none =>
    cases y with
    | none => rfl
    | some q => exact absurd hx (none hy.1 hy.2)
  | some p =>
    cases y with
    | none => exact absurd hy (none hx.1 hx.2)
    | some q =>
      have h1 := lt hx.1 hx.2 hy.2
      have h2 := lt hy.1 hy.2 hx.2
      rw [show p = q by omega]

/-- C45, from select to rank: if `select(k, v)` is `Some(p)` then bit `p` is `v` and `rank(p, v)` is `k+1`. -/
theorem C45_rank_of_select (c : Cfg) {r : RankOps S} {s : S} {bits : List Bool} (hr : RankLaw r s bits) {k p : Nat} {v : Bool}
    (hk : k + 1 < 2 ^ 64) (h : BinSearchSelect.select c r (.new s) k v = .ok (some p)) :
    bits[p]? = some v ∧ r.rank s p v = .ok (k + 1) := by
  obtain ⟨x, h1, h2⟩ := (C44_select_partial c hr hk).2.2 v
  rw [h1] at h
  cases h
  obtain ⟨hp, hc⟩ := h2
  obtain ⟨hpl, hpe⟩ := List.getElem?_eq_some_iff.1 hp
  refine ⟨hp, ?_⟩
  rw [hr.rank p hpl v, occ_succ v bits hpl, if_pos hpe, hc]

/-- C45, from rank to select: for every bit `p` with value `v`, `rank(p, v)` is some `k+1` and `select(k, v)` is
`Some(p)`. -/
theorem C45_select_of_rank (c : Cfg) {r : RankOps S} {s : S} {bits : List Bool} (hr : RankLaw r s bits) {p : Nat} {v : Bool}
    (hp : bits[p]? = some v) :
    ∃ k, r.rank s p v = .ok (k + 1) ∧ BinSearchSelect.select c r (.new s) k v = .ok (some p) := by
  obtain ⟨hpl, hpe⟩ := List.getElem?_eq_some_iff.1 hp
  refine ⟨occ v bits p, ?_, ?_⟩
  · rw [hr.rank p hpl v, occ_succ v bits hpl, if_pos hpe]
  · have hs := hr.small
    have hle : occ v bits p ≤ p := by
      unfold occ
      exact Nat.le_trans List.count_le_length (by rw [List.length_take]; omega)
    obtain ⟨x, h1, h2⟩ := (C44_select_partial c hr (k := occ v bits p) (by omega)).2.2 v
    rw [h1, isSelect_unique h2 (show IsSelect v bits _ (some p) from ⟨hp, rfl⟩)]

/-- `select1`, `select0` are `select` at `true` and `false` on lawful structures. -/
theorem C45_select_agree (c : Cfg) {r : RankOps S} {s : S} {bits : List Bool} (hr : RankLaw r s bits) {k : Nat}
    (hk : k + 1 < 2 ^ 64) :
    BinSearchSelect.select1 c r (.new s) k = BinSearchSelect.select c r (.new s) k true ∧
    BinSearchSelect.select0 c r (.new s) k = BinSearchSelect.select c r (.new s) k false := by
  obtain ⟨⟨x, h1, h2⟩, ⟨y, h3, h4⟩, h5⟩ := C44_select_partial c hr hk
  obtain ⟨x', h6, h7⟩ := h5 true
  obtain ⟨y', h8, h9⟩ := h5 false
  rw [h1, h3, h6, h8, isSelect_unique h2 h7, isSelect_unique h4 h9]
  exact ⟨rfl, rfl⟩

/-- The whole tower: for every `BitVector<u64>` contents, rank over `Rank9` and select over that are inverse. -/
theorem C45_tower (c : Cfg) {s : VB 64} (hR : bvR c 64 s bits) (hu : blocksFor 64 bits.length + 8 < 2 ^ c.usz) :
    ∃ r, Rank9.new c (bvBitVec c 64) s = .ok r ∧ ∀ p v, bits[p]? = some v →
      ∃ k, (Rank9.ops c (bvBitVec c 64)).rank r p v = .ok (k + 1) ∧
        BinSearchSelect.select c (Rank9.ops c (bvBitVec c 64)) (.new r) k v = .ok (some p) := by
  obtain ⟨r, h1, h2⟩ := C39_bit_vector c hR hu
  exact ⟨r, h1, fun p v hp => C45_select_of_rank c h2 hp⟩

example (c : Cfg) : ∃ k, (primRank c 8).rank 0b10110100 5 true = .ok (k + 1) ∧
    BinSearchSelect.select c (primRank c 8) (.new 0b10110100) k true = .ok (some 5) :=
  C45_select_of_rank c (C36_words c isBlk8 0b10110100) (by decide)

/-! ### C42 for `BinSearchSelect` -/

/-- C42: the select wrapper shows the wrapped bits and answers rank queries as the wrapped structure does. -/
theorem C42_bin_search_select (o : BitVecOps w S) :
    Transparent BinSearchSelect.inner (BinSearchSelect.bitVec o) o ∧ ∀ s : S, (BinSearchSelect.new s).inner = s :=
  ⟨fun _ => ⟨rfl, rfl, fun _ => rfl, fun _ => rfl, fun _ _ => rfl⟩, fun _ => rfl⟩

theorem C42_bin_search_rank {r : RankOps S} {s : S} {bits : List Bool} (hr : RankLaw r s bits) :
    RankLaw (BinSearchSelect.rankOps r) (.new s) bits := ⟨hr.small, hr.limit, hr.rank1, hr.rank0, hr.rank⟩

/-! Each theorem of this file that has hypotheses is applied to concrete data in `Verif/Instances/Select.lean`. -/

end Succinct
