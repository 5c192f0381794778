import Verif.Model.Probes
import Verif.Lemmas.Select
import Verif.Lemmas.Terminates
import Verif.Props.Select
/-!
# C89–C91: binary search over arbitrary functions, and the cost of queries
-/
namespace Succinct
open Spec

/-- `d` is a point of `start .. limit` at which `g` reaches `value`, and it does not reach it just before. -/
def Crossing (start limit value : Nat) (g : Nat → Nat) (d : Nat) : Prop :=
  start ≤ d ∧ d < limit ∧ value ≤ g d ∧ (d = start ∨ g (d - 1) < value)

theorem searchLoopN_ok (c : Cfg) {bits value : Nat} {f : Nat → Res Nat} {g : Nat → Nat} (hb : 2 ≤ bits)
    {start limit : Nat} (h0 : 0 < start) (hl : limit < 2 ^ bits) (hf : ∀ i, start - 1 ≤ i → i < limit → f i = .ok (g i))
    (hv : g (start - 1) < value) (calls k : Nat) (hk : limit - start < 2 ^ k) :
    ∃ r n, searchLoopN c bits f value start limit calls = .ok (r, n) ∧ n ≤ calls + 2 * k ∧
      match r with
      | some d => start ≤ d ∧ d < limit ∧ value ≤ g d ∧ g (d - 1) < value
      | none => g (limit - 1) < value ∨ limit < start := by
  induction k generalizing start limit calls with
  | zero =>
    have : limit ≤ start := by simp at hk; omega
    rw [searchLoopN.eq_def, if_neg (by omega)]
    refine ⟨none, calls, rfl, by omega, ?_⟩
    rcases Nat.lt_or_ge limit start with h | h
    · exact .inr h
    · exact .inl (by rw [show limit = start by omega]; exact hv)
  | succ k ih =>
  have h2 : 2 ^ (k + 1) = 2 * 2 ^ k := by rw [Nat.pow_succ]; omega
  rw [searchLoopN.eq_def]
  by_cases hsl : start < limit
  · rw [if_pos hsl, average_ok c hb (by omega) hl, Res.ok_bind, hf _ (by omega) (by omega), Res.ok_bind]
    split
    · rename_i hvy
      rw [subN_ok (by omega), Res.ok_bind, hf _ (by omega) (by omega), Res.ok_bind]
      split
      · rename_i hz
        exact ⟨_, _, rfl, by omega, by omega, by omega, hvy, hz⟩
      · rename_i hz
        have hz' : (start + limit) / 2 - 1 ≠ start - 1 := by
          intro he; rw [he] at hz; omega
        obtain ⟨r, n, h1, h3, h4⟩ := ih (start := start) (limit := (start + limit) / 2) h0 (by omega)
          (fun i h1 h2 => hf i h1 (by omega)) hv (calls + 2) (by omega)
        refine ⟨r, n, h1, by omega, ?_⟩
        cases r with
        | some d => exact ⟨h4.1, by have := h4.2.1; omega, h4.2.2⟩
        | none => exact (by rcases h4 with h4 | h4 <;> omega : False).elim
    · rename_i hvy
      rw [addN_ok (by omega), Res.ok_bind]
      obtain ⟨r, n, h1, h3, h4⟩ := ih (start := (start + limit) / 2 + 1) (limit := limit) (by omega) hl
        (fun i h1 h2 => hf i (by omega) h2) (by rw [Nat.add_sub_cancel]; omega) (calls + 1) (by omega)
      refine ⟨r, n, h1, by omega, ?_⟩
      cases r with
      | some d => exact ⟨by have := h4.1; omega, h4.2⟩
      | none => exact .inl (by rcases h4 with h4 | h4; exact h4; omega)
  · rw [if_neg hsl]
    refine ⟨none, calls, rfl, by omega, ?_⟩
    rcases Nat.lt_or_ge limit start with h | h
    · exact .inr h
    · exact .inl (by rw [show limit = start by omega]; exact hv)

/-! ### Forgetting the counter -/

/-- `x` is `y` without the counter. -/
def Forgets (x : Res (Option Nat)) (y : Res (Option Nat × Nat)) : Prop := x = y >>= fun p => .ok p.1

theorem Res.bind_assoc' (x : Res α) (f : α → Res β) (g : β → Res γ) : (x >>= f) >>= g = x >>= fun a => f a >>= g := by
  cases x <;> rfl

theorem Res.bind_congr' {x : Res α} {f g : α → Res β} (h : ∀ a, x = .ok a → f a = g a) : x >>= f = x >>= g := by
  cases x with
  | ok a => exact h a rfl
  | _ => rfl

theorem searchLoop_forget (c : Cfg) {bits value : Nat} {f : Nat → Res Nat} (hb : 2 ≤ bits) {start limit : Nat}
    (hl : limit < 2 ^ bits) (calls : Nat) :
    Forgets (searchLoop c bits f value start limit) (searchLoopN c bits f value start limit calls) := by
  generalize hm : limit - start = m
  induction m using Nat.strongRecOn generalizing start limit calls with
  | ind m ih =>
  unfold Forgets
  rw [searchLoop.eq_def, searchLoopN.eq_def]
  by_cases hsl : start < limit
  · rw [if_pos hsl, if_pos hsl, average_ok c hb (by omega) hl, Res.ok_bind, Res.ok_bind, Res.bind_assoc']
    apply Res.bind_congr'
    intro y _
    by_cases hy : value ≤ y
    · rw [if_pos hy, if_pos hy, Res.bind_assoc']
      apply Res.bind_congr'
      intro m' _
      rw [Res.bind_assoc']
      apply Res.bind_congr'
      intro z _
      split
      · rfl
      · exact ih ((start + limit) / 2 - start) (by omega) (by omega) _ rfl
    · rw [if_neg hy, if_neg hy, addN_ok (by omega), Res.ok_bind, Res.ok_bind]
      exact ih (limit - ((start + limit) / 2 + 1)) (by omega) hl _ rfl
  · rw [if_neg hsl, if_neg hsl]; rfl

/-- The counting search is the search of `Model/Select.lean` with a counter, for every `f` (which may panic or
diverge anywhere). -/
theorem binarySearch_forget (c : Cfg) {bits start limit value : Nat} {f : Nat → Res Nat} (hb : 2 ≤ bits)
    (hl : limit < 2 ^ bits) :
    Forgets (binarySearch c bits start limit value f) (binarySearchN c bits start limit value f) := by
  unfold Forgets binarySearch binarySearchN
  split
  · rfl
  · rw [Res.bind_assoc']
    apply Res.bind_congr'
    intro y _
    split
    · rfl
    · rw [addN_ok (by omega), Res.ok_bind, Res.ok_bind]
      exact searchLoop_forget c hb hl _

/-! ### C89 -/

/-- C89. For an arbitrary function `g`, not necessarily monotone: the search ends without overflow and without
evaluating `f` outside the interval, at a crossing point, or with `None`, and then the last point of the interval does
not reach the value; it calls `f` at most `2k+1` times when the interval has at most `2^k` points. -/
theorem C89_any_function (c : Cfg) {bits start limit value : Nat} {f : Nat → Res Nat} {g : Nat → Nat} (hb : 2 ≤ bits)
    (hl : limit < 2 ^ bits) (hf : ∀ i, start ≤ i → i < limit → f i = .ok (g i)) (k : Nat) (hk : limit - start ≤ 2 ^ k) :
    ∃ r n, binarySearch c bits start limit value f = .ok r ∧ binarySearchN c bits start limit value f = .ok (r, n) ∧
      n ≤ 2 * k + 1 ∧
      match r with
      | some d => Crossing start limit value g d
      | none => limit ≤ start ∨ g (limit - 1) < value := by
  have hp := binarySearch_forget c (start := start) (limit := limit) (value := value) (f := f) hb hl
  suffices h : ∃ r n, binarySearchN c bits start limit value f = .ok (r, n) ∧ n ≤ 2 * k + 1 ∧
      match (generalizing := false) r with
      | some d => Crossing start limit value g d
      | none => limit ≤ start ∨ g (limit - 1) < value by
    obtain ⟨r, n, h1, h2, h3⟩ := h
    refine ⟨r, n, ?_, h1, h2, h3⟩
    unfold Forgets at hp
    rw [hp, h1]; rfl
  unfold binarySearchN
  by_cases h : limit ≤ start
  · rw [if_pos h]
    exact ⟨none, 0, rfl, by omega, .inl h⟩
  · rw [if_neg h, hf start (by omega) (by omega), Res.ok_bind]
    split
    · rename_i hv
      exact ⟨_, 1, rfl, by omega, by omega, by omega, hv, .inl rfl⟩
    · rename_i hv
      rw [addN_ok (by omega), Res.ok_bind]
      obtain ⟨r, n, h1, h2, h3⟩ := searchLoopN_ok c (f := f) (g := g) (value := value) (start := start + 1) (limit := limit)
        hb (by omega) hl (fun i h1 h2 => hf i (by omega) h2) (by rw [Nat.add_sub_cancel]; omega) 1 k (by omega)
      refine ⟨r, n, h1, by omega, ?_⟩
      cases r with
      | some d => exact ⟨by have := h3.1; omega, h3.2.1, h3.2.2.1, .inr h3.2.2.2⟩
      | none => exact .inr (by rcases h3 with h3 | h3; exact h3; omega)

theorem searchLoop_ends (c : Cfg) {bits value : Nat} {f : Nat → Res Nat} (hb : 2 ≤ bits) (hf : ∀ i, Ends (f i))
    {start limit : Nat} (hl : limit < 2 ^ bits) : Ends (searchLoop c bits f value start limit) := by
  generalize hm : limit - start = m
  induction m using Nat.strongRecOn generalizing start limit with
  | ind m ih =>
  rw [searchLoop.eq_def]
  split
  · rw [average_ok c hb (by omega) hl, Res.ok_bind]
    refine (hf _).bind fun y => ?_
    split
    · refine Ends.subN.bind fun m' => (hf _).bind fun z => ?_
      split
      · exact .ok _
      · exact ih ((start + limit) / 2 - start) (by omega) (by omega) rfl
    · rw [addN_ok (by omega), Res.ok_bind]
      exact ih (limit - ((start + limit) / 2 + 1)) (by omega) hl rfl
  · exact .ok _

/-- C89. If `f` may panic but always ends, so does the search. -/
theorem C89_terminates (c : Cfg) {bits start limit value : Nat} {f : Nat → Res Nat} (hb : 2 ≤ bits)
    (hl : limit < 2 ^ bits) (hf : ∀ i, f i ≠ .diverge) : binarySearch c bits start limit value f ≠ .diverge := by
  have he : ∀ i, Ends (f i) := fun i => ⟨hf i⟩
  suffices h : Ends (binarySearch c bits start limit value f) from h.ne
  unfold binarySearch
  split
  · exact .ok _
  · refine (he _).bind fun y => ?_
    split
    · exact .ok _
    · refine Ends.addN.bind fun s => searchLoop_ends c hb he hl

/-- A function that is not monotone: the search ends at some odd number, after at most 7 calls. -/
example (c : Cfg) : ∃ d n, binarySearchN c 64 0 8 3 (fun i => .ok (if i % 2 = 1 then 5 else 0)) = .ok (some d, n) ∧
    d < 8 ∧ d % 2 = 1 ∧ n ≤ 7 := by
  obtain ⟨r, n, -, h2, h3, h4⟩ := C89_any_function c (bits := 64) (start := 0) (limit := 8) (value := 3)
    (f := fun i => .ok (if i % 2 = 1 then 5 else 0)) (g := fun i => if i % 2 = 1 then 5 else 0) (by decide) (by decide)
    (fun _ _ _ => rfl) 3 (by decide)
  cases r with
  | none => rcases h4 with h4 | h4 <;> simp at h4
  | some d =>
    refine ⟨d, n, h2, h4.2.1, ?_, h3⟩
    have := h4.2.2.1
    by_cases hd : d % 2 = 1
    · exact hd
    · simp [hd] at this

/-- C90. Select by binary search asks at most `2k+1` rank queries of a vector of at most `2^k` bits, so never more
than 129. -/
theorem C90_select_cost (c : Cfg) {r : RankOps S} {s : S} {bits : List Bool} (hr : RankLaw r s bits) {idx : Nat}
    (hi : idx + 1 < 2 ^ 64) (v : Bool) (k : Nat) (hk : bits.length ≤ 2 ^ k) :
    ∃ x n, BinSearchSelect.select c r (.new s) idx v = .ok x ∧
      BinSearchSelect.selectByN c r (fun s i => r.rank s i v) (.new s) idx = .ok (x, n) ∧ n ≤ 2 * k + 1 ∧ n ≤ 129 := by
  have hlim : (BinSearchSelect.rankOps r).limit (BinSearchSelect.new s) = .ok bits.length := hr.limit
  have hs := hr.small
  have hf : ∀ i, 0 ≤ i → i < bits.length → r.rank s i v = .ok (occ v bits (i + 1)) := fun i _ h => hr.rank i h v
  obtain ⟨x, n, h1, h2, h3, -⟩ := C89_any_function c (bits := 64) (value := idx + 1) (by omega) hs hf k (by omega)
  obtain ⟨x', n', -, h2', h3', -⟩ := C89_any_function c (bits := 64) (value := idx + 1) (by omega) hs hf 64 (by omega)
  rw [h2] at h2'
  cases h2'
  refine ⟨x, n, ?_, ?_, h3, h3'⟩
  · show (BinSearchSelect.selectBy c r (fun s i => r.rank s i v) (.new s) idx) = _
    unfold BinSearchSelect.selectBy
    rw [hlim, Res.ok_bind, addN_ok hi, Res.ok_bind]
    exact h1
  · unfold BinSearchSelect.selectByN
    rw [hlim, Res.ok_bind, addN_ok hi, Res.ok_bind]
    exact h2

/-- Four ones in a byte: the query for the third asks 6 of at most 7 rank queries. -/
example : BinSearchSelect.selectByN ⟨true, .p64, true⟩ (primRank ⟨true, .p64, true⟩ 8) (fun s i => (primRank ⟨true, .p64, true⟩ 8).rank s i true)
    (.new 0b10110100) 2 = .ok (some 5, 6) := by
  show searchLoopN ⟨true, .p64, true⟩ 64 (fun i => (primRank ⟨true, .p64, true⟩ 8).rank 0b10110100 i true) 3 1 8 1 = _
  rw [searchLoopN.eq_def]
  show searchLoopN ⟨true, .p64, true⟩ 64 (fun i => (primRank ⟨true, .p64, true⟩ 8).rank 0b10110100 i true) 3 5 8 2 = _
  rw [searchLoopN.eq_def]
  show searchLoopN ⟨true, .p64, true⟩ 64 (fun i => (primRank ⟨true, .p64, true⟩ 8).rank 0b10110100 i true) 3 5 6 4 = _
  rw [searchLoopN.eq_def]
  rfl

theorem searchLoopN_none (c : Cfg) {bits value : Nat} {f : Nat → Res Nat} {g : Nat → Nat} (hb : 2 ≤ bits)
    {start limit : Nat} (hl : limit < 2 ^ bits) (hsl : start ≤ limit) (hf : ∀ i, start ≤ i → i < limit → f i = .ok (g i))
    (hv : ∀ i, start ≤ i → i < limit → g i < value) (calls : Nat) :
    searchLoopN c bits f value start limit calls = .ok (none, calls + Nat.log2 (limit - start + 1)) := by
  generalize hm : limit - start = m
  induction m using Nat.strongRecOn generalizing start limit calls with
  | ind m ih =>
  rw [searchLoopN.eq_def]
  by_cases hlt : start < limit
  · have hmid : start ≤ (start + limit) / 2 ∧ (start + limit) / 2 < limit := by omega
    rw [if_pos hlt, average_ok c hb (by omega) hl, Res.ok_bind, hf _ hmid.1 hmid.2, Res.ok_bind,
      if_neg (by have := hv _ hmid.1 hmid.2; omega), addN_ok (by omega), Res.ok_bind,
      ih (limit - ((start + limit) / 2 + 1)) (by omega) hl (by omega) (fun i h1 h2 => hf i (by omega) h2)
        (fun i h1 h2 => hv i (by omega) h2) _ rfl,
      Nat.log2_def (m + 1), if_pos (by omega),
      show limit - ((start + limit) / 2 + 1) + 1 = (m + 1) / 2 by omega, Nat.add_assoc, Nat.add_comm 1]
  · rw [if_neg hlt, show m = 0 by omega]; rfl

theorem searchLoopN_left (c : Cfg) {bits value : Nat} {f : Nat → Res Nat} {g : Nat → Nat} (hb : 2 ≤ bits) (k : Nat)
    (hl : 2 ^ k < 2 ^ bits) (hf : ∀ i, i < 2 ^ k → f i = .ok (g i)) (h0 : g 0 < value)
    (hv : ∀ i, 1 ≤ i → i < 2 ^ k → value ≤ g i) (hk : 1 ≤ k) (calls : Nat) :
    searchLoopN c bits f value 1 (2 ^ k) calls = .ok (some 1, calls + 2 * k) := by
  induction k generalizing calls with
  | zero => omega
  | succ k ih =>
    have h2 : 2 ^ (k + 1) = 2 * 2 ^ k := by rw [Nat.pow_succ]; omega
    have hp := Nat.two_pow_pos k
    have hmid : (1 + 2 ^ (k + 1)) / 2 = 2 ^ k := by omega
    rw [searchLoopN.eq_def, if_pos (by omega), average_ok c hb (by omega) hl, Res.ok_bind, hmid, hf _ (by omega), Res.ok_bind,
      if_pos (hv _ (by omega) (by omega)), subN_ok (by omega), Res.ok_bind, hf _ (by omega), Res.ok_bind]
    rcases Nat.eq_zero_or_pos k with rfl | hk'
    · rw [if_pos h0]
    · have h3 : 2 ≤ 2 ^ k := by
        have := Nat.pow_le_pow_right (n := 2) (by omega) hk'; omega
      rw [if_neg (by have := hv (2 ^ k - 1) (by omega) (by omega); omega),
        ih (by omega) (fun i hi => hf i (by omega)) (fun i h1 hi => hv i h1 (by omega)) hk', show calls + 2 + 2 * k = calls + 2 * (k + 1) by omega]

/-- C90. The number of queries does grow with the logarithm of the length: a select that finds nothing in `n ≥ 1` bits asks
exactly `⌊lg n⌋ + 1` rank queries. (README.md promises `O(lg lg n)` time.) -/
theorem C90_unsuccessful (c : Cfg) {r : RankOps S} {s : S} {bits : List Bool} (hr : RankLaw r s bits) {idx : Nat}
    (hi : idx + 1 < 2 ^ 64) (v : Bool) (h0 : 0 < bits.length) (hn : bits.count v ≤ idx) :
    BinSearchSelect.selectByN c r (fun s i => r.rank s i v) (.new s) idx = .ok (none, Nat.log2 bits.length + 1) := by
  have hlim : (BinSearchSelect.rankOps r).limit (BinSearchSelect.new s) = .ok bits.length := hr.limit
  have hs := hr.small
  have hf : ∀ i, i < bits.length → r.rank s i v = .ok (occ v bits (i + 1)) := fun i h => hr.rank i h v
  have hv : ∀ i, occ v bits i < idx + 1 := by
    intro i
    have : (bits.take i).count v ≤ bits.count v := (List.take_sublist i bits).count_le v
    exact Nat.lt_succ_of_le (Nat.le_trans this hn)
  unfold BinSearchSelect.selectByN
  rw [hlim, Res.ok_bind, addN_ok hi, Res.ok_bind]
  show binarySearchN c 64 0 bits.length (idx + 1) (fun i => r.rank s i v) = _
  unfold binarySearchN
  rw [if_neg (by omega), show (fun i => r.rank s i v) 0 = _ from hf 0 h0, Res.ok_bind, if_neg (by have := hv (0 + 1); omega), addN_ok (by omega), Res.ok_bind,
    searchLoopN_none c (g := fun i => occ v bits (i + 1)) (by omega) hs (by omega) (fun i _ h => hf i h) (fun i _ _ => hv (i + 1)),
    show bits.length - (0 + 1) + 1 = bits.length by omega, Nat.add_comm]

/-- C90. The bound `2k+1` is attained at every length `2^k`: by the first occurrence, if it is at position 1. -/
theorem C90_attained (c : Cfg) {r : RankOps S} {s : S} {bits : List Bool} (hr : RankLaw r s bits) (v : Bool) {k : Nat}
    (hk : 1 ≤ k) (hlen : bits.length = 2 ^ k) (h0 : bits[0]? = some (!v)) (h1 : bits[1]? = some v) :
    BinSearchSelect.selectByN c r (fun s i => r.rank s i v) (.new s) 0 = .ok (some 1, 2 * k + 1) := by
  have hlim : (BinSearchSelect.rankOps r).limit (BinSearchSelect.new s) = .ok bits.length := hr.limit
  have hs := hr.small
  have hf : ∀ i, i < bits.length → r.rank s i v = .ok (occ v bits (i + 1)) := fun i h => hr.rank i h v
  obtain ⟨rest, rfl⟩ : ∃ rest, bits = (!v) :: v :: rest := by
    rcases bits with _ | ⟨a, _ | ⟨b, rest⟩⟩
    · simp at h0
    · simp at h1
    · simp at h0 h1; exact ⟨rest, by rw [h0, h1]⟩
  have hz : occ v ((!v) :: v :: rest) 1 = 0 := by
    cases v <;> rfl
  have hv : ∀ i, 1 ≤ i → 1 ≤ occ v ((!v) :: v :: rest) (i + 1) := by
    intro i hi
    obtain ⟨j, rfl⟩ : ∃ j, i = j + 1 := ⟨i - 1, by omega⟩
    simp only [occ, List.take_succ_cons]
    rw [List.count_cons_of_ne (by cases v <;> decide), List.count_cons_self]
    omega
  have hp := Nat.two_pow_pos k
  unfold BinSearchSelect.selectByN
  rw [hlim, Res.ok_bind, addN_ok (by omega), Res.ok_bind, hlen]
  show binarySearchN c 64 0 (2 ^ k) (0 + 1) (fun i => r.rank s i v) = _
  rw [hlen] at hf hs
  unfold binarySearchN
  rw [if_neg (by omega), show (fun i => r.rank s i v) 0 = _ from hf 0 hp, Res.ok_bind, if_neg (by rw [Nat.zero_add, hz]; omega), addN_ok (by omega), Res.ok_bind,
    searchLoopN_left c (g := fun i => occ v ((!v) :: v :: rest) (i + 1)) (by omega) k hs hf (by show occ _ _ 1 < _; rw [hz]; omega)
      (fun i h1 _ => hv i h1) hk, Nat.add_comm]

/-- A byte of zeros: the search for a one asks `⌊lg 8⌋ + 1 = 4` queries. With the only one at position 1 it asks 7. -/
example (c : Cfg) : BinSearchSelect.selectByN c (primRank c 8) (fun s i => (primRank c 8).rank s i true) (.new 0#8) 0 = .ok (none, 4) ∧
    BinSearchSelect.selectByN c (primRank c 8) (fun s i => (primRank c 8).rank s i true) (.new 2#8) 0 = .ok (some 1, 7) :=
  ⟨C90_unsuccessful c (C36_words c (by decide) 0#8) (by omega) true (by decide) (by decide),
    C90_attained c (C36_words c (by decide) 2#8) true (k := 3) (by omega) (by decide) (by decide) (by decide)⟩

/-! ### C91: what a query reads -/

/-- C91. `Rank9::rank1(p)` reads one cell of the directory and one block of the data: it gives the same answer on any
two structures, over any two bit vectors, that agree on those. -/
theorem C91_rank9 (c : Cfg) (o : BitVecOps 64 S) (o' : BitVecOps 64 S') (s : Rank9 S) (s' : Rank9 S') (p : Nat)
    (hc : s.counts[p / 512]? = s'.counts[p / 512]?)
    (hb : o.getBlock s.bitStore (p / 64) = o'.getBlock s'.bitStore (p / 64)) :
    Rank9.rank1 c o s p = Rank9.rank1 c o' s' p := by
  unfold Rank9.rank1
  unfold toUsize
  split
  · rw [show expectR (some (p / 512)) = .ok (p / 512) from rfl, Res.ok_bind, Res.ok_bind]
    split
    · rw [show expectR (some (p / 64)) = .ok (p / 64) from rfl, Res.ok_bind, Res.ok_bind]
      have hg : vecGet s.counts (p / 512) = vecGet s'.counts (p / 512) := by unfold vecGet; rw [hc]
      rw [hg, hb]
    · rfl
  · rfl

/-- C91. `JacobsonRank::rank1(p)` reads one entry of each directory and one block of the data. -/
theorem C91_jacobson (c : Cfg) (h : IsBlk w) (o : BitVecOps w S) (o' : BitVecOps w S') (s : Jacobson S) (s' : Jacobson S') (p : Nat)
    (hn : o.bitLen s.bitStore = o'.bitLen s'.bitStore) (hz : s.largeBlockSize = s'.largeBlockSize)
    (hl : s.largeBlockRanks.get c (p / s.largeBlockSize) = s'.largeBlockRanks.get c (p / s.largeBlockSize))
    (hs : s.smallBlockRanks.get c (p / w) = s'.smallBlockRanks.get c (p / w))
    (hb : o.getBlock s.bitStore (p / w) = o'.getBlock s'.bitStore (p / w)) :
    Jacobson.rank1 c o s p = Jacobson.rank1 c o' s' p := by
  unfold Jacobson.rank1
  rw [hn, ← hz]
  apply Res.bind_congr'
  intro n _
  apply Res.bind_congr'
  intro _ _
  unfold divN
  split
  · rfl
  · rw [Res.ok_bind, Res.ok_bind, addrNew_eq c h]
    split
    · rw [Res.ok_bind, Res.ok_bind, hl, hs, hb]
    · rfl

/-- C91. The default `get_bits` reads at most two blocks, at any width and position. -/
theorem C91_get_bits (c : Cfg) (h : IsBlk w) (o : BitVecOps w S) (o' : BitVecOps w S') (s : S) (s' : S') (p n : Nat)
    (hl : o.bitLen s = o'.bitLen s') (h1 : o.getBlock s (p / w) = o'.getBlock s' (p / w))
    (h2 : o.getBlock s ((p / w + 1) % 2 ^ c.usz) = o'.getBlock s' ((p / w + 1) % 2 ^ c.usz)) :
    dfltGetBits c o.bitLen o.getBlock s p n = dfltGetBits c o'.bitLen o'.getBlock s' p n := by
  unfold dfltGetBits
  rw [hl]
  apply Res.bind_congr'
  intro _ _
  apply Res.bind_congr'
  intro _ _
  apply Res.bind_congr'
  intro _ _
  rw [addrNew_eq c h]
  split
  · rename_i hu
    rw [Res.ok_bind, Res.ok_bind, h1]
    simp only
    apply Res.bind_congr'
    intro m _
    split
    · rfl
    · apply Res.bind_congr'
      intro e _
      apply Res.bind_congr'
      intro b _
      apply Res.bind_congr'
      intro i hi
      have : i = (p / w + 1) % 2 ^ c.usz := by
        unfold addN overflow at hi
        split at hi
        · rename_i hlt
          cases hi
          rw [Nat.mod_eq_of_lt hlt]
        · split at hi
          · cases hi
          · cases hi; rfl
      rw [this, h2]
  · rfl

/-- Bits outside block 1 do not matter for `rank1(100)` beyond their counts: two vectors with equal directories. -/
example (c : Cfg) : Rank9.rank1 c (vecBitVec c 64) ⟨[0x0F#64, 0xFF#64], [⟨0, 0x04#64⟩]⟩ 100 =
    Rank9.rank1 c (vecBitVec c 64) ⟨[0xF0#64, 0xFF#64], [⟨0, 0x04#64⟩]⟩ 100 ∧
    Rank9.rank1 ⟨true, .p64, true⟩ (vecBitVec ⟨true, .p64, true⟩ 64) ⟨[0xF0#64, 0xFF#64], [⟨0, 0x04#64⟩]⟩ 100 = .ok 12 :=
  ⟨C91_rank9 c _ _ _ _ 100 rfl rfl, by decide⟩

/-! Each theorem of this file that has hypotheses is applied to concrete data in `Verif/Instances/Search.lean`. -/

end Succinct
