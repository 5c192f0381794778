import Verif.Props.Select
import Verif.Props.Reach
/-! Property C155: neighbours, counts and lists of positions from rank and select. The programs here are not in the crate;
they call its `rank` and `select`. -/
namespace Succinct
open Spec

section
variable {S : Type} (c : Cfg) (r : RankOps S) (s : S)

/-- `if p == 0 { 0 } else { s.rank(p - 1, v) }` -/
def rankBefore (p : Nat) (v : Bool) : Res Nat :=
  if p = 0 then .ok 0 else do
    let q ← subN c 64 p 1
    r.rank s q v

/-- `match s.rank(p, v) { 0 => None, n => s.select(n - 1, v) }` -/
def lastUpTo (p : Nat) (v : Bool) : Res (Option Nat) := do
  let n ← r.rank s p v
  if n = 0 then .ok none else do
    let k ← subN c 64 n 1
    BinSearchSelect.select c r (.new s) k v

/-- `s.select(if p == 0 { 0 } else { s.rank(p - 1, v) }, v)` -/
def firstFrom (p : Nat) (v : Bool) : Res (Option Nat) := do
  let k ← rankBefore c r s p v
  BinSearchSelect.select c r (.new s) k v

/-- The number of bits equal to `v` in `a .. b`, as a difference of two ranks. -/
def countIn (a b : Nat) (v : Bool) : Res Nat := do
  let x ← rankBefore c r s b v
  let y ← rankBefore c r s a v
  subN c 64 x y

/-- `while let Some(p) = s.select(k, v) { result.push(p); k += 1 }` -/
def collect (v : Bool) (k : Nat) (result : List Nat) : Res (List Nat) := do
  match ← BinSearchSelect.select c r (.new s) k v with
  | some p => do
    let k ← addN c 64 k 1
    collect v k (result ++ [p])
  | none => .ok result
partial_fixpoint

end

/-- The greatest place up to `p` that holds `v`. -/
def Spec.LastUpTo (v : Bool) (bits : List Bool) (p : Nat) : Option Nat → Prop
  | some q => q ≤ p ∧ bits[q]? = some v ∧ ∀ i, q < i → i ≤ p → bits[i]? ≠ some v
  | none => ∀ i ≤ p, bits[i]? ≠ some v

/-- The least place from `p` on that holds `v`. -/
def Spec.FirstFrom (v : Bool) (bits : List Bool) (p : Nat) : Option Nat → Prop
  | some q => p ≤ q ∧ bits[q]? = some v ∧ ∀ i, p ≤ i → i < q → bits[i]? ≠ some v
  | none => ∀ i, p ≤ i → bits[i]? ≠ some v

theorem occ_step {v : Bool} {bits : List Bool} {i : Nat} (h : bits[i]? = some v) : occ v bits (i + 1) = occ v bits i + 1 := by
  obtain ⟨h1, h2⟩ := List.getElem?_eq_some_iff.1 h
  rw [occ_succ v bits h1, if_pos h2]

theorem occ_le_count (v : Bool) (bits : List Bool) (p : Nat) : occ v bits p ≤ bits.count v :=
  (List.take_sublist p bits).count_le v

theorem occ_le (v : Bool) (bits : List Bool) (p : Nat) : occ v bits p ≤ p := by
  unfold occ
  exact Nat.le_trans List.count_le_length (by rw [List.length_take]; omega)

variable {S : Type} {r : RankOps S} {s : S} {bits : List Bool}

theorem rankBefore_ok (c : Cfg) (hr : RankLaw r s bits) {p : Nat} (hp : p ≤ bits.length) (v : Bool) :
    rankBefore c r s p v = .ok (occ v bits p) := by
  unfold rankBefore
  split
  · next h => subst h; simp [occ]
  · rw [subN_ok (by omega), Res.ok_bind, hr.rank _ (by omega) v, Nat.sub_add_cancel (by omega)]

/-- C155: the last place up to `p` that holds `v`. -/
theorem C155_last_up_to (c : Cfg) (hr : RankLaw r s bits) {p : Nat} (hp : p < bits.length) (v : Bool) :
    ∃ x, lastUpTo c r s p v = .ok x ∧ LastUpTo v bits p x := by
  have hs := hr.small
  rw [lastUpTo, hr.rank p hp v, Res.ok_bind]
  have hle := occ_le v bits (p + 1)
  by_cases h : occ v bits (p + 1) = 0
  · rw [if_pos h]
    refine ⟨none, rfl, fun i hi hv => ?_⟩
    have := occ_step hv
    have := occ_mono v bits (show i + 1 ≤ p + 1 by omega)
    omega
  · rw [if_neg h, subN_ok (by omega), Res.ok_bind]
    obtain ⟨x, h1, h2⟩ := (C44_select_partial c hr (k := occ v bits (p + 1) - 1) (by omega)).2.2 v
    refine ⟨x, h1, ?_⟩
    cases x with
    | none =>
      have h2 : bits.count v ≤ _ := h2
      have := occ_le_count v bits (p + 1)
      omega
    | some q =>
      obtain ⟨h3, h4⟩ := h2
      refine ⟨?_, h3, fun i hi hip hv => ?_⟩
      · apply Nat.le_of_not_lt
        intro h5
        have := occ_mono v bits (show p + 1 ≤ q by omega)
        omega
      · have := occ_step hv
        have := occ_step h3
        have := occ_mono v bits (show q + 1 ≤ i by omega)
        have := occ_mono v bits (show i + 1 ≤ p + 1 by omega)
        omega

/-- C155: the first place from `p` on that holds `v`. -/
theorem C155_first_from (c : Cfg) (hr : RankLaw r s bits) {p : Nat} (hp : p < bits.length) (v : Bool) :
    ∃ x, firstFrom c r s p v = .ok x ∧ FirstFrom v bits p x := by
  have hs := hr.small
  rw [firstFrom, rankBefore_ok c hr (by omega), Res.ok_bind]
  have hle := occ_le v bits p
  obtain ⟨x, h1, h2⟩ := (C44_select_partial c hr (k := occ v bits p) (by omega)).2.2 v
  refine ⟨x, h1, ?_⟩
  cases x with
  | none =>
    intro i hi hv
    have h2 : bits.count v ≤ _ := h2
    have := occ_step hv
    have := occ_mono v bits hi
    have := occ_le_count v bits (i + 1)
    omega
  | some q =>
    obtain ⟨h3, h4⟩ := h2
    refine ⟨?_, h3, fun i hi hip hv => ?_⟩
    · apply Nat.le_of_not_lt
      intro h5
      have := occ_step h3
      have := occ_mono v bits (show q + 1 ≤ p by omega)
      omega
    · have := occ_step hv
      have := occ_mono v bits hi
      have := occ_mono v bits (show i + 1 ≤ q by omega)
      omega

/-- C155: the number of places in `a .. b` that hold `v`. -/
theorem C155_count_in (c : Cfg) (hr : RankLaw r s bits) {a b : Nat} (hab : a ≤ b) (hb : b ≤ bits.length) (v : Bool) :
    countIn c r s a b v = .ok (((bits.take b).drop a).count v) := by
  have hs := hr.small
  rw [countIn, rankBefore_ok c hr hb, Res.ok_bind, rankBefore_ok c hr (by omega), Res.ok_bind,
    subN_ok (occ_mono v bits hab)]
  congr 1
  unfold occ
  have h : (bits.take b).take a ++ (bits.take b).drop a = bits.take b := List.take_append_drop _ _
  have h2 := congrArg (List.count v) h
  rw [List.count_append, List.take_take, Nat.min_eq_left hab] at h2
  omega

theorem collect_ok (c : Cfg) (hr : RankLaw r s bits) (hlen : bits.length + 1 < 2 ^ 64) (v : Bool) (p : Nat) (hp : p ≤ bits.length)
    (acc : List Nat) :
    collect c r s v (occ v bits p) acc =
      .ok (acc ++ ((List.range' p (bits.length - p)).filter fun i => bits[i]? = some v)) := by
  have hle := occ_le v bits p
  obtain ⟨n, hn⟩ : ∃ n, n = bits.length - p := ⟨_, rfl⟩
  rw [← hn]
  induction n generalizing p acc with
  | zero =>
    obtain rfl : p = bits.length := by omega
    obtain ⟨x, h1, h2⟩ := (C44_select_partial c hr (k := occ v bits bits.length) (by omega)).2.2 v
    have hx : x = none := by
      cases x with
      | none => rfl
      | some q =>
        obtain ⟨h3, h4⟩ := h2
        have hq := (List.getElem?_eq_some_iff.1 h3).1
        have := occ_step h3
        have := occ_mono v bits (show q + 1 ≤ bits.length by omega)
        omega
    rw [collect, h1, Res.ok_bind, hx]
    simp
  | succ n ih =>
    rw [List.range'_succ, List.filter_cons]
    have hpl : p < bits.length := by omega
    have hle' := occ_le v bits (p + 1)
    by_cases hv : bits[p]? = some v
    · obtain ⟨x, h1, h2⟩ := (C44_select_partial c hr (k := occ v bits p) (by omega)).2.2 v
      have hx : x = some p := isSelect_unique h2 (show IsSelect v bits _ (some p) from ⟨hv, rfl⟩)
      rw [collect, h1, Res.ok_bind, hx]
      simp only
      rw [addN_ok (by omega), Res.ok_bind, ← occ_step hv, ih (p + 1) (by omega) _ hle' (by omega)]
      simp [hv]
    · have h1 : occ v bits (p + 1) = occ v bits p := by
        rw [occ_succ v bits hpl, if_neg (fun h => hv (List.getElem?_eq_some_iff.2 ⟨hpl, h⟩)), Nat.add_zero]
      rw [← h1, ih (p + 1) (by omega) _ hle' (by omega)]
      simp [hv]

/-- C155: asking `select` for one place after the other until it answers `None` lists exactly the places that hold `v`, in
ascending order. -/
theorem C155_collect (c : Cfg) (hr : RankLaw r s bits) (hlen : bits.length + 1 < 2 ^ 64) (v : Bool) :
    collect c r s v 0 [] = .ok ((List.range bits.length).filter fun i => bits[i]? = some v) := by
  have h := collect_ok c hr hlen v 0 (Nat.zero_le _) []
  rwa [show occ v bits 0 = 0 by simp [occ], List.nil_append, Nat.sub_zero, ← List.range_eq_range'] at h

/-- C155 for a `BitVector<u64>` under `Rank9`. -/
theorem C155_bit_vector (c : Cfg) {s : VB 64} (hs : BvReach c 64 s bits) (hu : blocksFor 64 bits.length + 8 < 2 ^ c.usz)
    (hlen : bits.length + 1 < 2 ^ 64) :
    ∃ t, Rank9.new c (bvBitVec c 64) s = .ok t ∧ ∀ v,
      collect c (Rank9.ops c (bvBitVec c 64)) t v 0 [] = .ok ((List.range bits.length).filter fun i => bits[i]? = some v) ∧
      (∀ a b, a ≤ b → b ≤ bits.length → countIn c (Rank9.ops c (bvBitVec c 64)) t a b v = .ok (((bits.take b).drop a).count v)) ∧
      ∀ p < bits.length, (∃ x, lastUpTo c (Rank9.ops c (bvBitVec c 64)) t p v = .ok x ∧ LastUpTo v bits p x) ∧
        ∃ x, firstFrom c (Rank9.ops c (bvBitVec c 64)) t p v = .ok x ∧ FirstFrom v bits p x := by
  obtain ⟨t, h1, h2⟩ := C39_bit_vector c (hs.rep isBlk64) hu
  exact ⟨t, h1, fun v => ⟨C155_collect c h2 hlen v, fun a b hab hb => C155_count_in c h2 hab hb v,
    fun p hp => ⟨C155_last_up_to c h2 hp v, C155_first_from c h2 hp v⟩⟩⟩

end Succinct
