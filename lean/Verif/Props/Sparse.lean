import Verif.Props.Parentheses
import Verif.Props.Neighbours
import Verif.Props.BitVector
/-! Property C180: arrays with gaps as one bit vector under rank and select and one integer vector. The programs here are not in the crate; they
call its `push_bit`, `get_bit`, `rank`, `select1` and the methods of `IntVector`. -/
namespace Succinct
open Spec

/-- The bits under rank and select, and the values without gaps. -/
structure Sparse where
  rank : Rank9 (VB 64)
  values : IV 64

section
variable (c : Cfg)

/-- `for a in as { match a { None => b.push_bit(false), Some(x) => { b.push_bit(true); t.push(x) } } }` -/
def sparseFill : List (Option Nat) → VB 64 → IV 64 → Res (VB 64 × IV 64)
  | [], b, t => .ok (b, t)
  | none :: as, b, t => do
    let b ← (bvBitVecPush c 64).pushBit b false
    sparseFill as b t
  | some x :: as, b, t => do
    let b ← (bvBitVecPush c 64).pushBit b true
    let t ← t.push c (BitVec.ofNat 64 x)
    sparseFill as b t

/-- The same for an empty vector of elements of `k` bits, and rank over the bits. -/
def sparseNew (k : Nat) (as : List (Option Nat)) : Res Sparse := do
  let t ← IV.new 64 k
  let (b, t) ← sparseFill c as VB.new t
  let r ← Rank9.new c (bvBitVec c 64) b
  .ok ⟨r, t⟩

variable (A : Sparse)

/-- `if b.get_bit(i) { Some(if i == 0 { 0 } else { b.rank1(i - 1) }) } else { None }`: which of the values is at place `i`. -/
def Sparse.find (i : Nat) : Res (Option Nat) := do
  let v ← (bvBitVec c 64).getBit A.rank.inner i
  if v then do
    let j ← rankBefore c (Rank9.ops c (bvBitVec c 64)) A.rank i true
    .ok (some j)
  else .ok none

/-- `find(i).map(|j| t.get(j))` -/
def Sparse.get (i : Nat) : Res (Option (BitVec 64)) := do
  let j ← A.find c i
  match j with
  | none => .ok none
  | some j => do
    let x ← A.values.get c j
    .ok (some x)

/-- `if let Some(j) = find(i) { t.set(j, x); true } else { false }`: only a value can be replaced. -/
def Sparse.put (i : Nat) (x : BitVec 64) : Res (Bool × Sparse) := do
  let j ← A.find c i
  match j with
  | none => .ok (false, A)
  | some j => do
    let t ← A.values.set c j x
    .ok (true, { A with values := t })

/-- `(b.select1(j).unwrap(), t.get(j))`: value `j` and its place. -/
def Sparse.entry (j : Nat) : Res (Nat × BitVec 64) := do
  let p ← bpOpen c A.rank j
  let x ← A.values.get c j
  .ok (p, x)
end

/-- The structure holds this array. -/
structure HoldsArray (c : Cfg) (k : Nat) (A : Sparse) (as : List (Option Nat)) : Prop where
  bits : HoldsBits c A.rank (as.map Option.isSome)
  values : IR c 64 k A.values (as.filterMap id)

theorem isSome_count (as : List (Option Nat)) : (as.map Option.isSome).count true = (as.filterMap id).length := by
  induction as with
  | nil => rfl
  | cons a as ih => cases a <;> simp [ih]

section
variable {c : Cfg} {k : Nat} {A : Sparse} {as : List (Option Nat)}

theorem sparseFill_ok (c : Cfg) {k : Nat} {b : VB 64} {t : IV 64} {bits : List Bool} {ys : List Nat} (as : List (Option Nat)) (hb : bvR c 64 b bits)
    (ht : IR c 64 k t ys) (hx : ∀ x, some x ∈ as → x < 2 ^ k) (hf : Fits c.usz 64 (bits.length + as.length))
    (hg : Fits c.usz 64 ((ys.length + (as.filterMap id).length) * k)) :
    ∃ b' t', sparseFill c as b t = .ok (b', t') ∧ bvR c 64 b' (bits ++ as.map Option.isSome) ∧ IR c 64 k t' (ys ++ as.filterMap id) := by
  have hk := Nat.pow_le_pow_right (n := 2) (by omega) ht.le
  induction as generalizing b t bits ys with
  | nil => exact ⟨b, t, rfl, by simpa using hb, by simpa using ht⟩
  | cons a as ih =>
    rw [List.length_cons] at hf
    cases a with
    | none =>
      obtain ⟨b1, e1, r1⟩ := bv_pushBit c isBlk64 hb false (hf.mono (by omega))
      obtain ⟨b2, t2, e2, r2, r3⟩ := ih r1 ht (fun x h => hx x (List.mem_cons_of_mem _ h))
        (by rw [List.length_append, List.length_singleton, Nat.add_assoc, Nat.add_comm 1]; exact hf) hg
      exact ⟨b2, t2, by rw [sparseFill, e1, Res.ok_bind, e2], by simpa using r2, by simpa using r3⟩
    | some x =>
      have hxk := hx x (by simp)
      have e : (BitVec.ofNat 64 x).toNat = x := by rw [BitVec.toNat_ofNat, Nat.mod_eq_of_lt (by omega)]
      have hl : ((some x :: as).filterMap id).length = (as.filterMap id).length + 1 := rfl
      rw [hl] at hg
      obtain ⟨b1, e1, r1⟩ := bv_pushBit c isBlk64 hb true (hf.mono (by omega))
      obtain ⟨t1, e2, r2⟩ := ht.push_ok isBlk64 (BitVec.ofNat 64 x) (hg.mono (by
        rw [← Nat.succ_mul]
        exact Nat.mul_le_mul_right _ (by omega))) (by rw [e]; exact hxk)
      rw [e] at r2
      obtain ⟨b2, t2, e3, r3, r4⟩ := ih r1 r2 (fun x h => hx x (List.mem_cons_of_mem _ h))
        (by rw [List.length_append, List.length_singleton, Nat.add_assoc, Nat.add_comm 1]; exact hf)
        (by rw [List.length_append, List.length_singleton, Nat.add_assoc, Nat.add_comm 1]; exact hg)
      exact ⟨b2, t2, by rw [sparseFill, e1, Res.ok_bind, e2, Res.ok_bind, e3], by simpa using r3, by simpa using r4⟩

theorem HoldsArray.find_ok (h : HoldsArray c k A as) {i : Nat} (hi : i < as.length) :
    A.find c i = .ok (as[i].map fun _ => ((as.take i).filterMap id).length) := by
  have e : as = as.take i ++ as[i] :: as.drop (i + 1) := by rw [List.getElem_cons_drop, List.take_append_drop]
  have hb := h.bits
  have hr := rankBefore_ok c hb.rank (p := i) (by simp; omega) true
  rw [occ, ← List.map_take, isSome_count] at hr
  rw [e, List.map_append, List.map_cons] at hb
  have hg := hb.getBit
  rw [List.length_map, List.length_take, Nat.min_eq_left (by omega)] at hg
  rw [Sparse.find, hg, Res.ok_bind]
  cases as[i] with
  | none => rfl
  | some x => rw [Option.isSome_some, if_pos rfl, hr]; rfl

theorem filterMap_at {i x : Nat} (hi : i < as.length) (hx : as[i] = some x) :
    as.filterMap id = (as.take i).filterMap id ++ x :: (as.drop (i + 1)).filterMap id := by
  have e : as = as.take i ++ as[i] :: as.drop (i + 1) := by rw [List.getElem_cons_drop, List.take_append_drop]
  conv => lhs; rw [e, hx]
  simp

/-- C180: reading a place. -/
theorem C180_get (h : HoldsArray c k A as) {i : Nat} (hi : i < as.length) : A.get c i = .ok (as[i].map (BitVec.ofNat 64)) := by
  rw [Sparse.get, h.find_ok hi, Res.ok_bind]
  cases hx : as[i] with
  | none => rfl
  | some x =>
    have hf := filterMap_at hi hx
    obtain ⟨y, e, hy⟩ := h.values.get_ok isBlk64 (i := ((as.take i).filterMap id).length) (by rw [hf]; simp)
    have hyx : y.toNat = x := by rw [hy]; simp [hf]
    show (A.values.get c _).bind _ = _
    rw [e, Option.map_some, ← hyx, BitVec.ofNat_toNat, BitVec.setWidth_eq]
    rfl

/-- C180: reading a place that the array does not have panics. -/
theorem C180_outside (h : HoldsArray c k A as) {i : Nat} (hi : as.length ≤ i) (h64 : i < 2 ^ 64) : A.get c i = .panic := by
  have := (bv_law c isBlk64).getBit h.bits.inner i h64
  rw [List.getElem?_eq_none (by simpa using hi)] at this
  rw [Sparse.get, Sparse.find, this]
  rfl

/-- C180: replacing a value changes the array there and nowhere else; a gap stays a gap. -/
theorem C180_put (h : HoldsArray c k A as) {i : Nat} (hi : i < as.length) {x : BitVec 64} (hx : x.toNat < 2 ^ k) :
    ∃ A', A.put c i x = .ok (as[i].isSome, A') ∧ HoldsArray c k A' (as.set i (as[i].map fun _ => x.toNat)) := by
  rw [Sparse.put, h.find_ok hi, Res.ok_bind]
  cases hy : as[i] with
  | none =>
    refine ⟨A, rfl, ?_⟩
    rw [Option.map_none, ← hy, List.set_getElem_self]
    exact h
  | some y =>
    have hf := filterMap_at hi hy
    obtain ⟨t, e, r⟩ := h.values.set_ok isBlk64 (i := ((as.take i).filterMap id).length) (by rw [hf]; simp) hx
    refine ⟨{ A with values := t }, ?_, ?_, ?_⟩
    · show (A.values.set c _ x).bind _ = _
      rw [e]
      rfl
    · have e2 : (as.set i (some x.toNat)).map Option.isSome = as.map Option.isSome := by
        rw [List.map_set, show (some x.toNat).isSome = (as.map Option.isSome)[i]'(by simpa using hi) by simp [hy], List.set_getElem_self]
      rw [Option.map_some, e2]
      exact h.bits
    · have hi' : i < (as.set i (some x.toNat)).length := by simpa using hi
      have e2 := filterMap_at (as := as.set i (some x.toNat)) hi' (x := x.toNat) (by simp)
      rw [List.take_set_of_le (Nat.le_refl i), List.drop_set_of_lt (by omega)] at e2
      rw [Option.map_some, e2]
      rw [hf, List.set_append_right _ _ (Nat.le_refl _), Nat.sub_self, List.set_cons_zero] at r
      exact r

/-- C180: value `j` is at the place with `j` values before it. -/
theorem C180_entry (h : HoldsArray c k A as) {i : Nat} (hi : i < as.length) {x : Nat} (hx : as[i] = some x) :
    A.entry c ((as.take i).filterMap id).length = .ok (i, BitVec.ofNat 64 x) := by
  have e : as = as.take i ++ as[i] :: as.drop (i + 1) := by rw [List.getElem_cons_drop, List.take_append_drop]
  have hb := h.bits
  rw [e, hx, List.map_append, List.map_cons, Option.isSome_some] at hb
  have ho := hb.open_ok
  rw [isSome_count, List.length_map, List.length_take, Nat.min_eq_left (by omega)] at ho
  have hf := filterMap_at hi hx
  obtain ⟨y, e1, hy⟩ := h.values.get_ok isBlk64 (i := ((as.take i).filterMap id).length) (by rw [hf]; simp)
  have hyx : y.toNat = x := by rw [hy]; simp [hf]
  rw [Sparse.entry, ho, Res.ok_bind, e1, Res.ok_bind, ← hyx, BitVec.ofNat_toNat, BitVec.setWidth_eq]

/-- C180: every array is built, as long as its bits and its values fit the address space. -/
theorem C180_new (c : Cfg) {k : Nat} (h1 : 1 ≤ k) (hk : k ≤ 64) (as : List (Option Nat)) (hx : ∀ x, some x ∈ as → x < 2 ^ k)
    (hf : Fits c.usz 64 as.length) (hg : Fits c.usz 64 ((as.filterMap id).length * k)) (hu : blocksFor 64 as.length + 8 < 2 ^ c.usz) :
    ∃ A, sparseNew c k as = .ok A ∧ HoldsArray c k A as ∧ A.values.len = (as.filterMap id).length := by
  obtain ⟨t, e1, r1⟩ := ivInit_ok c isBlk64 h1 hk .new trivial
  obtain ⟨b, t', e2, r2, r3⟩ := sparseFill_ok c as (VR.nil c isBlk64 1) (b := VB.new) r1 hx (by simpa using hf) (by simpa [IvInit.elems] using hg)
  rw [List.nil_append] at r2
  have r3 : IR c 64 k t' (as.filterMap id) := by simpa [IvInit.elems] using r3
  obtain ⟨r, e4, e5, hr⟩ := C39_rank9 (bv_law c isBlk64) (bv_block c isBlk64).toBVBlockRead r2 (by simpa using hu)
  refine ⟨⟨r, t'⟩, ?_, ⟨⟨by rw [e5]; exact r2, hr⟩, r3⟩, r3.len⟩
  rw [sparseNew, show IV.new 64 k = .ok t from e1, Res.ok_bind, e2]
  show (Rank9.new c (bvBitVec c 64) b).bind _ = _
  rw [e4]
  rfl
end

/-! Each theorem of this file that has hypotheses is applied to concrete data in `Verif/Instances/Sparse.lean`. -/

end Succinct
