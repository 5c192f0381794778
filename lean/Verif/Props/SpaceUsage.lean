import Verif.Model.SpaceUsage
import Verif.Props.Rank
/-! Properties C71 (space accounting) and C72 (size of the rank directories). -/
namespace Succinct
open Spec SpaceOps

/-- `S` reports `heap a` as the number of heap bytes owned by `a`, as long as that is a `usize`; if `S` claims to be
stack-only, that number is 0; the total is the number of stack bytes plus it. -/
structure Accounts (c : Cfg) (S : SpaceOps α) (heap : α → Nat) : Prop where
  heapBytes : ∀ a, heap a < 2 ^ c.usz → S.heapBytes a = .ok (heap a)
  stackOnly : S.isStackOnly = true → ∀ a, heap a = 0

/-- C71: the total is stack plus heap. -/
theorem C71_total {S : SpaceOps α} {heap : α → Nat} (h : Accounts c S heap) (a : α)
    (hf : S.stackBytes + heap a < 2 ^ c.usz) : totalBytes c S a = .ok (S.stackBytes + heap a) := by
  rw [totalBytes, h.heapBytes a (by omega), Res.ok_bind, addN_ok hf]

/-- C71: stack-only types own no heap. -/
theorem C71_stack_only (c : Cfg) (α : Type) (size : Nat) : Accounts c (stackOnly α size) (fun _ => 0) :=
  ⟨fun _ _ => rfl, fun _ _ => rfl⟩

/-- The elements' heap bytes, added up. -/
def sumOf (heap : α → Nat) (l : List α) : Nat := (l.map heap).sum

theorem vecSum_ok {S : SpaceOps α} {heap : α → Nat} (h : Accounts c S heap) (l : List α) (acc : Nat)
    (hf : acc + sumOf heap l < 2 ^ c.usz) : vecSum c S l acc = .ok (acc + sumOf heap l) := by
  induction l generalizing acc with
  | nil => rfl
  | cons a l ih =>
    have e : sumOf heap (a :: l) = heap a + sumOf heap l := by simp [sumOf]
    rw [e] at hf ⊢
    rw [vecSum, h.heapBytes a (by omega), Res.ok_bind, addN_ok (by omega), Res.ok_bind, ih _ (by omega), Nat.add_assoc]

/-- C71: the heap of a vector is its capacity times the stack size of an element, plus the heap of the elements. -/
theorem C71_vec {S : SpaceOps α} {heap : α → Nat} (h : Accounts c S heap) (size : Nat) :
    Accounts c (vec c size S) (fun v => v.cap * S.stackBytes + sumOf heap v.elems) := by
  refine ⟨fun v hf => ?_, fun h => by cases h⟩
  show (mulN c c.usz v.cap S.stackBytes >>= fun r => if !S.isStackOnly then vecSum c S v.elems r else .ok r) = _
  rw [mulN_ok (by omega), Res.ok_bind]
  by_cases hs : S.isStackOnly = true
  · have e : sumOf heap v.elems = 0 := by
      unfold sumOf
      induction v.elems with
      | nil => rfl
      | cons a l ih => rw [List.map_cons, List.sum_cons, ih, h.stackOnly hs]
    rw [hs, e]
    rfl
  · rw [Bool.not_eq_true] at hs
    rw [hs]
    exact vecSum_ok h v.elems _ hf

/-- C71: the heap of a box is what it points to. -/
theorem C71_box {S : SpaceOps α} {heap : α → Nat} (h : Accounts c S heap) (size : Nat) :
    Accounts c (box c size S) (fun a => S.stackBytes + heap a) :=
  ⟨fun a hf => C71_total h a hf, fun h => by cases h⟩

/-- C71: tuples. Each component comes with its implementation and what it owns. -/
structure Component (c : Cfg) where
  ty : Ty
  heap : ty.α → Nat
  law : Accounts c ty.ops heap

/-- The heap bytes of the components of a tuple, added up. -/
def tupleHeap : (ts : List (Component c)) → Tuple (ts.map Component.ty) → Nat
  | [], _ => 0
  | t :: ts, .cons a as => t.heap a + tupleHeap ts as

theorem tupleSum_ok (ts : List (Component c)) (a : Tuple (ts.map Component.ty)) (acc : Nat)
    (hf : acc + tupleHeap ts a < 2 ^ c.usz) : tupleSum c a acc = .ok (acc + tupleHeap ts a) := by
  induction ts generalizing acc with
  | nil => cases a; rfl
  | cons t ts ih =>
    cases a with
    | cons x as =>
      rw [tupleHeap] at hf ⊢
      show (t.ty.ops.heapBytes x >>= fun h => addN c c.usz acc h >>= fun acc => tupleSum c as acc) = _
      rw [t.law.heapBytes x (by omega), Res.ok_bind, addN_ok (by omega), Res.ok_bind, ih as _ (by omega), Nat.add_assoc]

/-- C71: the heap of a tuple is the sum of the heaps of its components, and it is stack-only, and then owns
nothing, if all of them are. -/
theorem C71_tuple (ts : List (Component c)) (a : Tuple (ts.map Component.ty)) :
    (tupleHeap ts a < 2 ^ c.usz → tupleHeapBytes c a = .ok (tupleHeap ts a)) ∧
    (tupleIsStackOnly (ts.map Component.ty) = true ↔ ∀ t ∈ ts, t.ty.ops.isStackOnly = true) ∧
    (tupleIsStackOnly (ts.map Component.ty) = true → tupleHeap ts a = 0) := by
  refine ⟨fun hf => ?_, by simp [tupleIsStackOnly], fun hs => ?_⟩
  · have := tupleSum_ok ts a 0 (by omega)
    rwa [Nat.zero_add] at this
  · induction ts with
    | nil => rfl
    | cons t ts ih =>
      cases a with
      | cons x as =>
        rw [List.map_cons, tupleIsStackOnly, List.all_cons, Bool.and_eq_true] at hs
        rw [tupleHeap, t.law.stackOnly hs.1, ih as hs.2]

theorem sumOf_zero (l : List α) : sumOf (fun _ => 0) l = 0 := by
  unfold sumOf
  induction l with
  | nil => rfl
  | cons a l ih => rw [List.map_cons, List.sum_cons, ih]

/-- C71: `BitVector` and `IntVector` own their blocks' capacity. -/
theorem C71_vectors (c : Cfg) (w vs bs size : Nat) :
    Accounts c (bitVector c w vs bs size) (fun s => s.cap * (w / 8)) ∧
    Accounts c (intVector c w vs bs size) (fun s => s.base.cap * (w / 8)) := by
  have h := C71_vec (C71_stack_only c (BitVec w) (w / 8)) vs
  constructor
  · refine ⟨fun s hf => ?_, fun h => by cases h⟩
    have := h.heapBytes ⟨s.base.vec, s.cap⟩ (by simp only [sumOf_zero]; exact hf)
    rw [sumOf_zero] at this
    exact this
  · refine ⟨fun s hf => ?_, fun h => by cases h⟩
    have := h.heapBytes ⟨s.base.base.vec, s.base.cap⟩ (by simp only [sumOf_zero]; exact hf)
    rw [sumOf_zero] at this
    exact this

/-- C71: `Rank9` owns the store's heap and its cells. -/
theorem C71_rank9 {S : SpaceOps α} {heap : α → Nat} (h : Accounts c S heap) (vs size : Nat) :
    Accounts c (rank9 c vs size S) (fun r => heap r.bitStore + r.counts.cap * 16) := by
  refine ⟨fun r hf => ?_, fun h => by cases h⟩
  have h2 := (C71_vec (C71_stack_only c Rank9Cell 16) vs).heapBytes r.counts
  simp only [sumOf_zero, Nat.add_zero] at h2
  show (S.heapBytes r.bitStore >>= fun a => (vec c vs (stackOnly Rank9Cell 16)).heapBytes r.counts >>= fun b =>
    addN c c.usz a b) = _
  rw [h.heapBytes _ (by omega), Res.ok_bind, h2 (by simp only [SpaceOps.stackOnly]; omega), Res.ok_bind]
  exact addN_ok hf

/-- C71: `JacobsonRank` owns the store's heap and its two directories. -/
theorem C71_jacobson {S : SpaceOps α} {heap : α → Nat} (h : Accounts c S heap) (vs bs is size : Nat) :
    Accounts c (jacobson c vs bs is size S) (fun j => j.large.base.cap * 8 + j.small.base.cap * 8 + heap j.bitStore) := by
  refine ⟨fun j hf => ?_, fun h => by cases h⟩
  have hi := (C71_vectors c 64 vs bs is).2
  show ((intVector c 64 vs bs is).heapBytes j.large >>= fun a => (intVector c 64 vs bs is).heapBytes j.small >>= fun b =>
    addN c c.usz a b >>= fun ab => S.heapBytes j.bitStore >>= fun d => addN c c.usz ab d) = _
  rw [hi.heapBytes _ (by omega), Res.ok_bind, hi.heapBytes _ (by omega), Res.ok_bind, addN_ok (by omega), Res.ok_bind,
    h.heapBytes _ (by omega), Res.ok_bind]
  exact addN_ok hf

/-- C71: `BinSearchSelect` owns what its rank structure owns. -/
theorem C71_select {S : SpaceOps α} {heap : α → Nat} (h : Accounts c S heap) (size : Nat) :
    Accounts c (binSearchSelect size S) (fun s => heap s.rankSupport) :=
  ⟨fun _ hf => h.heapBytes _ hf, fun hs _ => h.stackOnly hs _⟩

/-- `S` claims to be stack-only exactly if no value of the type owns heap memory. -/
def TellsStackOnly (S : SpaceOps α) (heap : α → Nat) : Prop := S.isStackOnly = true ↔ ∀ a, heap a = 0

/-- A value `a` that owns heap memory. -/
theorem tellsStackOnly_not {S : SpaceOps α} {heap : α → Nat} (h : S.isStackOnly = false) (a : α) (ha : 0 < heap a) : TellsStackOnly S heap := by
  unfold TellsStackOnly
  rw [h]
  refine ⟨nofun, fun h' => ?_⟩
  have := h' a
  omega

/-- C71: `is_stack_only` is true exactly for the types whose values never own heap memory (`heap` is in each case what
the theorems above show `heap_bytes` to be). -/
theorem C71_stack_only_iff (c : Cfg) :
    (∀ α size, TellsStackOnly (SpaceOps.stackOnly α size) (fun _ => 0)) ∧
    (∀ {α} (S : SpaceOps α) (heap : α → Nat) size, 0 < S.stackBytes →
      TellsStackOnly (vec c size S) (fun v => v.cap * S.stackBytes + sumOf heap v.elems) ∧
      (Nonempty α → TellsStackOnly (box c size S) (fun a => S.stackBytes + heap a))) ∧
    (∀ w vs bs size, IsBlk w → TellsStackOnly (bitVector c w vs bs size) (fun s => s.cap * (w / 8)) ∧
      TellsStackOnly (intVector c w vs bs size) (fun s => s.base.cap * (w / 8))) ∧
    (∀ {α} (S : SpaceOps α) (heap : α → Nat) vs bs is size, Nonempty α →
      TellsStackOnly (rank9 c vs size S) (fun r => heap r.bitStore + r.counts.cap * 16) ∧
      TellsStackOnly (jacobson c vs bs is size S) (fun j => j.large.base.cap * 8 + j.small.base.cap * 8 + heap j.bitStore)) ∧
    (∀ {α} (S : SpaceOps α) (heap : α → Nat) size, TellsStackOnly S heap →
      TellsStackOnly (binSearchSelect size S) (fun s => heap s.rankSupport)) := by
  refine ⟨fun _ _ => ⟨fun _ _ => rfl, fun _ => rfl⟩, fun S heap size hS => ⟨?_, fun inst => ?_⟩, fun w vs bs size hw => ⟨?_, ?_⟩,
    fun S heap vs bs is size inst => ⟨?_, ?_⟩, fun S heap size h => ⟨fun hs a => h.1 hs _, fun ha => h.2 fun a => ha ⟨a⟩⟩⟩
  · refine tellsStackOnly_not rfl ⟨[], 1⟩ ?_
    simp only; omega
  · obtain ⟨a⟩ := inst
    exact tellsStackOnly_not rfl a (by omega)
  · refine tellsStackOnly_not rfl ⟨VB.new, 1, 0⟩ ?_
    blk_cases hw <;> decide
  · refine tellsStackOnly_not rfl ⟨1, ⟨VB.new, 1, 0⟩⟩ ?_
    blk_cases hw <;> decide
  · obtain ⟨a⟩ := inst
    refine tellsStackOnly_not rfl ⟨a, [], 1⟩ ?_
    simp only; omega
  · obtain ⟨a⟩ := inst
    refine tellsStackOnly_not rfl ⟨a, ⟨1, ⟨VB.new, 1, 0⟩⟩, ⟨1, ⟨VB.new, 0, 0⟩⟩⟩ ?_
    simp only; omega

example : (binSearchSelect 8 (rank9 ⟨true, .p64, true⟩ 24 56 (block 64))).isStackOnly = false ∧ (binSearchSelect 8 (block 64)).isStackOnly = true := by
  decide

/-- `Vec<Vec<u64>>` with two vectors of capacity 8, itself of capacity 2: test `vec_vec_size`. -/
example : totalBytes ⟨true, .p64, true⟩ (vec ⟨true, .p64, true⟩ 24 (vec ⟨true, .p64, true⟩ 24 (block 64))) ⟨[⟨[], 8⟩, ⟨[], 8⟩], 2⟩ =
    .ok (128 + 2 * 24 + 24) := by decide

/-- C72: `Rank9` stores one cell of 16 bytes for every 8 blocks, and one more: a quarter of the size of the data
and 16 bytes. -/
theorem C72_rank9 {o : BitVecOps 64 S} {R : S → List Bool → Prop} (hl : BVLaw c o R) (hbl : BVBlockRead o R) {s : S}
    {bits : List Bool} (hR : R s bits) (hu : blocksFor 64 bits.length + 8 < 2 ^ c.usz) :
    ∃ r, Rank9.new c o s = .ok r ∧ r.counts.length = blocksFor 64 bits.length / 8 + 1 ∧
      16 * r.counts.length ≤ (8 * blocksFor 64 bits.length) / 4 + 16 := by
  obtain ⟨blk, r, -, h1, -, h2⟩ := rank9_new_ok hbl hR (hl.fits hR) hu
  refine ⟨r, h1, h2.len, ?_⟩
  rw [h2.len]
  omega

/-- C72: `JacobsonRank` stores an entry for every block, and one more, in the small directory, and one for every
`spl` blocks, and one more, in the large directory, where `spl` blocks are the least number with at least
`lg²` bits. An entry of the small directory has `ks` bits, just enough for numbers up to the size of a large
block; one of the large directory `kl` bits, just enough for the number of bits. -/
theorem C72_jacobson {o : BitVecOps w S} {R : S → List Bool → Prop} (hw : IsBlk w) (hl : BVLaw c o R)
    (hbl : BVBlockRead o R) (hpad : BVPadLaw o R) {s : S} {bits : List Bool} (hR : R s bits)
    (hmem : InMemory c.usz bits.length) (h2 : 2 ≤ bits.length) :
    ∃ j lg spl kl ks, Jacobson.new c o s = .ok j ∧ IsCeilLg bits.length lg ∧ IsCeilDiv (lg * lg) w spl ∧
      j.largeBlockSize = w * spl ∧
      j.smallBlockRanks.len = blocksFor w bits.length + 1 ∧ j.smallBlockRanks.elementBits = ks ∧ IsCeilLg (w * spl + 1) ks ∧
      (∃ q, IsCeilDiv (blocksFor w bits.length) spl q ∧ j.largeBlockRanks.len = q + 1) ∧
      j.largeBlockRanks.elementBits = kl ∧ IsCeilLg (bits.length + 1) kl := by
  obtain ⟨blk, j, lg, spl, kl, ks, -, hj, -, hok, h3, h4, h5, h6⟩ := jacobson_new_ok hw hl hbl hpad hR hmem h2
  refine ⟨j, lg, spl, kl, ks, hj, h3, h4, hok.size, ?_, hok.small.eb, h6,
    ⟨(blocksFor w bits.length + spl - 1) / spl, ?_, ?_⟩, hok.large.eb, h5⟩
  · rw [show j.smallBlockRanks.len = _ from hok.small.len]; simp
  · have hp := hok.pos
    constructor
    · have := Nat.div_add_mod (blocksFor w bits.length + spl - 1) spl
      have := Nat.mod_lt (blocksFor w bits.length + spl - 1) hp
      rw [Nat.mul_comm]; omega
    · intro k hk
      rw [Nat.div_le_iff_le_mul_add_pred hp, Nat.mul_comm]
      omega
  · rw [show j.largeBlockRanks.len = _ from hok.large.len, List.length_append, List.length_map, List.length_range]
    rfl

/-- The hypotheses can be met: 100 bits in 8-bit blocks give 14 small entries; large blocks have
`7 * 7 ≤ 56` bits, so there are 3 large entries. -/
example : (match Jacobson.new ⟨true, .p64, true⟩ (bvBitVec ⟨true, .p64, true⟩ 8) ⟨100, List.replicate 13 5#8⟩ with
    | .ok j => (j.largeBlockSize, j.smallBlockRanks.len, j.largeBlockRanks.len)
    | _ => (0, 0, 0)) = (56, 14, 3) := by decide +kernel

/-! Each theorem of this file that has hypotheses is applied to concrete data in `Verif/Instances/SpaceUsage.lean`. -/

end Succinct
