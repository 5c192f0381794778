import Verif.Props.IntVecTrait
/-! Property C168: a priority queue in an `IntVector` (a binary heap). The programs here are not in the crate; they call its methods only. -/
namespace Succinct
open Spec

section
variable {w : Nat} {S : Type} (c : Cfg) (o : IntVecMutOps w S)

/-- `while j > 0 { let p = (j - 1) / 2; if v.get(p) <= v.get(j) { break } swap(v, p, j); j = p }` -/
def heapUp (s : S) (j : Nat) : Res S :=
  if 0 < j then do
    let m ← subN c 64 j 1
    let a ← o.get s (m / 2)
    let b ← o.get s j
    if b < a then do
      let s ← ivSwap o s (m / 2) j
      heapUp s (m / 2)
    else .ok s
  else .ok s
partial_fixpoint

/-- The smaller of the elements `l` and `l + 1`, of `l` alone if it is the last one. -/
def heapChild (s : S) (n l : Nat) : Res Nat := do
  let r ← addN c 64 l 1
  if r < n then do
    let a ← o.get s l
    let b ← o.get s r
    if b < a then .ok r else .ok l
  else .ok l

/-- `loop { let l = 2 * i + 1; if l >= n { break } let k = (the smaller of l, l + 1); if v.get(i) <= v.get(k) { break } swap(v, i, k); i = k }` -/
def heapDown (n : Nat) (s : S) (i : Nat) : Res S := do
  let d ← mulN c 64 2 i
  let l ← addN c 64 d 1
  if l < n then do
    let k ← heapChild c o s n l
    let a ← o.get s i
    let b ← o.get s k
    if b < a then do
      let s ← ivSwap o s i k
      heapDown n s k
    else .ok s
  else .ok s
partial_fixpoint
end

/-- `let n = v.len(); v.push(x); (up from n)` -/
def heapInsert (c : Cfg) (s : IV w) (x : BitVec w) : Res (IV w) := do
  let n := s.len
  let s ← s.push c x
  heapUp c (ivIntVec c w) s n

/-- `if v.is_empty() { return None } let top = v.get(0); let last = v.pop().unwrap(); if !v.is_empty() { v.set(0, last); (down from 0) } Some(top)` -/
def heapExtract (c : Cfg) (s : IV w) : Res (Option (BitVec w) × IV w) :=
  if s.isEmpty then .ok (none, s)
  else do
    let top ← s.get c 0
    let (last, s) ← s.pop c
    let last ← expectR last
    if s.isEmpty then .ok (some top, s)
    else do
      let s ← s.set c 0 last
      let s ← heapDown c (ivIntVec c w) s.len s 0
      .ok (some top, s)

/-- What a user does with the queue: puts a number in or takes the least one out. -/
inductive QueueOp (w : Nat) where
  | put (x : BitVec w)
  | take

/-- The calls of a user, and what the takes return. -/
def queueRun (c : Cfg) : List (QueueOp w) → IV w → Res (List (Option (BitVec w)) × IV w)
  | [], s => .ok ([], s)
  | .put x :: ops, s => do
    let s ← heapInsert c s x
    queueRun c ops s
  | .take :: ops, s => do
    let (r, s) ← heapExtract c s
    let (rs, s) ← queueRun c ops s
    .ok (r :: rs, s)

/-- What the takes should return: the least of the numbers put in and not yet taken. -/
def Spec.queue : List (QueueOp w) → List Nat → List (Option Nat) × List Nat
  | [], q => ([], q)
  | .put x :: ops, q => queue ops (x.toNat :: q)
  | .take :: ops, q =>
    let (rs, q') := queue ops (match q.min? with | none => q | some m => q.erase m)
    (q.min? :: rs, q')

/-! ### Heaps -/

/-- Every element but `j` is at least its parent, and so are the children of `j` at least the parent of `j`. -/
def HeapBut (xs : List Nat) (j : Nat) : Prop :=
  (∀ k, 0 < k → k < xs.length → k ≠ j → xs.getD ((k - 1) / 2) 0 ≤ xs.getD k 0) ∧
  ∀ k, k < xs.length → (k - 1) / 2 = j → 0 < j → xs.getD ((j - 1) / 2) 0 ≤ xs.getD k 0

/-- Every element but the children of `i` is at least its parent, and those are at least the parent of `i`. -/
def HeapAbove (xs : List Nat) (i : Nat) : Prop :=
  (∀ k, 0 < k → k < xs.length → (k - 1) / 2 ≠ i → xs.getD ((k - 1) / 2) 0 ≤ xs.getD k 0) ∧
  ∀ k, k < xs.length → (k - 1) / 2 = i → 0 < i → xs.getD ((i - 1) / 2) 0 ≤ xs.getD k 0

/-- Every element is at least its parent. -/
def IsHeap (xs : List Nat) : Prop := ∀ k, 0 < k → k < xs.length → xs.getD ((k - 1) / 2) 0 ≤ xs.getD k 0

theorem getD_lt {xs : List Nat} {i : Nat} (hi : i < xs.length) : xs.getD i 0 = xs[i] := by
  rw [List.getD_eq_getElem?_getD, List.getElem?_eq_getElem hi, Option.getD_some]

theorem getD_swap {xs : List Nat} {i j : Nat} (hi : i < xs.length) (hj : j < xs.length) (k : Nat) :
    ((xs.set i xs[j]).set j xs[i]).getD k 0 = if k = j then xs.getD i 0 else if k = i then xs.getD j 0 else xs.getD k 0 := by
  rw [getD_lt hi, getD_lt hj]
  simp only [List.getD_eq_getElem?_getD, List.getElem?_set, List.length_set]
  by_cases h1 : k = j
  · subst h1
    rw [if_pos rfl, if_pos hj, if_pos rfl]; rfl
  · rw [if_neg (Ne.symm h1), if_neg h1]
    by_cases h2 : k = i
    · subst h2
      rw [if_pos rfl, if_pos hi, if_pos rfl]; rfl
    · rw [if_neg (Ne.symm h2), if_neg h2]

section
variable {w k : Nat} {S : Type} {c : Cfg} {o : IntVecMutOps w S} {R : S → List Nat → Prop}

theorem heapUp_ok (c : Cfg) (h : IntVecLaw o k R) {s : S} {xs : List Nat} (hs : R s xs) {j : Nat} (hj : j < xs.length) (hh : HeapBut xs j) :
    ∃ s' ys, heapUp c o s j = .ok s' ∧ R s' ys ∧ ys.Perm xs ∧ IsHeap ys := by
  induction j using Nat.strongRecOn generalizing s xs with
  | ind j ih =>
    rw [heapUp]
    by_cases h0 : 0 < j
    · obtain ⟨a, e1, h1⟩ := h.get hs ((j - 1) / 2) (by omega)
      obtain ⟨b, e2, h2⟩ := h.get hs j hj
      rw [← getD_lt] at h1 h2
      rw [if_pos h0, subN_ok (by omega), Res.ok_bind, e1, Res.ok_bind, e2, Res.ok_bind]
      by_cases hlt : b < a
      · rw [if_pos hlt]
        rw [BitVec.lt_def, h1, h2] at hlt
        have hp : (j - 1) / 2 < xs.length := by omega
        obtain ⟨s1, e3, h3⟩ := h.swap hs hp hj
        have hl : ((xs.set ((j - 1) / 2) xs[j]).set j xs[(j - 1) / 2]).length = xs.length := by rw [List.length_set, List.length_set]
        have hh' : HeapBut ((xs.set ((j - 1) / 2) xs[j]).set j xs[(j - 1) / 2]) ((j - 1) / 2) := by
          constructor
          · intro k k0 kl kp
            rw [hl] at kl
            rw [getD_swap hp hj, getD_swap hp hj]
            by_cases hkj : k = j
            · subst hkj
              rw [if_neg (by omega), if_pos rfl, if_pos rfl]; omega
            · have t1 := hh.1 k k0 kl hkj
              by_cases hq : (k - 1) / 2 = j
              · have t2 := hh.2 k kl hq h0
                rw [if_pos hq, if_neg hkj, if_neg kp]; exact t2
              · by_cases hq' : (k - 1) / 2 = (j - 1) / 2
                · rw [if_neg hq, if_pos hq', if_neg hkj, if_neg kp]
                  rw [hq'] at t1
                  omega
                · rw [if_neg hq, if_neg hq', if_neg hkj, if_neg kp]; exact t1
          · intro k kl kp p0
            rw [hl] at kl
            rw [getD_swap hp hj, getD_swap hp hj, if_neg (by omega), if_neg (by omega)]
            have t1 := hh.1 ((j - 1) / 2) p0 (by omega) (by omega)
            by_cases hkj : k = j
            · rw [if_pos hkj]; exact t1
            · have t2 := hh.1 k (by omega) kl hkj
              rw [kp] at t2
              rw [if_neg hkj, if_neg (by omega)]; omega
        obtain ⟨s', ys, e4, r1, r2, r3⟩ := ih ((j - 1) / 2) (by omega) h3 (by rw [hl]; exact hp) hh'
        exact ⟨s', ys, by rw [e3, Res.ok_bind, e4], r1, r2.trans (List.set_set_perm hp hj), r3⟩
      · rw [if_neg hlt]
        rw [BitVec.lt_def, h1, h2] at hlt
        refine ⟨s, xs, rfl, hs, .refl _, fun k k0 kl => ?_⟩
        by_cases hkj : k = j
        · subst hkj; omega
        · exact hh.1 k k0 kl hkj
    · rw [if_neg h0]
      exact ⟨s, xs, rfl, hs, .refl _, fun k k0 kl => hh.1 k k0 kl (by omega)⟩

theorem heapChild_ok (c : Cfg) (h : IntVecLaw o k R) {s : S} {xs : List Nat} (hs : R s xs) {i : Nat} (hl : 2 * i + 1 < xs.length) :
    ∃ m, heapChild c o s xs.length (2 * i + 1) = .ok m ∧ m < xs.length ∧ (m - 1) / 2 = i ∧ 0 < m ∧
      ∀ k, k < xs.length → (k - 1) / 2 = i → 0 < k → xs.getD m 0 ≤ xs.getD k 0 := by
  have hb := h.addressable hs
  rw [heapChild, addN_ok (by omega), Res.ok_bind]
  by_cases hr : 2 * i + 1 + 1 < xs.length
  · obtain ⟨a, e1, h1⟩ := h.get hs (2 * i + 1) hl
    obtain ⟨b, e2, h2⟩ := h.get hs (2 * i + 1 + 1) hr
    rw [← getD_lt] at h1 h2
    rw [if_pos hr, e1, Res.ok_bind, e2, Res.ok_bind]
    by_cases hlt : b < a
    · rw [if_pos hlt]
      rw [BitVec.lt_def, h1, h2] at hlt
      refine ⟨_, rfl, hr, by omega, by omega, fun k kl kp k0 => ?_⟩
      obtain rfl | rfl : k = 2 * i + 1 ∨ k = 2 * i + 1 + 1 := by omega
      · omega
      · exact Nat.le_refl _
    · rw [if_neg hlt]
      rw [BitVec.lt_def, h1, h2] at hlt
      refine ⟨_, rfl, hl, by omega, by omega, fun k kl kp k0 => ?_⟩
      obtain rfl | rfl : k = 2 * i + 1 ∨ k = 2 * i + 1 + 1 := by omega
      · exact Nat.le_refl _
      · omega
  · rw [if_neg hr]
    refine ⟨_, rfl, hl, by omega, by omega, fun k kl kp k0 => ?_⟩
    obtain rfl : k = 2 * i + 1 := by omega
    exact Nat.le_refl _

theorem heapDown_ok (c : Cfg) (h : IntVecLaw o k R) {s : S} {xs : List Nat} (hs : R s xs) (hb : xs.length ≤ 2 ^ 62) {i n : Nat}
    (hn : xs.length - i ≤ n) (hi : i < xs.length) (hh : HeapAbove xs i) :
    ∃ s' ys, heapDown c o xs.length s i = .ok s' ∧ R s' ys ∧ ys.Perm xs ∧ IsHeap ys := by
  induction n generalizing s xs i with
  | zero => omega
  | succ n ih =>
    rw [heapDown, mulN_ok (by omega), Res.ok_bind, addN_ok (by omega), Res.ok_bind]
    by_cases hl : 2 * i + 1 < xs.length
    · obtain ⟨m, e0, m1, m2, m3, m4⟩ := heapChild_ok c h hs hl
      obtain ⟨a, e1, h1⟩ := h.get hs i hi
      obtain ⟨b, e2, h2⟩ := h.get hs m m1
      rw [← getD_lt] at h1 h2
      rw [if_pos hl, e0, Res.ok_bind, e1, Res.ok_bind, e2, Res.ok_bind]
      by_cases hlt : b < a
      · rw [if_pos hlt]
        rw [BitVec.lt_def, h1, h2] at hlt
        obtain ⟨s1, e3, h3⟩ := h.swap hs hi m1
        have hle : ((xs.set i xs[m]).set m xs[i]).length = xs.length := by rw [List.length_set, List.length_set]
        have hh' : HeapAbove ((xs.set i xs[m]).set m xs[i]) m := by
          constructor
          · intro k k0 kl kp
            rw [hle] at kl
            rw [getD_swap hi m1, getD_swap hi m1, if_neg kp]
            by_cases hki : k = i
            · subst hki
              have t := hh.2 m m1 m2 k0
              rw [if_neg (by omega), if_neg (by omega), if_pos rfl]; exact t
            · by_cases hkm : k = m
              · rw [if_pos (by rw [hkm]; exact m2), if_pos hkm]; omega
              · rw [if_neg hkm, if_neg hki]
                by_cases hq : (k - 1) / 2 = i
                · rw [if_pos hq]; exact m4 k kl hq k0
                · rw [if_neg hq]; exact hh.1 k k0 kl hq
          · intro k kl kp _
            rw [hle] at kl
            have t := hh.1 k (by omega) kl (by omega)
            rw [kp] at t
            rw [getD_swap hi m1, getD_swap hi m1, m2, if_neg (by omega), if_pos rfl, if_neg (by omega), if_neg (by omega)]
            exact t
        obtain ⟨s', ys, e4, r1, r2, r3⟩ := ih h3 (by omega) (by omega) (by omega) hh'
        rw [hle] at e4
        exact ⟨s', ys, by rw [e3, Res.ok_bind, e4], r1, r2.trans (List.set_set_perm hi m1), r3⟩
      · rw [if_neg hlt]
        rw [BitVec.lt_def, h1, h2] at hlt
        refine ⟨s, xs, rfl, hs, .refl _, fun k k0 kl => ?_⟩
        by_cases hq : (k - 1) / 2 = i
        · have := m4 k kl hq k0
          rw [hq]; omega
        · exact hh.1 k k0 kl hq
    · rw [if_neg hl]
      exact ⟨s, xs, rfl, hs, .refl _, fun k k0 kl => hh.1 k k0 kl (by omega)⟩

end

theorem IsHeap.least {xs : List Nat} (h : IsHeap xs) (k : Nat) (hk : k < xs.length) : xs.getD 0 0 ≤ xs.getD k 0 := by
  induction k using Nat.strongRecOn with
  | ind k ih =>
    rcases Nat.eq_zero_or_pos k with rfl | h0
    · exact Nat.le_refl _
    · exact Nat.le_trans (ih ((k - 1) / 2) (by omega) (by omega)) (h k h0 hk)

theorem IsHeap.min {x : Nat} {xs : List Nat} (h : IsHeap (x :: xs)) : (x :: xs).min? = some x := by
  rw [List.min?_eq_some_iff]
  refine ⟨List.mem_cons_self, fun b hb => ?_⟩
  obtain ⟨k, hk, rfl⟩ := List.getElem_of_mem hb
  have := h.least k hk
  rw [getD_lt hk] at this
  exact this

theorem IsHeap.snoc {xs : List Nat} (h : IsHeap xs) (x : Nat) : HeapBut (xs ++ [x]) xs.length := by
  have hg : ∀ k, k < xs.length → (xs ++ [x]).getD k 0 = xs.getD k 0 := fun k hk => by
    rw [List.getD_eq_getElem?_getD, List.getD_eq_getElem?_getD, List.getElem?_append_left hk]
  constructor
  · intro k k0 kl kn
    rw [List.length_append, List.length_singleton] at kl
    rw [hg _ (by omega), hg _ (by omega)]
    exact h k k0 (by omega)
  · intro k kl kp k0
    rw [List.length_append, List.length_singleton] at kl
    omega

section
variable {w k : Nat} {c : Cfg}

theorem heapInsert_ok (h : IsBlk w) {s : IV w} {xs : List Nat} (hs : IvReach c w k s xs) (hh : IsHeap xs) {x : BitVec w} (hx : x.toNat < 2 ^ k)
    (hf : Fits c.usz w (xs.length * k + k)) :
    ∃ s' ys, heapInsert c s x = .ok s' ∧ IvReach c w k s' ys ∧ ys.Perm (x.toNat :: xs) ∧ IsHeap ys := by
  obtain ⟨s1, e1, h1⟩ := (hs.rep h).push_ok h x hf hx
  obtain ⟨s', ys, e2, r1, r2, r3⟩ := heapUp_ok c (C166_int_vector c h k) (h1.reach h) (j := xs.length)
    (by rw [List.length_append, List.length_singleton]; omega) (hh.snoc _)
  have hl : s.len = xs.length := (hs.rep h).len
  exact ⟨s', ys, by rw [heapInsert, e1, Res.ok_bind, hl, e2], r1, r2.trans (List.perm_append_singleton _ _), r3⟩

theorem heapExtract_ok (h : IsBlk w) {s : IV w} {xs : List Nat} (hs : IvReach c w k s xs) (hh : IsHeap xs) (hb : xs.length ≤ 2 ^ 62) :
    ∃ r s' ys, heapExtract c s = .ok (r, s') ∧ r.map BitVec.toNat = xs.min? ∧ IvReach c w k s' ys ∧ IsHeap ys ∧
      ys.Perm (match xs.min? with | none => xs | some m => xs.erase m) := by
  have hR := hs.rep h
  have hl : s.len = xs.length := hR.len
  rw [heapExtract, IV.isEmpty, hl]
  cases xs with
  | nil => exact ⟨none, s, [], rfl, rfl, hs, hh, .refl _⟩
  | cons x xs =>
    rw [if_neg (by simp)]
    obtain ⟨top, e1, h1⟩ := hR.get_ok h (i := 0) (by simp)
    obtain ⟨last, s1, e2, h2, h3⟩ := hR.pop_eq h
    have hmin := hh.min
    rw [e1, Res.ok_bind, e2, Res.ok_bind]
    rw [List.getLast?_eq_some_getLast (by simp)] at h2
    obtain ⟨y, rfl⟩ : ∃ y, last = some y := by
      cases last with
      | none => simp at h2
      | some y => exact ⟨y, rfl⟩
    rw [Option.map_some, Option.some_inj] at h2
    show ∃ r s' ys, (expectR (some y)).bind _ = _ ∧ _
    rw [expectR_some]
    show ∃ r s' ys, (if s1.isEmpty then _ else _) = _ ∧ _
    have hl1 : s1.len = (x :: xs).dropLast.length := h3.len
    rw [hmin]
    simp only [List.erase_cons_head]
    rw [IV.isEmpty, hl1]
    cases xs with
    | nil =>
      rw [if_pos (by simp)]
      exact ⟨some top, s1, [], rfl, by rw [Option.map_some, h1]; rfl, h3.reach h, fun k k0 kl => absurd kl (by simp), .refl _⟩
    | cons z zs =>
      rw [if_neg (by simp)]
      have hy : y.toNat < 2 ^ k := by rw [h2]; exact hR.lt _ (List.getLast_mem _)
      obtain ⟨s2, e3, h4⟩ := h3.set_ok h (i := 0) (by simp) hy
      have hset : (x :: z :: zs).dropLast.set 0 y.toNat = y.toNat :: (z :: zs).dropLast := by simp
      rw [hset] at h4
      have hperm : (y.toNat :: (z :: zs).dropLast).Perm (z :: zs) := by
        have : (z :: zs).dropLast ++ [y.toNat] = z :: zs := by
          rw [h2, List.getLast_cons (by simp), List.dropLast_concat_getLast]
        exact (List.perm_append_singleton _ _).symm.trans (by rw [this])
      have hlen := hperm.length_eq
      have hg : ∀ k, 0 < k → k < (z :: zs).length → (y.toNat :: (z :: zs).dropLast).getD k 0 = (x :: z :: zs).getD k 0 := by
        intro k k0 kl
        obtain ⟨k, rfl⟩ : ∃ j, k = j + 1 := ⟨k - 1, by omega⟩
        rw [List.getD_cons_succ, List.getD_cons_succ, List.getD_eq_getElem?_getD, List.getD_eq_getElem?_getD, List.dropLast_eq_take,
          List.getElem?_take, if_pos (by omega)]
      have hab : HeapAbove (y.toNat :: (z :: zs).dropLast) 0 := by
        constructor
        · intro k k0 kl kp
          rw [hlen] at kl
          rw [hg _ (by omega) (by omega), hg _ k0 kl]
          exact hh k k0 (by rw [List.length_cons]; omega)
        · intro k kl kp h0
          omega
      obtain ⟨s3, ys, e4, r1, r2, r3⟩ := heapDown_ok c (C166_int_vector c h k) (h4.reach h) (i := 0) (n := (y.toNat :: (z :: zs).dropLast).length)
        (by rw [hlen]; rw [List.length_cons] at hb; omega) (by omega) (by rw [hlen]; simp) hab
      have hl2 : s2.len = (y.toNat :: (z :: zs).dropLast).length := h4.len
      refine ⟨some top, s3, ys, ?_, by rw [Option.map_some, h1]; rfl, r1, r3, r2.trans hperm⟩
      rw [e3, Res.ok_bind, hl2, e4]
      rfl

end

theorem min?_perm {a b : List Nat} (h : a.Perm b) : a.min? = b.min? := by
  cases hb : b.min? with
  | none => rw [List.min?_eq_none_iff] at hb ⊢; subst hb; exact h.eq_nil
  | some m =>
    rw [List.min?_eq_some_iff] at hb ⊢
    exact ⟨h.mem_iff.2 hb.1, fun x hx => hb.2 x (h.mem_iff.1 hx)⟩

/-- C168: from any reachable vector that is a heap (a new one is), any sequence of puts and takes gives what it should: each take returns
the least number that has been put and not taken. What is left in the vector is what has not been taken. -/
theorem C168_queue (c : Cfg) (h : IsBlk w) : ∀ (ops : List (QueueOp w)) {s : IV w} {xs q : List Nat}, IvReach c w k s xs → IsHeap xs → xs.Perm q →
    (∀ x, QueueOp.put x ∈ ops → x.toNat < 2 ^ k) → Fits c.usz w ((xs.length + ops.length) * k) → xs.length + ops.length ≤ 2 ^ 62 →
    ∃ rs s' ys, queueRun c ops s = .ok (rs, s') ∧ rs.map (Option.map BitVec.toNat) = (queue ops q).1 ∧ IvReach c w k s' ys ∧
      IsHeap ys ∧ ys.Perm (queue ops q).2
  | [], s, xs, q, hs, hh, hq, _, _, _ => ⟨[], s, xs, rfl, rfl, hs, hh, hq⟩
  | .put x :: ops, s, xs, q, hs, hh, hq, hx, hf, hb => by
    rw [List.length_cons] at hf hb
    obtain ⟨s1, ys, e1, r1, r2, r3⟩ := heapInsert_ok h hs hh (hx x (by simp)) (hf.mono (by
      rw [← Nat.succ_mul]; exact Nat.mul_le_mul_right _ (by omega)))
    have hl := r2.length_eq
    rw [List.length_cons] at hl
    obtain ⟨rs, s', zs, e2, t⟩ := C168_queue c h ops r1 r3 (r2.trans (hq.cons x.toNat)) (fun y hy => hx y (List.mem_cons_of_mem _ hy))
      (by rw [hl, Nat.add_assoc, Nat.add_comm 1]; exact hf) (by omega)
    exact ⟨rs, s', zs, by rw [queueRun, e1, Res.ok_bind, e2], t⟩
  | .take :: ops, s, xs, q, hs, hh, hq, hx, hf, hb => by
    rw [List.length_cons] at hf hb
    obtain ⟨r, s1, ys, e1, r1, r2, r3, r4⟩ := heapExtract_ok h hs hh (by omega)
    have hm := min?_perm hq
    have hl : ys.length ≤ xs.length := by
      rw [r4.length_eq]
      split
      · exact Nat.le_refl _
      · exact List.erase_sublist.length_le
    obtain ⟨rs, s', zs, e2, t1, t2, t3, t4⟩ := C168_queue c h ops (q := match q.min? with | none => q | some m => q.erase m) r2 r3
      (r4.trans (by
        rw [hm]
        split
        · exact hq
        · exact hq.erase _))
      (fun y hy => hx y (List.mem_cons_of_mem _ hy)) (hf.mono (Nat.mul_le_mul_right _ (by omega))) (by omega)
    refine ⟨r :: rs, s', zs, by
      rw [queueRun, e1, Res.ok_bind]
      show (queueRun c ops s1).bind _ = _
      rw [e2]; rfl, ?_, t2, t3, t4⟩
    rw [List.map_cons, t1, r1, hm]
    rfl

/-- C168 for a new vector. -/
theorem C168_new_queue (c : Cfg) (h : IsBlk w) {k : Nat} (h1 : 1 ≤ k) (hk : k ≤ w) (ops : List (QueueOp w))
    (hx : ∀ x, QueueOp.put x ∈ ops → x.toNat < 2 ^ k) (hf : Fits c.usz w (ops.length * k)) (hb : ops.length ≤ 2 ^ 62) :
    ∃ s rs s', IV.new w k = .ok s ∧ queueRun c ops s = .ok (rs, s') ∧ rs.map (Option.map BitVec.toNat) = (queue ops []).1 := by
  obtain ⟨s, e, hs⟩ := ivInit_ok c h h1 hk .new trivial
  obtain ⟨rs, s', ys, e1, e2, -⟩ := C168_queue c h ops (hs.reach h) (fun k k0 kl => absurd kl (by simp [IvInit.elems])) (.refl _) hx
    (by simpa [IvInit.elems] using hf) (by simpa [IvInit.elems] using hb)
  exact ⟨s, rs, s', e, e1, e2⟩

/-! Each theorem of this file that has hypotheses is applied to concrete data in `Verif/Instances/PriorityQueue.lean`. -/

end Succinct
