import Verif.Props.PriorityQueue
/-! Property C175: sorting an integer vector in place through a heap in its front part. The programs here are not in the crate; they call
the methods of `IntVec` and `IntVecMut`. -/
namespace Succinct
open Spec

section
variable {w : Nat} {S : Type} (c : Cfg) (o : IntVecMutOps w S)

/-- `for i in 0 .. n { (up from i in the first i + 1 elements) }` -/
def heapBuild (n : Nat) (s : S) : Res S :=
  forRange 0 n s fun i s => do
    let m ← addN c 64 i 1
    heapUp c (window c o 0 m) s i

/-- `for i in 1 .. n { let m = n - i; swap(v, 0, m); (down from 0 in the first m elements) }` -/
def heapDrain (n : Nat) (s : S) : Res S :=
  forRange 1 n s fun i s => do
    let m ← subN c 64 n i
    let s ← ivSwap o s 0 m
    heapDown c (window c o 0 m) m s 0

/-- Both, the second for the whole vector: the greatest comes first. -/
def heapSortDown (s : S) : Res S := do
  let n ← o.len s
  let s ← heapBuild c o n s
  heapDrain c o n s

/-- The same from the other end: the least comes first. -/
def heapSort (s : S) : Res S := heapSortDown c (backwards c o) s
end

variable {w k : Nat} {S : Type} {c : Cfg} {o : IntVecMutOps w S} {R : S → List Nat → Prop}

theorem heapBuild_ok (c : Cfg) (h : IntVecLaw o k R) {s : S} {xs : List Nat} (hs : R s xs) :
    ∃ s' ys, heapBuild c o xs.length s = .ok s' ∧ R s' ys ∧ ys.Perm xs ∧ IsHeap ys := by
  have ha := h.addressable hs
  obtain ⟨s', e, ys, zs, h1, h2, h3, h4⟩ := forRange_inv (lo := 0) (hi := xs.length) (s := s)
    (f := fun i s => (addN c 64 i 1).bind fun m => heapUp c (window c o 0 m) s i)
    (fun i s => ∃ ys zs, R s (ys ++ zs) ∧ ys.length = i ∧ IsHeap ys ∧ (ys ++ zs).Perm xs) (Nat.zero_le _)
    ⟨[], xs, hs, rfl, fun k _ hk => absurd hk (by simp), .refl _⟩ (by
      rintro i s - hi ⟨ys, zs, h1, h2, h3, h4⟩
      have hl := h4.length_eq
      rw [List.length_append] at hl
      obtain ⟨z, zs, rfl⟩ : ∃ z t, zs = z :: t := by
        cases zs with
        | nil => simp at hl; omega
        | cons z t => exact ⟨z, t, rfl⟩
      obtain ⟨s', us, e, ⟨r0, r1⟩, r2, r3⟩ := heapUp_ok c (C166_window c h [] zs (i + 1)) (s := s) (xs := ys ++ [z]) (j := i)
        ⟨by simp [h2], by simpa using h1⟩ (by simp [h2]) (h2 ▸ h3.snoc z)
      refine ⟨s', ?_, us, zs, by simpa using r1, r0, r3, ?_⟩
      · rw [addN_ok (by omega)]
        exact e
      · refine .trans (r2.append_right zs) ?_
        simpa using h4)
  have hz : zs = [] := by
    have hl := h4.length_eq
    rw [List.length_append, h2] at hl
    exact List.eq_nil_of_length_eq_zero (by omega)
  subst hz
  rw [List.append_nil] at h1 h4
  exact ⟨s', ys, e, h1, h4, h3⟩

theorem swap_ends (x y : Nat) (mid ds : List Nat) :
    (((x :: mid ++ [y]) ++ ds).set 0 y).set (mid.length + 1) x = (y :: mid) ++ (x :: ds) := by
  apply List.ext_getElem?
  intro i
  simp

theorem IsHeap.below {x y : Nat} {mid : List Nat} (h : IsHeap (x :: mid ++ [y])) : HeapAbove (y :: mid) 0 := by
  have hg : ∀ k, 0 < k → k < (y :: mid).length → (y :: mid).getD k 0 = (x :: mid ++ [y]).getD k 0 := by
    intro k k0 kl
    obtain ⟨k, rfl⟩ : ∃ j, k = j + 1 := ⟨k - 1, by omega⟩
    rw [List.length_cons] at kl
    rw [List.cons_append, List.getD_cons_succ, List.getD_cons_succ, List.getD_eq_getElem?_getD, List.getD_eq_getElem?_getD,
      List.getElem?_append_left (by omega)]
  constructor
  · intro k k0 kl kp
    rw [hg _ (by omega) (by omega), hg _ k0 kl]
    exact h k k0 (by simp at kl ⊢; omega)
  · intro k kl kp h0
    omega

theorem heapDrain_ok (c : Cfg) (h : IntVecLaw o k R) {s : S} {xs : List Nat} (hs : R s xs) (hb : xs.length ≤ 2 ^ 62) (hh : IsHeap xs) :
    ∃ s' ys, heapDrain c o xs.length s = .ok s' ∧ R s' ys ∧ ys.Perm xs ∧ ys.Pairwise (· ≥ ·) := by
  rcases Nat.eq_zero_or_pos xs.length with h0 | h0
  · have := List.eq_nil_of_length_eq_zero h0
    subst this
    exact ⟨s, [], rfl, hs, .refl _, .nil⟩
  obtain ⟨s', e, hp, ds, h1, h2, h3, h4, h5, h6⟩ := forRange_inv (lo := 1) (hi := xs.length) (s := s)
    (f := fun i s => (subN c 64 xs.length i).bind fun m => (ivSwap o s 0 m).bind fun s => heapDown c (window c o 0 m) m s 0)
    (fun i s => ∃ hp ds, R s (hp ++ ds) ∧ hp.length = xs.length + 1 - i ∧ IsHeap hp ∧ (hp ++ ds).Perm xs ∧ ds.Pairwise (· ≥ ·) ∧
      ∀ a ∈ hp, ∀ d ∈ ds, d ≤ a) h0
    ⟨xs, [], by simpa using hs, by omega, hh, by simp, .nil, by simp⟩ (by
      rintro i s hi0 hi ⟨hp, ds, h1, h2, h3, h4, h5, h6⟩
      obtain ⟨x, mid, y, rfl⟩ : ∃ x mid y, hp = x :: mid ++ [y] := by
        cases hp with
        | nil => simp at h2; omega
        | cons x t =>
          refine ⟨x, t.dropLast, t.getLast ?_, by rw [List.cons_append, List.dropLast_concat_getLast]⟩
          rintro rfl
          simp at h2
          omega
      have hm : xs.length - i = mid.length + 1 := by simp at h2; omega
      obtain ⟨a, e1, a1⟩ := h.get h1 0 (by simp)
      obtain ⟨b, e2, b1⟩ := h.get h1 (mid.length + 1) (by simp)
      have hx : ((x :: mid ++ [y]) ++ ds)[0]'(by simp) = x := rfl
      have hy : ((x :: mid ++ [y]) ++ ds)[mid.length + 1]'(by simp) = y := by simp
      rw [hx] at a1
      rw [hy] at b1
      have hlt := h.lt h1
      obtain ⟨s1, e3, r1⟩ := h.set h1 0 b (by simp) (b1 ▸ hlt y (by simp))
      obtain ⟨s2, e4, r2⟩ := h.set r1 (mid.length + 1) a (by simp) (a1 ▸ hlt x (by simp))
      rw [a1, b1, swap_ends] at r2
      obtain ⟨s3, us, e5, ⟨q0, q1⟩, q2, q3⟩ := heapDown_ok c (C166_window c h [] (x :: ds) (mid.length + 1)) (s := s2) (xs := y :: mid)
        ⟨by simp, by simpa using r2⟩ (by simp; omega) (i := 0) (n := mid.length + 1) (by simp) (by simp) h3.below
      have hmin : ∀ u ∈ x :: mid ++ [y], x ≤ u := fun u hu => by
        have := h3.min
        rw [List.min?_eq_some_iff] at this
        exact this.2 u hu
      have hsub : ∀ u ∈ us, u ∈ x :: mid ++ [y] := fun u hu => by
        have := q2.mem_iff.1 hu
        simp at this ⊢
        rcases this with h | h <;> simp [h]
      refine ⟨s3, ?_, us, x :: ds, by simpa using q1, by rw [q0]; omega, q3, ?_, ?_, ?_⟩
      · rw [subN_ok (by omega), hm]
        show (ivSwap o s 0 (mid.length + 1)).bind _ = _
        rw [show ivSwap o s 0 (mid.length + 1) = .ok s2 by rw [ivSwap, e1, Res.ok_bind, e2, Res.ok_bind, e3, Res.ok_bind, e4]]
        exact e5
      · refine .trans (q2.append_right _) (.trans ?_ h4)
        simp only [List.cons_append, List.append_assoc, List.nil_append]
        exact (List.Perm.cons y List.perm_middle).trans ((List.Perm.swap x y _).trans (List.Perm.cons x List.perm_middle.symm))
      · exact List.pairwise_cons.2 ⟨fun d hd => h6 x (by simp) d hd, h5⟩
      · intro u hu d hd
        rcases List.mem_cons.1 hd with rfl | hd
        · exact hmin u (hsub u hu)
        · exact h6 u (hsub u hu) d hd)
  refine ⟨s', hp ++ ds, e, h1, h4, ?_⟩
  obtain ⟨x, rfl⟩ : ∃ x, hp = [x] := List.length_eq_one_iff.1 (by omega)
  exact List.pairwise_cons.2 ⟨fun d hd => h6 x (by simp) d hd, h5⟩

/-- C175: the greatest first. -/
theorem C175_sort_down (c : Cfg) (h : IntVecLaw o k R) {s : S} {xs : List Nat} (hs : R s xs) (hb : xs.length ≤ 2 ^ 62) :
    ∃ s' ys, heapSortDown c o s = .ok s' ∧ R s' ys ∧ ys.Perm xs ∧ ys.Pairwise (· ≥ ·) := by
  obtain ⟨s1, ys, e1, h1, h2, h3⟩ := heapBuild_ok c h hs
  obtain ⟨s', zs, e2, h4, h5, h6⟩ := heapDrain_ok c h h1 (by rw [h2.length_eq]; exact hb) h3
  refine ⟨s', zs, ?_, h4, h5.trans h2, h6⟩
  rw [heapSortDown, h.len hs, Res.ok_bind, e1, Res.ok_bind, ← h2.length_eq, e2]

/-- C175: the least first, in every lawful integer vector. -/
theorem C175_sort (c : Cfg) (h : IntVecLaw o k R) {s : S} {xs : List Nat} (hs : R s xs) (hb : xs.length ≤ 2 ^ 62) :
    ∃ s' ys, heapSort c o s = .ok s' ∧ R s' ys ∧ ys.Perm xs ∧ ys.Pairwise (· ≤ ·) := by
  obtain ⟨s', ys, e, h1, h2, h3⟩ := C175_sort_down c (C166_backwards c h) (s := s) (xs := xs.reverse) (by simpa using hs) (by simpa using hb)
  exact ⟨s', ys.reverse, e, h1, ((List.reverse_perm ys).trans h2).trans (List.reverse_perm xs), by rw [List.pairwise_reverse]; exact h3⟩

/-! Each theorem of this file that has hypotheses is applied to concrete data in `Verif/Instances/HeapSort.lean`. -/

end Succinct
