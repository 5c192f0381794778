import Verif.Lemmas.Slice
import Verif.Lemmas.BitVector
/-! Property C179: the paths of a relation kept as a square of bits. The programs here are not in the crate; they call the methods of `BitVec` and
`BitVecMut`. -/
namespace Succinct
open Spec

/-- Bit `j` of row `i` in a square of `n` rows. -/
def Spec.At (n : Nat) (bits : List Bool) (i j : Nat) : Prop := i < n ∧ j < n ∧ bits[i * n + j]? = some true

section
variable {w : Nat} {T : Type} (c : Cfg) (o : BitVecMutOps w T)

/-- `m.get_bit(i * n + j)` -/
def sqGet (n : Nat) (t : T) (i j : Nat) : Res Bool := do
  let p ← mulN c 64 i n
  let p ← addN c 64 p j
  o.getBit t p

/-- `m.set_bit(i * n + j, true)` -/
def sqSet (n : Nat) (t : T) (i j : Nat) : Res T := do
  let p ← mulN c 64 i n
  let p ← addN c 64 p j
  o.setBit t p true

/-- `for j in 0 .. n { if m[k, j] { m[i, j] = true } }` -/
def closeRow (n k i : Nat) (t : T) : Res T :=
  forRange 0 n t fun j t => do
    let b ← sqGet c o n t k j
    if b then sqSet c o n t i j else .ok t

/-- `for i in 0 .. n { if m[i, k] { (the above) } }` -/
def closeAt (n k : Nat) (t : T) : Res T :=
  forRange 0 n t fun i t => do
    let b ← sqGet c o n t i k
    if b then closeRow c o n k i t else .ok t

/-- `for k in 0 .. n { (the above) }` -/
def close (n : Nat) (t : T) : Res T := forRange 0 n t fun k t => closeAt c o n k t
end

/-- A path all of whose inner places are below `k`. -/
inductive Via (E : Nat → Nat → Prop) (k : Nat) : Nat → Nat → Prop
  | edge {i j} (h : E i j) : Via E k i j
  | step {i m j} (h1 : Via E k i m) (hm : m < k) (h2 : Via E k m j) : Via E k i j

theorem Via.succ {E : Nat → Nat → Prop} {k i j : Nat} (h : Via E (k + 1) i j) : Via E k i j ∨ (Via E k i k ∧ Via E k k j) := by
  induction h with
  | edge h => exact .inl (.edge h)
  | @step i m j _ hm _ ih1 ih2 =>
    rcases Nat.lt_or_ge m k with q | q
    · rcases ih1 with a | ⟨a, b⟩ <;> rcases ih2 with d | ⟨d, e⟩
      · exact .inl (.step a q d)
      · exact .inr ⟨.step a q d, e⟩
      · exact .inr ⟨a, .step b q d⟩
      · exact .inr ⟨a, e⟩
    · obtain rfl : m = k := by omega
      exact .inr ⟨ih1.elim id And.left, ih2.elim id And.right⟩

theorem Via.path {E : Nat → Nat → Prop} {k i j : Nat} (h : Via E k i j) : Relation.TransGen E i j := by
  induction h with
  | edge h => exact .single h
  | step _ _ _ ih1 ih2 => exact ih1.trans ih2

theorem Via.ofPath {E : Nat → Nat → Prop} {n i j : Nat} (hE : ∀ i j, E i j → i < n) (h : Relation.TransGen E i j) : Via E n i j := by
  induction h with
  | single h => exact .edge h
  | tail _ h ih => exact .step ih (hE _ _ h) (.edge h)

theorem Via.zero {E : Nat → Nat → Prop} {i j : Nat} (h : Via E 0 i j) : E i j := by
  cases h with
  | edge h => exact h
  | step _ hm _ => omega

theorem sq_lt {n i j : Nat} (hi : i < n) (hj : j < n) : i * n + j < n * n := by
  have := Nat.mul_le_mul_right n (show i + 1 ≤ n by omega)
  rw [Nat.add_mul, Nat.one_mul] at this
  omega

theorem sq_inj {n i j a b : Nat} (hj : j < n) (hb : b < n) (h : i * n + j = a * n + b) : i = a ∧ j = b := by
  have hn : 0 < n := by omega
  have h1 := congrArg (· / n) h
  have h2 := congrArg (· % n) h
  simp only [Nat.mul_comm _ n, Nat.mul_add_div hn, Nat.div_eq_of_lt hj, Nat.div_eq_of_lt hb, Nat.add_zero, Nat.mul_add_mod, Nat.mod_eq_of_lt hj,
    Nat.mod_eq_of_lt hb] at h1 h2
  exact ⟨h1, h2⟩

theorem at_set {n : Nat} {bits : List Bool} (hl : bits.length = n * n) {i j : Nat} (hi : i < n) (hj : j < n) (a b : Nat) :
    At n (bits.set (i * n + j) true) a b ↔ At n bits a b ∨ (a = i ∧ b = j) := by
  have hp := sq_lt hi hj
  unfold At
  constructor
  · rintro ⟨ha, hb, h⟩
    by_cases e : i * n + j = a * n + b
    · have := sq_inj hj hb e
      exact .inr ⟨this.1.symm, this.2.symm⟩
    · rw [List.getElem?_set_ne e] at h
      exact .inl ⟨ha, hb, h⟩
  · rintro (⟨ha, hb, h⟩ | ⟨rfl, rfl⟩)
    · refine ⟨ha, hb, ?_⟩
      rw [List.getElem?_set]
      split
      · rw [if_pos (by omega)]
      · exact h
    · exact ⟨hi, hj, by simp [hl, hp]⟩

variable {w : Nat} {T : Type} {c : Cfg} {o : BitVecMutOps w T} {R : T → List Bool → Prop}

theorem sqGet_ok (h0 : 0 < w) (h : BVLaw c o.toBitVecOps R) {t : T} {bits : List Bool} (ht : R t bits) {n : Nat} (hl : bits.length = n * n) {i j : Nat} (hi : i < n)
    (hj : j < n) : ∃ b, sqGet c o n t i j = .ok b ∧ (b = true ↔ At n bits i j) := by
  have hp := sq_lt hi hj
  have hf := (h.fits ht).lt h0
  refine ⟨bits[i * n + j], ?_, ?_⟩
  · rw [sqGet, mulN_ok (by omega), Res.ok_bind, addN_ok (by omega), Res.ok_bind, h.getBit ht _ (by omega), List.getElem?_eq_getElem (by omega)]
    rfl
  · rw [At, List.getElem?_eq_getElem (by omega), Option.some.injEq]
    exact ⟨fun e => ⟨hi, hj, e⟩, fun e => e.2.2⟩

theorem sqSet_ok (h0 : 0 < w) (h : BVLaw c o.toBitVecOps R) (hw : BVWriteLaw o R) {t : T} {bits : List Bool} (ht : R t bits) {n : Nat} (hl : bits.length = n * n)
    {i j : Nat} (hi : i < n) (hj : j < n) : ∃ t', sqSet c o n t i j = .ok t' ∧ R t' (bits.set (i * n + j) true) := by
  have hp := sq_lt hi hj
  have hf := (h.fits ht).lt h0
  obtain ⟨t', e, r⟩ := hw.setBit ht (i * n + j) true (by omega)
  refine ⟨t', ?_, r⟩
  rw [sqSet, mulN_ok (by omega), Res.ok_bind, addN_ok (by omega), Res.ok_bind, e]

/-- Every bit set is a path, and every path with inner places below `k` is a bit set. -/
structure Closed (E : Nat → Nat → Prop) (n k : Nat) (bits : List Bool) : Prop where
  len : bits.length = n * n
  sound : ∀ i j, At n bits i j → Relation.TransGen E i j
  all : ∀ i j, i < n → j < n → Via E k i j → At n bits i j

theorem Closed.set {E : Nat → Nat → Prop} {n k : Nat} {bits : List Bool} (h : Closed E n k bits) {i j : Nat} (hi : i < n) (hj : j < n)
    (hp : Relation.TransGen E i j) : Closed E n k (bits.set (i * n + j) true) where
  len := by simp [h.len]
  sound a b hab := by
    rcases (at_set h.len hi hj a b).1 hab with q | ⟨rfl, rfl⟩
    · exact h.sound a b q
    · exact hp
  all a b ha hb hv := (at_set h.len hi hj a b).2 (.inl (h.all a b ha hb hv))

theorem closeRow_ok (h0 : 0 < w) (h : BVLaw c o.toBitVecOps R) (hw : BVWriteLaw o R) {E : Nat → Nat → Prop} {t : T} {bits : List Bool} (ht : R t bits) {n k : Nat}
    (hC : Closed E n k bits) (hk : k < n) {i : Nat} (hi : i < n) (hik : Relation.TransGen E i k) :
    ∃ t' bits', closeRow c o n k i t = .ok t' ∧ R t' bits' ∧ Closed E n k bits' ∧ (∀ a b, At n bits a b → At n bits' a b) ∧
      ∀ b < n, Via E k k b → At n bits' i b := by
  obtain ⟨t', e, bits', r1, r2, r3, r4⟩ := forRange_inv (lo := 0) (hi := n) (s := t)
    (f := fun j t => do
      let b ← sqGet c o n t k j
      if b then sqSet c o n t i j else .ok t)
    (fun m t => ∃ bits', R t bits' ∧ Closed E n k bits' ∧ (∀ a b, At n bits a b → At n bits' a b) ∧ ∀ b < m, Via E k k b → At n bits' i b)
    (Nat.zero_le _) ⟨bits, ht, hC, fun _ _ h => h, fun b hb => by omega⟩ (fun j t1 _ hj ⟨b1, q1, q2, q3, q4⟩ => by
      obtain ⟨b, e1, hb⟩ := sqGet_ok h0 h q1 q2.len hk hj
      show ∃ s', (sqGet c o n t1 k j).bind _ = _ ∧ _
      rw [e1]
      show ∃ s', (if b = true then _ else _) = _ ∧ _
      by_cases hbt : b = true
      · obtain ⟨t2, e2, r⟩ := sqSet_ok h0 h hw q1 q2.len hi hj
        refine ⟨t2, by rw [if_pos hbt, e2], _, r, q2.set hi hj (hik.trans (q2.sound k j (hb.1 hbt))),
          fun a d had => (at_set q2.len hi hj a d).2 (.inl (q3 a d had)), fun d hd hv => (at_set q2.len hi hj i d).2 ?_⟩
        rcases Nat.lt_or_ge d j with q | q
        · exact .inl (q4 d q hv)
        · exact .inr ⟨rfl, by omega⟩
      · refine ⟨t1, by rw [if_neg hbt], b1, q1, q2, q3, fun d hd hv => ?_⟩
        rcases Nat.lt_or_ge d j with q | q
        · exact q4 d q hv
        · obtain rfl : d = j := by omega
          exact absurd (hb.2 (q2.all k d hk hj hv)) hbt)
  exact ⟨t', bits', e, r1, r2, r3, r4⟩

theorem closeAt_ok (h0 : 0 < w) (h : BVLaw c o.toBitVecOps R) (hw : BVWriteLaw o R) {E : Nat → Nat → Prop} {t : T} {bits : List Bool} (ht : R t bits) {n k : Nat}
    (hC : Closed E n k bits) (hk : k < n) : ∃ t' bits', closeAt c o n k t = .ok t' ∧ R t' bits' ∧ Closed E n (k + 1) bits' := by
  obtain ⟨t', e, bits', r1, r2, r3⟩ := forRange_inv (lo := 0) (hi := n) (s := t)
    (f := fun i t => do
      let b ← sqGet c o n t i k
      if b then closeRow c o n k i t else .ok t)
    (fun m t => ∃ bits', R t bits' ∧ Closed E n k bits' ∧ ∀ a b, a < m → b < n → Via E k a k → Via E k k b → At n bits' a b)
    (Nat.zero_le _) ⟨bits, ht, hC, fun a b ha => by omega⟩ (fun i t1 _ hi ⟨b1, q1, q2, q3⟩ => by
      obtain ⟨b, e1, hb⟩ := sqGet_ok h0 h q1 q2.len hi hk
      show ∃ s', (sqGet c o n t1 i k).bind _ = _ ∧ _
      rw [e1]
      show ∃ s', (if b = true then _ else _) = _ ∧ _
      by_cases hbt : b = true
      · obtain ⟨t2, b2, e2, p1, p2, p3, p4⟩ := closeRow_ok h0 h hw q1 q2 hk hi (q2.sound i k (hb.1 hbt))
        refine ⟨t2, by rw [if_pos hbt, e2], b2, p1, p2, fun a d ha hd v1 v2 => ?_⟩
        rcases Nat.lt_or_ge a i with q | q
        · exact p3 a d (q3 a d q hd v1 v2)
        · obtain rfl : a = i := by omega
          exact p4 d hd v2
      · refine ⟨t1, by rw [if_neg hbt], b1, q1, q2, fun a d ha hd v1 v2 => ?_⟩
        rcases Nat.lt_or_ge a i with q | q
        · exact q3 a d q hd v1 v2
        · obtain rfl : a = i := by omega
          exact absurd (hb.2 (q2.all a k hi hk v1)) hbt)
  refine ⟨t', bits', e, r1, r2.len, r2.sound, fun i j hi hj hv => ?_⟩
  rcases hv.succ with q | ⟨q1, q2⟩
  · exact r2.all i j hi hj q
  · exact r3 i j hi hj q1 q2

/-- C179: bit `j` of row `i` is set in the end exactly if a path leads from `i` to `j`. -/
theorem C179_close (h0 : 0 < w) (h : BVLaw c o.toBitVecOps R) (hw : BVWriteLaw o R) {t : T} {bits : List Bool} (ht : R t bits) {n : Nat} (hl : bits.length = n * n) :
    ∃ t' bits', close c o n t = .ok t' ∧ R t' bits' ∧ bits'.length = n * n ∧
      ∀ i j, At n bits' i j ↔ Relation.TransGen (At n bits) i j := by
  obtain ⟨t', e, bits', r1, r2⟩ := forRange_inv (lo := 0) (hi := n) (s := t) (f := fun k t => closeAt c o n k t)
    (fun k t => ∃ bits', R t bits' ∧ Closed (At n bits) n k bits') (Nat.zero_le _)
    ⟨bits, ht, hl, fun i j h => .single h, fun i j _ _ hv => hv.zero⟩ (fun k t1 _ hk ⟨b1, q1, q2⟩ => by
      obtain ⟨t2, b2, e2, p1, p2⟩ := closeAt_ok h0 h hw q1 q2 hk
      exact ⟨t2, e2, b2, p1, p2⟩)
  refine ⟨t', bits', e, r1, r2.len, fun i j => ⟨r2.sound i j, fun hp => r2.all i j ?_ ?_ (.ofPath (fun _ _ h => h.1) hp)⟩⟩
  · induction hp with
    | single h => exact h.1
    | tail _ _ ih => exact ih
  · cases hp with
    | single h => exact h.2.1
    | tail _ h => exact h.2.1

/-! Each theorem of this file that has hypotheses is applied to concrete data in `Verif/Instances/Closure.lean`. -/

end Succinct
