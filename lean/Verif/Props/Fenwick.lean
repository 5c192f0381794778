import Verif.Props.IntVecTrait
/-! Property C177: sums of the first elements of a sequence that changes, in an integer vector. The programs here are not in the crate; they
call the methods of `IntVec` and `IntVecMut`. -/
namespace Succinct
open Spec

/-- What a user does: adds to one number, or asks for the sum of the first `i` numbers. -/
inductive SumOp where
  | add (i d : Nat)
  | sum (i : Nat)

/-- The sums a user is to get, with these numbers at first. -/
def Spec.sums : List SumOp → List Nat → List Nat
  | [], _ => []
  | .add i d :: ops, as => sums ops (as.modify i (· + d))
  | .sum i :: ops, as => (as.take i).sum :: sums ops as

/-- All that a user adds. -/
def Spec.added : List SumOp → Nat
  | [] => 0
  | .add _ d :: ops => d + added ops
  | .sum _ :: ops => added ops

/-- The places are there. -/
def SumOp.Below (n : Nat) : SumOp → Prop
  | .add i _ => i < n
  | .sum i => i ≤ n

section
variable {w : Nat} {S : Type} (c : Cfg) (o : IntVecMutOps w S)

/-- `let mut acc = 0; while i > 0 { acc += v.get(i - 1); i = i & (i - 1) }` -/
def fwSum (s : S) (i acc : Nat) : Res Nat :=
  if 0 < i then do
    let m ← subN c 64 i 1
    let x ← o.get s m
    let acc ← addN c w acc x.toNat
    fwSum s (i &&& m) acc
  else .ok acc
partial_fixpoint

/-- `while i <= n { v.set(i - 1, v.get(i - 1) + d); i += i - (i & (i - 1)) }` -/
def fwAdd (n d : Nat) (s : S) (i : Nat) : Res S :=
  if i ≤ n then do
    let m ← subN c 64 i 1
    let x ← o.get s m
    let y ← addN c w x.toNat d
    let s ← o.set s m (BitVec.ofNat w y)
    let l ← subN c 64 i (i &&& m)
    let i ← addN c 64 i l
    fwAdd n d s i
  else .ok s
partial_fixpoint

/-- `while step > 0 { if pos + step <= n { let y = v.get(pos + step - 1); if y <= x { pos += step; x -= y } } step /= 2 } pos` -/
def fwFind (n : Nat) (s : S) (step pos x : Nat) : Res Nat :=
  if 0 < step then do
    let p ← addN c 64 pos step
    if p ≤ n then do
      let m ← subN c 64 p 1
      let y ← o.get s m
      if y.toNat ≤ x then do
        let x ← subN c w x y.toNat
        fwFind n s (step / 2) p x
      else fwFind n s (step / 2) pos x
    else fwFind n s (step / 2) pos x
  else .ok pos
partial_fixpoint

/-- The calls of a user, and the sums: `add(i, d)` begins at `i + 1`. -/
def fwRun : List SumOp → S → Res (List Nat × S)
  | [], s => .ok ([], s)
  | .add i d :: ops, s => do
    let n ← o.len s
    let i ← addN c 64 i 1
    let s ← fwAdd c o n d s i
    fwRun ops s
  | .sum i :: ops, s => do
    let x ← fwSum c o s i 0
    let (xs, s) ← fwRun ops s
    .ok (x :: xs, s)
end

/-! ### The lowest one of a number -/

/-- The lowest one of `i`: the greatest power of two that divides it. -/
def lowOne (i : Nat) : Nat := if h : i = 0 then 0 else if i % 2 = 1 then 1 else 2 * lowOne (i / 2)
termination_by i
decreasing_by omega

theorem lowOne_even {m : Nat} (h : 0 < m) : lowOne (2 * m) = 2 * lowOne m := by
  rw [lowOne, dif_neg (by omega), if_neg (by omega), Nat.mul_div_cancel_left _ (by omega)]

theorem lowOne_odd (m : Nat) : lowOne (2 * m + 1) = 1 := by
  rw [lowOne, dif_neg (by omega), if_pos (by omega)]

theorem lowOne_pos {i : Nat} (h : 0 < i) : 0 < lowOne i ∧ lowOne i ≤ i := by
  induction i using Nat.strongRecOn with
  | ind i ih =>
    rcases Nat.mod_two_eq_zero_or_one i with h1 | h1
    · obtain ⟨m, rfl⟩ : ∃ m, i = 2 * m := ⟨i / 2, by omega⟩
      have := ih m (by omega) (by omega)
      rw [lowOne_even (by omega)]
      omega
    · obtain ⟨m, rfl⟩ : ∃ m, i = 2 * m + 1 := ⟨i / 2, by omega⟩
      rw [lowOne_odd]
      omega

theorem and_pred {i : Nat} (h : 0 < i) : i &&& (i - 1) = i - lowOne i := by
  induction i using Nat.strongRecOn with
  | ind i ih =>
    rcases Nat.mod_two_eq_zero_or_one i with h1 | h1
    · obtain ⟨m, rfl⟩ : ∃ m, i = 2 * m := ⟨i / 2, by omega⟩
      have h2 := ih m (by omega) (by omega)
      have h3 := lowOne_pos (i := m) (by omega)
      rw [lowOne_even (by omega)]
      have h4 : (2 * m &&& (2 * m - 1)) / 2 = m &&& (m - 1) := by
        rw [Nat.and_div_two, show 2 * m / 2 = m by omega, show (2 * m - 1) / 2 = m - 1 by omega]
      have h5 : (2 * m &&& (2 * m - 1)) % 2 = 0 := by
        have := Nat.and_mod_two_pow (a := 2 * m) (b := 2 * m - 1) (n := 1)
        rw [Nat.pow_one, show 2 * m % 2 = 0 by omega, Nat.zero_and] at this
        exact this
      omega
    · obtain ⟨m, rfl⟩ : ∃ m, i = 2 * m + 1 := ⟨i / 2, by omega⟩
      rw [lowOne_odd]
      have h4 : (2 * m + 1 &&& (2 * m + 1 - 1)) / 2 = m := by
        rw [Nat.and_div_two, show (2 * m + 1) / 2 = m by omega, show (2 * m + 1 - 1) / 2 = m by omega, Nat.and_self]
      have h5 : (2 * m + 1 &&& (2 * m + 1 - 1)) % 2 = 0 := by
        have := Nat.and_mod_two_pow (a := 2 * m + 1) (b := 2 * m + 1 - 1) (n := 1)
        rw [Nat.pow_one, show (2 * m + 1 - 1) % 2 = 0 by omega, Nat.and_zero] at this
        exact this
      omega

/-- The part that ends at `k` has `i` in it exactly if it has the next place after `i` that is looked at. -/
theorem lowOne_next {i k : Nat} (h0 : 0 < i) (h : i < k) : k - lowOne k < i ↔ k - lowOne k < i + lowOne i ∧ i + lowOne i ≤ k := by
  induction i using Nat.strongRecOn generalizing k with
  | ind i ih =>
    rcases Nat.mod_two_eq_zero_or_one i with h1 | h1 <;> rcases Nat.mod_two_eq_zero_or_one k with h2 | h2
    · obtain ⟨m, rfl⟩ : ∃ m, i = 2 * m := ⟨i / 2, by omega⟩
      obtain ⟨l, rfl⟩ : ∃ m, k = 2 * m := ⟨k / 2, by omega⟩
      have := ih m (by omega) (by omega) (k := l) (by omega)
      rw [lowOne_even (m := m) (by omega), lowOne_even (m := l) (by omega)]
      omega
    · obtain ⟨m, rfl⟩ : ∃ m, i = 2 * m := ⟨i / 2, by omega⟩
      obtain ⟨l, rfl⟩ : ∃ m, k = 2 * m + 1 := ⟨k / 2, by omega⟩
      have := lowOne_pos (i := m) (by omega)
      rw [lowOne_even (m := m) (by omega), lowOne_odd]
      omega
    · obtain ⟨m, rfl⟩ : ∃ m, i = 2 * m + 1 := ⟨i / 2, by omega⟩
      obtain ⟨l, rfl⟩ : ∃ m, k = 2 * m := ⟨k / 2, by omega⟩
      have := lowOne_pos (i := l) (by omega)
      rw [lowOne_even (m := l) (by omega), lowOne_odd]
      omega
    · obtain ⟨m, rfl⟩ : ∃ m, i = 2 * m + 1 := ⟨i / 2, by omega⟩
      obtain ⟨l, rfl⟩ : ∃ m, k = 2 * m + 1 := ⟨k / 2, by omega⟩
      rw [lowOne_odd, lowOne_odd]
      omega

theorem lowOne_mul_two_pow (q j : Nat) : lowOne ((2 * q + 1) * 2 ^ j) = 2 ^ j := by
  induction j with
  | zero => simpa using lowOne_odd q
  | succ j ih =>
    rw [Nat.pow_succ, ← Nat.mul_assoc, Nat.mul_comm _ 2, lowOne_even (Nat.mul_pos (by omega) (Nat.two_pow_pos j)), ih, Nat.mul_comm]

/-! ### Sums -/

/-- Element `i - 1` is the sum of the numbers from place `i - lowOne i` up to place `i - 1`. -/
structure HoldsSums (as xs : List Nat) : Prop where
  len : xs.length = as.length
  part : ∀ i, 0 < i → ∀ (h : i - 1 < xs.length), (as.take i).sum = (as.take (i - lowOne i)).sum + xs[i - 1]

theorem sum_take_le (as : List Nat) (i : Nat) : (as.take i).sum ≤ as.sum := by
  conv => rhs; rw [← List.take_append_drop i as, List.sum_append_nat]
  omega

theorem sum_take_modify (as : List Nat) (d : Nat) {i : Nat} (h : i < as.length) (j : Nat) :
    ((as.modify i (· + d)).take j).sum = (as.take j).sum + if i < j then d else 0 := by
  induction as generalizing i j with
  | nil => simp at h
  | cons a as ih =>
    cases j with
    | zero => simp
    | succ j =>
      cases i with
      | zero => simp; omega
      | succ i =>
        have := ih (i := i) (by simpa using h) j
        simp only [List.modify_succ_cons, List.take_succ_cons, List.sum_cons, this, Nat.succ_lt_succ_iff]
        omega

variable {w k : Nat} {S : Type} {c : Cfg} {o : IntVecMutOps w S} {R : S → List Nat → Prop}

theorem fwSum_ok (c : Cfg) (h : IntVecLaw o k R) (hk : k ≤ w) {s : S} {as xs : List Nat} (hs : R s xs) (hF : HoldsSums as xs)
    {i acc : Nat} (hi : i ≤ as.length) (hacc : acc + (as.take i).sum < 2 ^ k) :
    fwSum c o s i acc = .ok (acc + (as.take i).sum) := by
  have hp := Nat.pow_le_pow_right (n := 2) (by omega) hk
  have hl := hF.len
  have ha := h.addressable hs
  induction i using Nat.strongRecOn generalizing acc with
  | ind i ih =>
    rw [fwSum]
    by_cases h0 : 0 < i
    · have hlo := lowOne_pos h0
      obtain ⟨x, e1, hx⟩ := h.get hs (i - 1) (by omega)
      have hpart := hF.part i h0 (by omega)
      rw [if_pos h0, subN_ok (by omega), Res.ok_bind, e1, Res.ok_bind, addN_ok (by omega), Res.ok_bind, and_pred h0,
        ih _ (by omega) (by omega) (by omega), hpart, hx]
      congr 1
      omega
    · obtain rfl : i = 0 := by omega
      rw [if_neg h0]
      simp

theorem fwAdd_ok (c : Cfg) (h : IntVecLaw o k R) (hk : k ≤ w) {d i : Nat} {xs : List Nat} (hn : xs.length < 2 ^ 63) (hi : 0 < i)
    (hd : ∀ j, 0 < j → (hj : j - 1 < xs.length) → j - lowOne j < i → i ≤ j → xs[j - 1] + d < 2 ^ k) :
    ∀ {j : Nat} {s : S} {ys : List Nat}, R s ys → 0 < j → ys.length = xs.length →
    (∀ l, 0 < l → ∀ (h1 : l - 1 < xs.length) (h2 : l - 1 < ys.length), ys[l - 1] = xs[l - 1] + if l < j ∧ l - lowOne l < i ∧ i ≤ l then d else 0) →
    (∀ l, j ≤ l → (l - lowOne l < i ∧ i ≤ l ↔ l - lowOne l < j ∧ j ≤ l)) →
    ∃ s' zs, fwAdd c o xs.length d s j = .ok s' ∧ R s' zs ∧ zs.length = xs.length ∧
      ∀ l, 0 < l → ∀ (h1 : l - 1 < xs.length) (h2 : l - 1 < zs.length), zs[l - 1] = xs[l - 1] + if l - lowOne l < i ∧ i ≤ l then d else 0 := by
  intro j
  have hp := Nat.pow_le_pow_right (n := 2) (by omega) hk
  generalize hm : xs.length + 1 - j = m
  induction m using Nat.strongRecOn generalizing j with
  | ind m ih =>
    intro s ys hs hj hl hy hc
    rw [fwAdd]
    by_cases hjn : j ≤ xs.length
    · have hlo := lowOne_pos hj
      obtain ⟨x, e1, hx⟩ := h.get hs (j - 1) (by omega)
      have hyj := hy j hj (by omega) (by omega)
      rw [if_neg (by omega)] at hyj
      have hcj := (hc j (Nat.le_refl j)).2 ⟨by omega, Nat.le_refl j⟩
      have hdj := hd j hj (by omega) hcj.1 hcj.2
      have hv : (BitVec.ofNat w (x.toNat + d)).toNat = x.toNat + d := by rw [BitVec.toNat_ofNat, Nat.mod_eq_of_lt (by omega)]
      obtain ⟨s1, e2, h2⟩ := h.set hs (j - 1) (BitVec.ofNat w (x.toNat + d)) (by omega) (by rw [hv]; omega)
      rw [hv] at h2
      obtain ⟨s', zs, e3, r1, r2, r3⟩ := ih (xs.length + 1 - (j + lowOne j)) (by omega) (j := j + lowOne j) rfl h2 (by omega) (by simpa using hl)
        (by
          intro l hl0 h3 h4
          rw [List.getElem_set]
          by_cases e : j - 1 = l - 1
          · obtain rfl : j = l := by omega
            rw [if_pos rfl, if_pos ⟨by omega, hcj⟩]
            omega
          · rw [if_neg e, hy l hl0 h3 (by simpa using h4)]
            congr 1
            by_cases hlj : l < j
            · simp [hlj, show l < j + lowOne j by omega]
            · have h5 := lowOne_next hj (k := l) (by omega)
              have h6 := hc l (by omega)
              rw [if_neg (by omega), if_neg (by omega)])
        (by
          intro l hlj
          have h5 := lowOne_next hj (k := l) (by omega)
          have h6 := hc l (by omega)
          omega)
      refine ⟨s', zs, ?_, r1, r2, r3⟩
      rw [if_pos hjn, subN_ok (by omega), Res.ok_bind, e1, Res.ok_bind, addN_ok (by omega), Res.ok_bind, e2, Res.ok_bind, and_pred hj,
        subN_ok (by omega), Res.ok_bind, show j - (j - lowOne j) = lowOne j by omega, addN_ok (by omega), Res.ok_bind, e3]
    · rw [if_neg hjn]
      refine ⟨s, ys, rfl, hs, hl, fun l hl0 h1 h2 => ?_⟩
      rw [hy l hl0 h1 h2]
      simp [show l < j by omega]

/-- C177: the sum of the first numbers. -/
theorem C177_sum (c : Cfg) (h : IntVecLaw o k R) (hk : k ≤ w) {s : S} {as xs : List Nat} (hs : R s xs) (hF : HoldsSums as xs)
    (hsum : as.sum < 2 ^ k) {i : Nat} (hi : i ≤ as.length) : fwSum c o s i 0 = .ok (as.take i).sum := by
  have := sum_take_le as i
  rw [fwSum_ok c h hk hs hF hi (by omega), Nat.zero_add]

theorem fwFind_ok (c : Cfg) (h : IntVecLaw o k R) {s : S} {as xs : List Nat} (hs : R s xs) (hF : HoldsSums as xs) (hn : as.length < 2 ^ 63)
    (j : Nat) (hj : j ≤ 62) {q x : Nat} (hp : q * 2 ^ (j + 1) ≤ as.length)
    (hx : q * 2 ^ (j + 1) + 2 ^ (j + 1) ≤ as.length → (as.take (q * 2 ^ (j + 1))).sum + x < (as.take (q * 2 ^ (j + 1) + 2 ^ (j + 1))).sum) :
    ∃ pos, fwFind c o as.length s (2 ^ j) (q * 2 ^ (j + 1)) x = .ok pos ∧ pos ≤ as.length ∧
      (as.take pos).sum ≤ (as.take (q * 2 ^ (j + 1))).sum + x ∧
      (pos < as.length → (as.take (q * 2 ^ (j + 1))).sum + x < (as.take (pos + 1)).sum) := by
  have hl := hF.len
  induction j generalizing q x with
  | zero =>
    have hlo := lowOne_odd q
    rw [Nat.mul_comm] at hlo
    simp only [Nat.zero_add, Nat.pow_one, Nat.pow_zero] at hp hx ⊢
    rw [fwFind, if_pos (by omega), addN_ok (by omega), Res.ok_bind]
    by_cases h1 : q * 2 + 1 ≤ as.length
    · obtain ⟨y, e1, hy⟩ := h.get hs (q * 2 + 1 - 1) (by omega)
      have hpart := hF.part (q * 2 + 1) (by omega) (by omega)
      simp only [hlo, Nat.add_sub_cancel] at hpart hy
      rw [if_pos h1, subN_ok (by omega), Res.ok_bind, e1, Res.ok_bind]
      by_cases h2 : y.toNat ≤ x
      · rw [if_pos h2, subN_ok (by omega), Res.ok_bind, fwFind, if_neg (by omega)]
        exact ⟨_, rfl, h1, by omega, fun h3 => hx (by omega)⟩
      · rw [if_neg h2, fwFind, if_neg (by omega)]
        exact ⟨_, rfl, hp, by omega, fun h3 => by omega⟩
    · rw [if_neg h1, fwFind, if_neg (by omega)]
      exact ⟨_, rfl, hp, by omega, fun h3 => by omega⟩
  | succ j ih =>
    have hlo := lowOne_mul_two_pow q (j + 1)
    have hpow : 2 ^ (j + 1) ≤ 2 ^ 62 := Nat.pow_le_pow_right (by omega) hj
    have hpos := Nat.two_pow_pos (j + 1)
    have hd : 2 ^ (j + 1) / 2 = 2 ^ j := by rw [Nat.pow_succ]; omega
    have e0 : q * 2 ^ (j + 1 + 1) = 2 * q * 2 ^ (j + 1) := by rw [Nat.pow_succ, Nat.mul_comm 2 q, Nat.mul_assoc, Nat.mul_comm 2]
    have e2 : 2 ^ (j + 1 + 1) = 2 ^ (j + 1) + 2 ^ (j + 1) := by rw [Nat.pow_succ]; omega
    have e3 : 2 * q * 2 ^ (j + 1) + 2 ^ (j + 1) = (2 * q + 1) * 2 ^ (j + 1) := by rw [Nat.add_mul, Nat.one_mul]
    rw [e0] at hp hx ⊢
    rw [e2] at hx
    rw [fwFind, if_pos hpos, addN_ok (by omega), Res.ok_bind, hd]
    by_cases h1 : 2 * q * 2 ^ (j + 1) + 2 ^ (j + 1) ≤ as.length
    · obtain ⟨y, e1, hy⟩ := h.get hs (2 * q * 2 ^ (j + 1) + 2 ^ (j + 1) - 1) (by omega)
      have hpart := hF.part (2 * q * 2 ^ (j + 1) + 2 ^ (j + 1)) (by omega) (by omega)
      rw [show lowOne (2 * q * 2 ^ (j + 1) + 2 ^ (j + 1)) = 2 ^ (j + 1) by rw [e3, hlo], Nat.add_sub_cancel] at hpart
      rw [if_pos h1, subN_ok (by omega), Res.ok_bind, e1, Res.ok_bind]
      by_cases h2 : y.toNat ≤ x
      · rw [if_pos h2, subN_ok (by omega), Res.ok_bind, e3]
        have e4 : (as.take ((2 * q + 1) * 2 ^ (j + 1))).sum + (x - y.toNat) = (as.take (2 * q * 2 ^ (j + 1))).sum + x := by rw [← e3]; omega
        obtain ⟨pos, r1, r2, r3, r4⟩ := ih (by omega) (q := 2 * q + 1) (x := x - y.toNat) (by omega) (fun h3 => by
          rw [← e3] at h3
          rw [e4, ← e3, Nat.add_assoc]
          exact hx (by omega))
        rw [e4] at r3 r4
        exact ⟨pos, r1, r2, r3, r4⟩
      · rw [if_neg h2]
        exact ih (by omega) hp (fun _ => by omega)
    · rw [if_neg h1]
      exact ih (by omega) hp (fun h3 => absurd h3 h1)

/-- C177: the last place up to which the sum is at most `x`. -/
theorem C177_find (c : Cfg) (h : IntVecLaw o k R) {s : S} {as xs : List Nat} (hs : R s xs) (hF : HoldsSums as xs) (hn : as.length < 2 ^ 63)
    {j : Nat} (hj : j ≤ 62) (hjn : as.length < 2 ^ (j + 1)) (x : Nat) :
    ∃ pos, fwFind c o as.length s (2 ^ j) 0 x = .ok pos ∧ pos ≤ as.length ∧ ∀ i ≤ as.length, ((as.take i).sum ≤ x ↔ i ≤ pos) := by
  obtain ⟨pos, e, h1, h2, h3⟩ := fwFind_ok c h hs hF hn j hj (q := 0) (x := x) (by simp) (fun h => by omega)
  simp only [Nat.zero_mul, List.take_zero, List.sum_nil, Nat.zero_add] at e h2 h3
  have mono : ∀ i j, i ≤ j → (as.take i).sum ≤ (as.take j).sum := fun i j hij => by
    have := sum_take_le (as.take j) i
    rwa [List.take_take, Nat.min_eq_left hij] at this
  refine ⟨pos, e, h1, fun i hi => ⟨fun hs => ?_, fun hp => Nat.le_trans (mono i pos hp) h2⟩⟩
  apply Nat.le_of_not_lt
  intro hlt
  have := mono (pos + 1) i hlt
  have := h3 (by omega)
  omega

/-- C177: adding to one number. -/
theorem C177_add (c : Cfg) (h : IntVecLaw o k R) (hk : k ≤ w) {s : S} {as xs : List Nat} (hs : R s xs) (hF : HoldsSums as xs) (hn : as.length < 2 ^ 63)
    {i d : Nat} (hi : i < as.length) (hsum : as.sum + d < 2 ^ k) :
    ∃ s' ys, fwAdd c o xs.length d s (i + 1) = .ok s' ∧ R s' ys ∧ HoldsSums (as.modify i (· + d)) ys := by
  have hl := hF.len
  obtain ⟨s', zs, e, r1, r2, r3⟩ := fwAdd_ok c h hk (d := d) (i := i + 1) (xs := xs) (by omega) (by omega) (fun j hj hjx _ _ => by
      have := hF.part j hj hjx
      have := sum_take_le as j
      omega) hs (j := i + 1) (by omega) rfl (fun l _ _ _ => by rw [if_neg (by omega)]; rfl) (fun l _ => Iff.rfl)
  refine ⟨s', zs, e, r1, by simp [r2, hl], fun j hj hjz => ?_⟩
  have hp := hF.part j hj (by omega)
  have hlo := lowOne_pos hj
  rw [sum_take_modify as d hi, sum_take_modify as d hi, r3 j hj (by omega) hjz, hp]
  by_cases h1 : i < j - lowOne j
  · rw [if_pos h1, if_pos (by omega), if_neg (by omega)]
    omega
  · by_cases h2 : i < j
    · rw [if_neg h1, if_pos h2, if_pos (by omega)]
      omega
    · rw [if_neg h1, if_neg h2, if_neg (by omega)]
      omega

/-- C177: every sequence of additions and questions, beginning with zeros. -/
theorem C177_sums (c : Cfg) (h : IntVecLaw o k R) (hk : k ≤ w) : ∀ (ops : List SumOp) {s : S} {as xs : List Nat}, R s xs → HoldsSums as xs →
    as.length < 2 ^ 63 → as.sum + added ops < 2 ^ k → (∀ op ∈ ops, op.Below as.length) →
    ∃ s', fwRun c o ops s = .ok (sums ops as, s')
  | [], s, _, _, _, _, _, _, _ => ⟨s, rfl⟩
  | .add i d :: ops, s, as, xs, hs, hF, hn, hsum, hb => by
    have hi : i < as.length := hb (.add i d) (by simp)
    rw [added] at hsum
    have hl := hF.len
    obtain ⟨s1, ys, e1, h1, h2⟩ := C177_add c h hk hs hF hn hi (d := d) (by omega)
    have hms : (as.modify i (· + d)).sum = as.sum + d := by
      have := sum_take_modify as d hi as.length
      rw [if_pos hi, List.take_length, List.take_of_length_le (by simp)] at this
      exact this
    obtain ⟨s', e2⟩ := C177_sums c h hk ops h1 h2 (by simpa using hn) (by omega) (fun op hop => by simpa using hb op (List.mem_cons_of_mem _ hop))
    refine ⟨s', ?_⟩
    rw [fwRun, h.len hs, Res.ok_bind, addN_ok (by omega), Res.ok_bind, e1, Res.ok_bind, e2, sums]
  | .sum i :: ops, s, as, xs, hs, hF, hn, hsum, hb => by
    rw [added] at hsum
    have e1 := C177_sum c h hk hs hF (by omega) (hb (.sum i) (by simp))
    obtain ⟨s', e2⟩ := C177_sums c h hk ops hs hF hn hsum (fun op hop => hb op (List.mem_cons_of_mem _ hop))
    refine ⟨s', ?_⟩
    rw [fwRun, e1, Res.ok_bind, e2, sums]
    rfl

/-- Zeros hold the sums of zeros. -/
theorem holdsSums_zero (n : Nat) : HoldsSums (List.replicate n 0) (List.replicate n 0) where
  len := by simp
  part i _ h := by simp

/-- C177: a new `IntVector` of zeros serves every sequence. -/
theorem C177_new (c : Cfg) (hw : IsBlk w) (h1 : 1 ≤ k) (hk : k ≤ w) {n : Nat} (hf : Fits c.usz w (n * k)) (hn : n < 2 ^ 63) (ops : List SumOp)
    (hsum : added ops < 2 ^ k) (hb : ∀ op ∈ ops, op.Below n) :
    ∃ v s', IV.withFill c k n (0 : BitVec w) = .ok v ∧ fwRun c (ivIntVec c w) ops v = .ok (sums ops (List.replicate n 0), s') := by
  obtain ⟨v, e, hv⟩ := ivInit_ok c hw h1 hk (.withFill n 0) hf
  obtain ⟨s', e'⟩ := C177_sums c (C166_int_vector c hw k) hk ops (hv.reach hw) (by simpa [IvInit.elems] using holdsSums_zero n) (by simpa using hn)
    (by simpa using hsum) (by simpa using hb)
  exact ⟨v, s', e, e'⟩

/-! Each theorem of this file that has hypotheses is applied to concrete data in `Verif/Instances/Fenwick.lean`. -/

end Succinct
