import Verif.Props.IntVecTrait
/-! Property C184: the least element of any range of an integer vector by two lookups, after a table of the ranges whose lengths are powers of two
has been pushed behind the elements. The programs here are not in the crate; they call `IntVector::push` and `get`. -/
namespace Succinct
open Spec

/-- `v` is the least of the elements at `l`, ..., `r - 1`. -/
def Spec.LeastIn (xs : List Nat) (l r v : Nat) : Prop :=
  (∃ i, l ≤ i ∧ i < r ∧ xs[i]? = some v) ∧ ∀ i x, l ≤ i → i < r → xs[i]? = some x → v ≤ x

/-- `while p <= d - p { p += p; k += 1 } (k, p)`, from `k = 0` and `p = 1` on -/
def leastLog (c : Cfg) (d k p : Nat) : Res (Nat × Nat) := do
  let e ← subN c 64 d p
  if p ≤ e then do
    let p ← addN c 64 p p
    let k ← addN c 64 k 1
    leastLog c d k p
  else .ok (k, p)
partial_fixpoint

section
variable {w : Nat} (c : Cfg)

/-- `min(a, b)` -/
def leastOf (a b : BitVec w) : BitVec w := if a.toNat ≤ b.toNat then a else b

/-- `let a = v.get(base + i); if i + p < n { min(a, v.get(base + i + p)) } else { a }` -/
def leastAt (n p base : Nat) (s : IV w) (i : Nat) : Res (BitVec w) := do
  let q ← addN c 64 base i
  let a ← s.get c q
  let j ← addN c 64 i p
  if j < n then do
    let q ← addN c 64 base j
    let b ← s.get c q
    .ok (leastOf a b)
  else .ok a

/-- `for i in 0 .. n { v.push((the above)) }` -/
def leastRow (n p base : Nat) (s : IV w) (i : Nat) : Res (IV w) :=
  if i < n then do
    let x ← leastAt c n p base s i
    let s ← s.push c x
    let i ← addN c 64 i 1
    leastRow n p base s i
  else .ok s
partial_fixpoint

/-- `for k in 0 .. m { (the above); p += p; base += n }` -/
def leastRows (n m : Nat) (s : IV w) (k p base : Nat) : Res (IV w) :=
  if k < m then do
    let s ← leastRow c n p base s 0
    let p ← addN c 64 p p
    let base ← addN c 64 base n
    let k ← addN c 64 k 1
    leastRows n m s k p base
  else .ok s
partial_fixpoint

/-- The table behind the elements. -/
def leastTable (s : IV w) : Res (IV w) := do
  let (m, _) ← leastLog c s.len 0 1
  leastRows c s.len m s 0 1 0

/-- `let (k, p) = log(r - l); min(v.get(k * n + l), v.get(k * n + r - p))` -/
def leastGet (n : Nat) (s : IV w) (l r : Nat) : Res (BitVec w) := do
  let d ← subN c 64 r l
  let (k, p) ← leastLog c d 0 1
  let base ← mulN c 64 k n
  let q ← addN c 64 base l
  let a ← s.get c q
  let q ← addN c 64 base r
  let q ← subN c 64 q p
  let b ← s.get c q
  .ok (leastOf a b)
end

/-! ### Least elements -/

theorem leastIn_one {xs : List Nat} {i x : Nat} (h : xs[i]? = some x) : LeastIn xs i (i + 1) x :=
  ⟨⟨i, Nat.le_refl _, by omega, h⟩, fun j y h1 h2 hy => by
    obtain rfl : j = i := by omega
    rw [h, Option.some.injEq] at hy
    omega⟩

/-- Ranges that meet or overlap. -/
theorem leastIn_join {xs : List Nat} {l m m' r u v : Nat} (h1 : l ≤ m') (h2 : m' ≤ m) (h3 : m ≤ r) (hu : LeastIn xs l m u) (hv : LeastIn xs m' r v) :
    LeastIn xs l r (if u ≤ v then u else v) := by
  obtain ⟨⟨i, a1, a2, a3⟩, a⟩ := hu
  obtain ⟨⟨j, b1, b2, b3⟩, b⟩ := hv
  constructor
  · split
    · exact ⟨i, a1, by omega, a3⟩
    · exact ⟨j, by omega, b2, b3⟩
  · intro y x hl hr hx
    rcases Nat.lt_or_ge y m with q | q
    · have := a y x hl q hx
      split <;> omega
    · have := b y x (by omega) hr hx
      split <;> omega

theorem leastOf_toNat (a b : BitVec w) : (leastOf a b).toNat = if a.toNat ≤ b.toNat then a.toNat else b.toNat := by
  rw [leastOf, apply_ite BitVec.toNat]

/-- C184: the least element of a range is one only. -/
theorem C184_unique {xs : List Nat} {l r u v : Nat} (hu : LeastIn xs l r u) (hv : LeastIn xs l r v) : u = v := by
  obtain ⟨⟨i, a1, a2, a3⟩, a⟩ := hu
  obtain ⟨⟨j, b1, b2, b3⟩, b⟩ := hv
  exact Nat.le_antisymm (a _ _ b1 b2 b3) (b _ _ a1 a2 a3)

/-! ### The table -/

/-- The elements and `m` rows behind them: the number at `i` in row `k` is the least of the `2 ^ k` elements from `i` on, or of those that are
there. -/
structure Spec.LeastRows (xs : List Nat) (m : Nat) (ts : List Nat) : Prop where
  len : ts.length = (m + 1) * xs.length
  row : ∀ k i, k ≤ m → i < xs.length → ∃ v, ts[k * xs.length + i]? = some v ∧ LeastIn xs i (min (i + 2 ^ k) xs.length) v

theorem leastLog_ok (c : Cfg) {d k p : Nat} (hd : d < 2 ^ 64) (hp : p = 2 ^ k) (h : p ≤ d) :
    ∃ k', leastLog c d k p = .ok (k', 2 ^ k') ∧ k ≤ k' ∧ 2 ^ k' ≤ d ∧ d < 2 * 2 ^ k' := by
  have h0 : 0 < p := by rw [hp]; exact Nat.two_pow_pos k
  rw [leastLog, subN_ok h, Res.ok_bind]
  by_cases q : p ≤ d - p
  · have hk : k < 2 ^ k := Nat.lt_two_pow_self
    obtain ⟨k', e, h1, h2, h3⟩ := leastLog_ok c (k := k + 1) (p := p + p) hd (by rw [Nat.pow_succ]; omega) (by omega)
    rw [if_pos q, addN_ok (by omega), Res.ok_bind, addN_ok (by omega), Res.ok_bind]
    exact ⟨k', e, by omega, h2, h3⟩
  · rw [if_neg q, hp]
    exact ⟨k, rfl, Nat.le_refl _, by omega, by omega⟩
termination_by d - p
decreasing_by omega

variable {w k : Nat} {c : Cfg}

theorem leastAt_ok (hw : IsBlk w) {xs ts : List Nat} {m : Nat} (h : LeastRows xs m ts) {s : IV w} {more : List Nat} (r : IR c w k s (ts ++ more))
    {i : Nat} (hi : i < xs.length) (hp : xs.length + 2 ^ m < 2 ^ 64) :
    ∃ v, leastAt c xs.length (2 ^ m) (m * xs.length) s i = .ok v ∧ LeastIn xs i (min (i + 2 ^ (m + 1)) xs.length) v.toNat ∧ v.toNat < 2 ^ k := by
  have law := C166_int_vector c hw k
  have rr := r.reach hw
  have h64 := law.addressable rr
  have e0 : (m + 1) * xs.length = m * xs.length + xs.length := Nat.succ_mul ..
  have e1 : 2 ^ (m + 1) = 2 ^ m + 2 ^ m := by rw [Nat.pow_succ]; omega
  have p0 : 0 < 2 ^ m := Nat.two_pow_pos m
  have hl : m * xs.length + xs.length + more.length < 2 ^ 64 := by
    rw [List.length_append, h.len, e0] at h64
    exact h64
  have look : ∀ i, i < xs.length → ∃ v, s.get c (m * xs.length + i) = .ok v ∧ LeastIn xs i (min (i + 2 ^ m) xs.length) v.toNat ∧ v.toNat < 2 ^ k := by
    intro i hi
    have hlt : m * xs.length + i < (ts ++ more).length := by rw [List.length_append, h.len]; omega
    obtain ⟨v, e, u⟩ := law.get rr (m * xs.length + i) hlt
    obtain ⟨v', e', hv⟩ := h.row m i (Nat.le_refl _) hi
    have : v.toNat = v' := by
      have q : (ts ++ more)[m * xs.length + i]? = some v.toNat := by rw [List.getElem?_eq_getElem hlt, u]
      rw [List.getElem?_append_left (by rw [h.len]; omega), e', Option.some.injEq] at q
      exact q.symm
    exact ⟨v, e, this ▸ hv, u ▸ law.lt rr _ (List.getElem_mem hlt)⟩
  obtain ⟨a, ea, ha, la⟩ := look i hi
  rw [leastAt, addN_ok (by omega), Res.ok_bind, ea, Res.ok_bind, addN_ok (by omega), Res.ok_bind]
  by_cases q : i + 2 ^ m < xs.length
  · obtain ⟨b, eb, hb, lb⟩ := look _ q
    rw [if_pos q, addN_ok (by omega), Res.ok_bind, eb, Res.ok_bind]
    refine ⟨_, rfl, ?_, by rw [leastOf_toNat]; split <;> omega⟩
    rw [leastOf_toNat, e1, ← Nat.add_assoc]
    exact leastIn_join (by omega) (by omega) (by omega) ha hb
  · rw [if_neg q]
    refine ⟨a, rfl, ?_, la⟩
    rw [Nat.min_eq_right (by omega)] at ha ⊢
    exact ha

theorem leastRow_ok (hw : IsBlk w) {xs ts : List Nat} {m : Nat} (h : LeastRows xs m ts) (hp : xs.length + 2 ^ m < 2 ^ 64)
    (hf : Fits c.usz w ((m + 2) * xs.length * k)) {d i : Nat} (hd : d = xs.length - i) {s : IV w} {more : List Nat} (r : IR c w k s (ts ++ more))
    (hl : more.length = i) (hi : i ≤ xs.length) (hm : ∀ j, j < i → ∃ v, more[j]? = some v ∧ LeastIn xs j (min (j + 2 ^ (m + 1)) xs.length) v) :
    ∃ s' ts', leastRow c xs.length (2 ^ m) (m * xs.length) s i = .ok s' ∧ IR c w k s' ts' ∧ LeastRows xs (m + 1) ts' := by
  have e0 : (m + 1) * xs.length = m * xs.length + xs.length := Nat.succ_mul ..
  have e2 : (m + 2) * xs.length = (m + 1) * xs.length + xs.length := Nat.succ_mul ..
  have e3 : (m + 1 + 1) * xs.length = (m + 1) * xs.length + xs.length := Nat.succ_mul ..
  have p0 : 0 < 2 ^ m := Nat.two_pow_pos m
  induction d generalizing i s more with
  | zero =>
    rw [leastRow, if_neg (by omega)]
    refine ⟨s, ts ++ more, rfl, r, ⟨by rw [List.length_append, h.len]; omega, fun a b ha hb => ?_⟩⟩
    rcases Nat.lt_or_ge m a with q | q
    · obtain rfl : a = m + 1 := by omega
      rw [List.getElem?_append_right (by rw [h.len]; omega), h.len, Nat.add_sub_cancel_left]
      exact hm b (by omega)
    · have : a * xs.length ≤ m * xs.length := Nat.mul_le_mul_right _ q
      rw [List.getElem?_append_left (by rw [h.len]; omega)]
      exact h.row a b q hb
  | succ d ih =>
    have hi' : i < xs.length := by omega
    obtain ⟨v, e, hv, lv⟩ := leastAt_ok hw h r hi' hp
    obtain ⟨s1, e1, r1⟩ := r.push_ok hw v (hf.mono (by
      rw [← Nat.succ_mul]
      refine Nat.mul_le_mul_right _ ?_
      rw [List.length_append, h.len]
      omega)) lv
    rw [leastRow, if_pos hi', e, Res.ok_bind, e1, Res.ok_bind, addN_ok (by omega), Res.ok_bind]
    rw [List.append_assoc] at r1
    refine ih (by omega) r1 (by simp [hl]) (by omega) (fun j hj => ?_)
    rcases Nat.lt_or_ge j i with q | q
    · rw [List.getElem?_append_left (by omega)]
      exact hm j q
    · obtain rfl : j = i := by omega
      rw [← hl, List.getElem?_append_right (Nat.le_refl _), Nat.sub_self]
      exact ⟨v.toNat, rfl, hl ▸ hv⟩

theorem leastRows_ok (hw : IsBlk w) {xs : List Nat} {m : Nat} (hp : xs.length + 2 ^ m < 2 ^ 64) (hf : Fits c.usz w ((m + 1) * xs.length * k)) (hm : m < 2 ^ 64)
    {d a : Nat} (hd : d = m - a) (ha : a ≤ m) {s : IV w} {ts : List Nat} (r : IR c w k s ts) (h : LeastRows xs a ts) :
    ∃ s' ts', leastRows c xs.length m s a (2 ^ a) (a * xs.length) = .ok s' ∧ IR c w k s' ts' ∧ LeastRows xs m ts' := by
  induction d generalizing a s ts with
  | zero =>
    obtain rfl : a = m := by omega
    rw [leastRows, if_neg (by omega)]
    exact ⟨s, ts, rfl, r, h⟩
  | succ d ih =>
    have h1 : 2 ^ (a + 1) ≤ 2 ^ m := Nat.pow_le_pow_right (by decide) (by omega)
    have p0 : 0 < 2 ^ a := Nat.two_pow_pos a
    have h2 : 2 ^ (a + 1) = 2 ^ a + 2 ^ a := by rw [Nat.pow_succ]; omega
    have h3 : (a + 2) * xs.length ≤ (m + 1) * xs.length := Nat.mul_le_mul_right _ (by omega)
    have h4 : (a + 1) * xs.length = a * xs.length + xs.length := Nat.succ_mul ..
    obtain ⟨s1, ts1, e1, r1, l1⟩ := leastRow_ok hw h (by omega) (hf.mono (Nat.mul_le_mul_right _ h3)) rfl (i := 0) (more := []) (by simpa using r) rfl
      (Nat.zero_le _) (fun j hj => by omega)
    have h64 := (C166_int_vector c hw k).addressable (r1.reach hw)
    rw [l1.len] at h64
    have h5 : (a + 1 + 1) * xs.length = (a + 1) * xs.length + xs.length := Nat.succ_mul ..
    rw [leastRows, if_pos (by omega), e1, Res.ok_bind, addN_ok (by omega), Res.ok_bind, addN_ok (by omega), Res.ok_bind, addN_ok (by omega), Res.ok_bind,
      ← h2, ← h4]
    exact ih (by omega) (by omega) r1 l1

theorem leastRows_zero (xs : List Nat) : LeastRows xs 0 xs where
  len := by omega
  row a i ha hi := by
    obtain rfl : a = 0 := by omega
    refine ⟨xs[i], by rw [Nat.zero_mul, Nat.zero_add, List.getElem?_eq_getElem hi], ?_⟩
    rw [Nat.min_eq_left (by rw [Nat.pow_zero]; omega)]
    exact leastIn_one (List.getElem?_eq_getElem hi)

/-- C184: the rows are made behind the elements of any `IntVector` with room for them: as many as there are powers of two up to its length. -/
theorem C184_table (hw : IsBlk w) {s : IV w} {xs : List Nat} (r : IvReach c w k s xs) (h0 : xs ≠ []) {m : Nat} (hm : 2 ^ m ≤ xs.length ∧ xs.length < 2 ^ (m + 1))
    (hf : Fits c.usz w ((m + 1) * xs.length * k)) :
    ∃ s' ts, leastTable c s = .ok s' ∧ IvReach c w k s' ts ∧ LeastRows xs m ts := by
  have law := C166_int_vector c hw k
  have len : s.len = xs.length := by
    have : Res.ok s.len = .ok xs.length := law.len r
    exact Res.ok.inj this
  have pos := List.length_pos_iff.2 h0
  have hn : xs.length + 2 ^ m < 2 ^ 64 := by
    have a := hf.lt hw.pos
    have b : (m + 1) * xs.length * 1 ≤ (m + 1) * xs.length * k := Nat.mul_le_mul_left _ (r.rep hw).pos
    have e : (m + 1) * xs.length = m * xs.length + xs.length := Nat.succ_mul ..
    rw [Nat.mul_one] at b
    rcases Nat.eq_zero_or_pos m with rfl | q
    · have := hm.2
      rw [Nat.zero_add] at this
      omega
    · have : 1 * xs.length ≤ m * xs.length := Nat.mul_le_mul_right _ q
      omega
  obtain ⟨a, e, -, h1, h2⟩ := leastLog_ok c (d := xs.length) (k := 0) (p := 1) (by omega) rfl pos
  obtain rfl : a = m := by
    have e1 : 2 ^ (a + 1) = 2 * 2 ^ a := by rw [Nat.pow_succ]; omega
    rcases Nat.lt_trichotomy a m with q | q | q
    · have : 2 ^ (a + 1) ≤ 2 ^ m := Nat.pow_le_pow_right (by decide) (by omega)
      omega
    · exact q
    · have : 2 ^ (m + 1) ≤ 2 ^ a := Nat.pow_le_pow_right (by decide) (by omega)
      omega
  have ha : a < 2 ^ a := Nat.lt_two_pow_self
  obtain ⟨s', ts, e', r', h'⟩ := leastRows_ok hw (by omega) hf (by omega) rfl (Nat.zero_le _) (r.rep hw) (leastRows_zero xs)
  refine ⟨s', ts, ?_, r'.reach hw, h'⟩
  rw [leastTable, len, e]
  simpa using e'

/-- C184: with the rows, two lookups give the least element of any range. -/
theorem C184_least (hw : IsBlk w) {s : IV w} {xs ts : List Nat} {m : Nat} (h : LeastRows xs m ts) (hm : xs.length < 2 ^ (m + 1)) (r : IvReach c w k s ts)
    {i j : Nat} (hij : i < j) (hj : j ≤ xs.length) :
    ∃ v, leastGet c xs.length s i j = .ok v ∧ LeastIn xs i j v.toNat := by
  have law := C166_int_vector c hw k
  have h64 := law.addressable r
  rw [h.len, Nat.succ_mul] at h64
  obtain ⟨a, e, -, h1, h2⟩ := leastLog_ok c (d := j - i) (k := 0) (p := 1) (by omega) rfl (by omega)
  have ham : a ≤ m := by
    rcases Nat.lt_or_ge m a with q | q
    · have : 2 ^ (m + 1) ≤ 2 ^ a := Nat.pow_le_pow_right (by decide) (by omega)
      omega
    · exact q
  have hle : a * xs.length ≤ m * xs.length := Nat.mul_le_mul_right _ ham
  have look : ∀ i, i + 2 ^ a ≤ xs.length → ∃ v, s.get c (a * xs.length + i) = .ok v ∧ LeastIn xs i (i + 2 ^ a) v.toNat := by
    intro i hi
    have p : 0 < 2 ^ a := Nat.two_pow_pos a
    have hlt : a * xs.length + i < ts.length := by rw [h.len, Nat.succ_mul]; omega
    obtain ⟨v, e, u⟩ := law.get r (a * xs.length + i) hlt
    obtain ⟨v', e', hv⟩ := h.row a i ham (by omega)
    rw [List.getElem?_eq_getElem hlt, Option.some.injEq] at e'
    rw [Nat.min_eq_left hi] at hv
    exact ⟨v, e, by rw [u, e']; exact hv⟩
  obtain ⟨x, ex, hx⟩ := look i (by omega)
  obtain ⟨y, ey, hy⟩ := look (j - 2 ^ a) (by omega)
  refine ⟨leastOf x y, ?_, ?_⟩
  · rw [leastGet, subN_ok (by omega), Res.ok_bind, e]
    show (mulN c 64 a xs.length).bind _ = _
    rw [mulN_ok (by omega)]
    show (addN c 64 (a * xs.length) i).bind _ = _
    rw [addN_ok (by omega)]
    show (s.get c (a * xs.length + i)).bind _ = _
    rw [ex]
    show (addN c 64 (a * xs.length) j).bind _ = _
    rw [addN_ok (by omega)]
    show (subN c 64 (a * xs.length + j) (2 ^ a)).bind _ = _
    rw [subN_ok (by omega)]
    show (s.get c (a * xs.length + j - 2 ^ a)).bind _ = _
    rw [Nat.add_sub_assoc (by omega), ey]
    rfl
  · rw [leastOf_toNat]
    rw [Nat.sub_add_cancel (by omega)] at hy
    exact leastIn_join (by omega) (by omega) (by omega) hx hy

/-! Each theorem of this file that has hypotheses is applied to concrete data in `Verif/Instances/RangeLeast.lean`. -/

end Succinct
