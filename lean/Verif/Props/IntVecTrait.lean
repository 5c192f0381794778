import Verif.Props.Reach
/-! Property C166: generic code over the traits `IntVec` and `IntVecMut` (int_vec/traits.rs). The wrappers and the programs here are not in
the crate; the programs call the methods of the traits only. -/
namespace Succinct
open Spec

/-- `trait IntVec`, int_vec/traits.rs:4-26; `is_empty` is the default. -/
structure IntVecOps (w : Nat) (S : Type) where
  len : S → Res Nat
  elementBits : S → Res Nat
  get : S → Nat → Res (BitVec w)

/-- default `IntVec::is_empty`, int_vec/traits.rs:13-15. -/
def IntVecOps.isEmpty (o : IntVecOps w S) (s : S) : Res Bool := do
  let n ← o.len s
  .ok (n = 0)

/-- `trait IntVecMut: IntVec`, int_vec/traits.rs:29-39. -/
structure IntVecMutOps (w : Nat) (S : Type) extends IntVecOps w S where
  set : S → Nat → BitVec w → Res S

/-- The contract of the two traits: `R s xs` if `s` holds `xs`, all elements `k` bits wide. -/
structure IntVecLaw (o : IntVecMutOps w S) (k : Nat) (R : S → List Nat → Prop) : Prop where
  lt : ∀ {s xs}, R s xs → ∀ x ∈ xs, x < 2 ^ k
  addressable : ∀ {s xs}, R s xs → xs.length < 2 ^ 64
  len : ∀ {s xs}, R s xs → o.len s = .ok xs.length
  elementBits : ∀ {s xs}, R s xs → o.elementBits s = .ok k
  get : ∀ {s xs}, R s xs → ∀ (i : Nat) (hi : i < xs.length), ∃ x, o.get s i = .ok x ∧ x.toNat = xs[i]
  set : ∀ {s xs}, R s xs → ∀ (i : Nat) (x : BitVec w), i < xs.length → x.toNat < 2 ^ k → ∃ s', o.set s i x = .ok s' ∧ R s' (xs.set i x.toNat)

/-- `impl IntVec for IntVector` and `impl IntVecMut for IntVector`, int_vector.rs:298-333. -/
def ivIntVec (c : Cfg) (w : Nat) : IntVecMutOps w (IV w) where
  len s := .ok s.len
  elementBits s := .ok s.elementBits
  get s i := s.get c i
  set s i x := s.set c i x

/-- A user's wrapper: elements of `k` bits in any bit vector, `len() = bit_len() / k`, `get(i) = get_bits(i * k, k)`,
`set(i, x) = set_bits(i * k, k, x)`. -/
def packed (c : Cfg) (o : BitVecMutOps w S) (k : Nat) : IntVecMutOps w S where
  len s := do
    let n ← o.bitLen s
    divN n k
  elementBits _ := .ok k
  get s i := do
    let p ← mulN c 64 i k
    o.getBits s p k
  set s i x := do
    let p ← mulN c 64 i k
    o.setBits s p k x

/-- A user's wrapper: `n` elements of any integer vector, from `a` on. -/
def window (c : Cfg) (o : IntVecMutOps w S) (a n : Nat) : IntVecMutOps w S where
  len _ := .ok n
  elementBits := o.elementBits
  get s i := if i < n then do
      let p ← addN c 64 a i
      o.get s p
    else .panic
  set s i x := if i < n then do
      let p ← addN c 64 a i
      o.set s p x
    else .panic

/-- A user's wrapper: the elements of any integer vector, the last one first. -/
def backwards (c : Cfg) (o : IntVecMutOps w S) : IntVecMutOps w S where
  len := o.len
  elementBits := o.elementBits
  get s i := do
    let n ← o.len s
    let m ← subN c 64 n 1
    let p ← subN c 64 m i
    o.get s p
  set s i x := do
    let n ← o.len s
    let m ← subN c 64 n 1
    let p ← subN c 64 m i
    o.set s p x

section
variable {w : Nat} {S T : Type} (c : Cfg) (o : IntVecMutOps w S)

/-- `let a = v.get(i); let b = v.get(j); v.set(i, b); v.set(j, a)` -/
def ivSwap (s : S) (i j : Nat) : Res S := do
  let a ← o.get s i
  let b ← o.get s j
  let s ← o.set s i b
  o.set s j a

/-- `for i in 0 .. v.len() / 2 { swap(v, i, v.len() - 1 - i) }` -/
def ivReverse (s : S) : Res S := do
  let n ← o.len s
  forRange 0 (n / 2) s fun i s => do
    let m ← subN c 64 n 1
    let j ← subN c 64 m i
    ivSwap o s i j

/-- `while j > 0 && v.get(j - 1) > v.get(j) { swap(v, j - 1, j); j -= 1 }` -/
def ivSift : Nat → S → Res S
  | 0, s => .ok s
  | j + 1, s => do
    let a ← o.get s j
    let b ← o.get s (j + 1)
    if b < a then do
      let s ← ivSwap o s j (j + 1)
      ivSift j s
    else .ok s

/-- `for i in 1 .. v.len() { (the loop above from i) }` -/
def ivSort (s : S) : Res S := do
  let n ← o.len s
  forRange 1 n s fun i s => ivSift o i s

/-- `while lo < hi { let mid = lo + (hi - lo) / 2; if v.get(mid) < x { lo = mid + 1 } else { hi = mid } } lo` -/
def ivSearch (s : S) (x : BitVec w) (lo hi : Nat) : Res Nat :=
  if lo < hi then do
    let d ← subN c 64 hi lo
    let mid ← addN c 64 lo (d / 2)
    let y ← o.get s mid
    if y < x then do
      let lo ← addN c 64 mid 1
      ivSearch s x lo hi
    else ivSearch s x lo mid
  else .ok lo
partial_fixpoint

/-- The search in the whole vector. -/
def ivLowerBound (s : S) (x : BitVec w) : Res Nat := do
  let n ← o.len s
  ivSearch c o s x 0 n

/-- `for i in 0 .. p.len() { q.set(p.get(i), i) }` -/
def ivInverse {w' : Nat} (o' : IntVecMutOps w' T) (s : S) (q : T) : Res T := do
  let n ← o.len s
  forRange 0 n q fun i q => do
    let x ← o.get s i
    o'.set q x.toNat (BitVec.ofNat w' i)
end

/-! ### Implementations -/

variable {w k : Nat} {S T : Type} {c : Cfg} {o : IntVecMutOps w S} {R : S → List Nat → Prop}

/-- C166: `IntVector` keeps the contract. -/
theorem C166_int_vector (c : Cfg) (h : IsBlk w) (k : Nat) : IntVecLaw (ivIntVec c w) k (IvReach c w k) where
  lt hs := (hs.rep h).lt
  addressable hs := by
    have h1 := (hs.rep h).rep.fits.lt h.pos
    rw [length_packBits] at h1
    exact Nat.lt_of_le_of_lt (Nat.le_mul_of_pos_right _ (hs.rep h).pos) (Nat.lt_of_le_of_lt (Nat.le_add_right _ _) h1)
  len hs := congrArg _ (hs.rep h).len
  elementBits hs := congrArg _ (hs.rep h).eb
  get hs i hi := (hs.rep h).get_ok h hi
  set hs i x hi hx := by
    obtain ⟨s', e, h'⟩ := (hs.rep h).set_ok h hi hx
    exact ⟨s', e, h'.reach h⟩

theorem overwrite_append {a l : List Bool} {p : Nat} (rest : List Bool) (h : p + l.length ≤ a.length) :
    overwrite (a ++ rest) p l = overwrite a p l ++ rest := by
  unfold overwrite
  rw [List.take_append_of_le_length (by omega), List.drop_append_of_le_length h]
  simp

/-- C166: elements of `k` bits in any lawful bit vector are a lawful integer vector; bits beyond the last element stay. -/
theorem C166_packed {o : BitVecMutOps w S} {R : S → List Bool → Prop} (hl : BVLaw c o.toBitVecOps R) (hm : BVWriteLaw o R) (h1 : 1 ≤ k)
    (hk : k ≤ w) {rest : List Bool} (hr : rest.length < k) :
    IntVecLaw (packed c o k) k fun s xs => (∀ x ∈ xs, x < 2 ^ k) ∧ R s (packBits k xs ++ rest) where
  lt hs := hs.1
  addressable {s xs} hs := by
    have h2 := (hl.fits hs.2).lt (by omega)
    rw [List.length_append, length_packBits] at h2
    have := Nat.le_mul_of_pos_right xs.length h1
    omega
  len {s xs} hs := by
    show (o.bitLen s).bind _ = _
    rw [hl.bitLen hs.2, List.length_append, length_packBits]
    show divN _ _ = _
    rw [divN_ok (by omega), Nat.mul_comm, Nat.mul_add_div h1, Nat.div_eq_of_lt hr, Nat.add_zero]
  elementBits _ := rfl
  get {s xs} hs i hi := by
    have he := span_end (k := k) hi
    have h2 := (hl.fits hs.2).lt (by omega)
    rw [List.length_append, length_packBits] at h2
    refine ⟨BitVec.ofNat w (bitsVal (((packBits k xs ++ rest).drop (i * k)).take k)), ?_, ?_⟩
    · show (mulN c 64 i k).bind _ = _
      rw [mulN_ok (by omega)]
      exact hl.getBits hs.2 _ _ h1 hk (by rw [List.length_append, length_packBits]; omega)
    · have hlt := hs.1 _ (List.getElem_mem hi)
      have h2 := Nat.pow_le_pow_right (n := 2) (by omega) hk
      rw [List.drop_append_of_le_length (by rw [length_packBits]; omega),
        List.take_append_of_le_length (by rw [List.length_drop, length_packBits]; omega), packBits_elem k xs i hi, bitsVal_natBits,
        BitVec.toNat_ofNat, Nat.mod_eq_of_lt hlt, Nat.mod_eq_of_lt (by omega)]
  set {s xs} hs i x hi hx := by
    have he := span_end (k := k) hi
    have h2 := (hl.fits hs.2).lt (by omega)
    rw [List.length_append, length_packBits] at h2
    obtain ⟨s', e, h'⟩ := hm.setBits hs.2 (i * k) k x h1 hk (by rw [List.length_append, length_packBits]; omega)
    refine ⟨s', ?_, ?_, ?_⟩
    · show (mulN c 64 i k).bind _ = _
      rw [mulN_ok (by omega)]
      exact e
    · intro y hy
      rcases List.mem_or_eq_of_mem_set hy with hy | rfl
      · exact hs.1 y hy
      · exact hx
    · rw [overwrite_append _ (by rw [length_natBits, length_packBits]; omega), ← packBits_set k xs i _ hi] at h'
      exact h'

/-- C166: part of a lawful integer vector is a lawful integer vector; the elements around it stay. -/
theorem C166_window (c : Cfg) (h : IntVecLaw o k R) (before after : List Nat) (n : Nat) :
    IntVecLaw (window c o before.length n) k fun s xs => xs.length = n ∧ R s (before ++ xs ++ after) where
  lt hs x hx := h.lt hs.2 x (by simp [hx])
  addressable hs := by
    have := h.addressable hs.2
    rw [List.length_append, List.length_append] at this
    omega
  len hs := congrArg _ hs.1.symm
  elementBits hs := h.elementBits hs.2
  get {s xs} hs i hi := by
    have h2 := h.addressable hs.2
    rw [List.length_append, List.length_append] at h2
    have hn := hs.1
    obtain ⟨x, e, hx⟩ := h.get hs.2 (before.length + i) (by rw [List.length_append, List.length_append]; omega)
    refine ⟨x, ?_, ?_⟩
    · show (if i < n then _ else _) = _
      rw [if_pos (by omega), addN_ok (by omega)]
      exact e
    · rw [hx, List.getElem_append_left (by rw [List.length_append]; omega), List.getElem_append_right (by omega)]
      congr 1
      omega
  set {s xs} hs i x hi hx := by
    have h2 := h.addressable hs.2
    rw [List.length_append, List.length_append] at h2
    have hn := hs.1
    obtain ⟨s', e, h'⟩ := h.set hs.2 (before.length + i) x (by rw [List.length_append, List.length_append]; omega) hx
    refine ⟨s', ?_, by rw [List.length_set]; exact hn, ?_⟩
    · show (if i < n then _ else _) = _
      rw [if_pos (by omega), addN_ok (by omega)]
      exact e
    · rw [List.set_append_left _ _ (by rw [List.length_append]; omega), List.set_append_right _ _ (by omega),
        show before.length + i - before.length = i by omega] at h'
      exact h'

/-- C166: a lawful integer vector read from its end is a lawful integer vector. -/
theorem C166_backwards (c : Cfg) (h : IntVecLaw o k R) : IntVecLaw (backwards c o) k fun s xs => R s xs.reverse where
  lt hs x hx := h.lt hs x (by simp [hx])
  addressable hs := by simpa using h.addressable hs
  len {s xs} hs := by rw [← List.length_reverse (as := xs)]; exact h.len hs
  elementBits hs := h.elementBits hs
  get {s xs} hs i hi := by
    obtain ⟨x, e, hx⟩ := h.get hs (xs.length - 1 - i) (by rw [List.length_reverse]; omega)
    refine ⟨x, ?_, ?_⟩
    · show (o.len s).bind _ = _
      rw [h.len hs, List.length_reverse]
      show (subN c 64 _ 1).bind _ = _
      rw [subN_ok (by omega)]
      show (subN c 64 _ i).bind _ = _
      rw [subN_ok (by omega)]
      exact e
    · rw [hx, List.getElem_reverse]
      congr 1
      omega
  set {s xs} hs i x hi hx := by
    obtain ⟨s', e, h'⟩ := h.set hs (xs.length - 1 - i) x (by rw [List.length_reverse]; omega) hx
    refine ⟨s', ?_, ?_⟩
    · show (o.len s).bind _ = _
      rw [h.len hs, List.length_reverse]
      show (subN c 64 _ 1).bind _ = _
      rw [subN_ok (by omega)]
      show (subN c 64 _ i).bind _ = _
      rw [subN_ok (by omega)]
      exact e
    · have : xs.reverse.set (xs.length - 1 - i) x.toNat = (xs.set i x.toNat).reverse := by
        apply List.ext_getElem
        · simp
        · intro p g1 g2
          rw [List.getElem_set, List.getElem_reverse, List.getElem_reverse, List.getElem_set]
          simp only [List.length_set, List.length_reverse] at g1 g2 ⊢
          by_cases hp : xs.length - 1 - i = p
          · rw [if_pos hp, if_pos (by omega)]
          · rw [if_neg hp, if_neg (by omega)]
      rw [this] at h'
      exact h'

/-! ### Programs -/

theorem IntVecLaw.swap (h : IntVecLaw o k R) {s : S} {xs : List Nat} (hs : R s xs) {i j : Nat} (hi : i < xs.length) (hj : j < xs.length) :
    ∃ s', ivSwap o s i j = .ok s' ∧ R s' ((xs.set i xs[j]).set j xs[i]) := by
  obtain ⟨a, e1, h1⟩ := h.get hs i hi
  obtain ⟨b, e2, h2⟩ := h.get hs j hj
  obtain ⟨s1, e3, h3⟩ := h.set hs i b hi (by rw [h2]; exact h.lt hs _ (List.getElem_mem hj))
  obtain ⟨s2, e4, h4⟩ := h.set h3 j a (by rw [List.length_set]; exact hj) (by rw [h1]; exact h.lt hs _ (List.getElem_mem hi))
  rw [h1, h2] at h4
  exact ⟨s2, by rw [ivSwap, e1, Res.ok_bind, e2, Res.ok_bind, e3, Res.ok_bind, e4], h4⟩

/-- C166: reversing. -/
theorem C166_reverse (c : Cfg) (h : IntVecLaw o k R) {s : S} {xs : List Nat} (hs : R s xs) : ∃ s', ivReverse c o s = .ok s' ∧ R s' xs.reverse := by
  rw [ivReverse, h.len hs, Res.ok_bind]
  obtain ⟨s', e, ys, h1, h2, h3⟩ := forRange_inv (lo := 0) (hi := xs.length / 2) (s := s) (f := fun i s => do
      let m ← subN c 64 xs.length 1
      let j ← subN c 64 m i
      ivSwap o s i j)
    (fun i s => ∃ ys, R s ys ∧ ys.length = xs.length ∧ ∀ p < xs.length, ys[p]? = if p < i ∨ xs.length - i ≤ p then xs[xs.length - 1 - p]? else xs[p]?)
    (by omega) ⟨xs, hs, rfl, fun p hp => by rw [if_neg (by omega)]⟩ (by
      rintro i s - hi ⟨ys, h1, h2, h3⟩
      rw [subN_ok (by omega), Res.ok_bind, subN_ok (by omega), Res.ok_bind]
      obtain ⟨s', e, h4⟩ := h.swap h1 (i := i) (j := xs.length - 1 - i) (by omega) (by omega)
      refine ⟨s', e, _, h4, by rw [List.length_set, List.length_set, h2], fun p hp => ?_⟩
      rw [List.getElem?_set, List.getElem?_set, List.length_set, ← List.getElem?_eq_getElem, ← List.getElem?_eq_getElem, h3 i (by omega),
        h3 (xs.length - 1 - i) (by omega), h3 p hp, if_neg (c := i < i ∨ _) (by omega), if_neg (c := xs.length - 1 - i < i ∨ _) (by omega)]
      by_cases g1 : xs.length - 1 - i = p
      · rw [if_pos g1, if_pos (by omega), if_pos (by omega)]
        congr 1; omega
      · rw [if_neg g1]
        by_cases g2 : i = p
        · rw [if_pos g2, if_pos (by omega), if_pos (by omega)]
          congr 1; omega
        · rw [if_neg g2]
          by_cases g3 : p < i ∨ xs.length - i ≤ p
          · rw [if_pos g3, if_pos (by omega)]
          · rw [if_neg g3, if_neg (by omega)])
  refine ⟨s', e, ?_⟩
  have : ys = xs.reverse := by
    apply List.ext_getElem?
    intro p
    by_cases hp : p < xs.length
    · rw [h3 p hp, List.getElem?_reverse hp]
      split
      · rfl
      · congr 1; omega
    · rw [List.getElem?_eq_none (by omega), List.getElem?_eq_none (by rw [List.length_reverse]; omega)]
  rw [← this]
  exact h1

theorem IntVecLaw.sift (h : IntVecLaw o k R) (C : List Nat) (x : Nat) : ∀ (j : Nat) (s : S) (A B : List Nat), A.length = j → R s (A ++ x :: B ++ C) →
    (A ++ B).Pairwise (· ≤ ·) → (∀ b ∈ B, x ≤ b) →
    ∃ s' L, ivSift o j s = .ok s' ∧ R s' (L ++ C) ∧ L.Pairwise (· ≤ ·) ∧ L.Perm (A ++ x :: B) := by
  intro j
  induction j with
  | zero =>
    intro s A B hA hs hp hx
    obtain rfl := List.length_eq_zero_iff.1 hA
    exact ⟨s, _, rfl, hs, List.pairwise_cons.2 ⟨hx, hp⟩, .refl _⟩
  | succ j ih =>
    intro s A B hA hs hp hx
    obtain ⟨A, a, rfl⟩ : ∃ A' a, A = A' ++ [a] := ⟨A.dropLast, A.getLast (by rintro rfl; simp at hA), (List.dropLast_concat_getLast _).symm⟩
    rw [List.length_append, List.length_singleton, Nat.succ_inj] at hA
    subst hA
    obtain ⟨a', e1, h1⟩ := h.get hs A.length (by simp)
    obtain ⟨b', e2, h2⟩ := h.get hs (A.length + 1) (by simp)
    have g1 : (A ++ [a] ++ x :: B ++ C)[A.length]'(by simp) = a := by simp
    have g2 : (A ++ [a] ++ x :: B ++ C)[A.length + 1]'(by simp) = x := by simp
    rw [g1] at h1
    rw [g2] at h2
    rw [ivSift, e1, Res.ok_bind, e2, Res.ok_bind]
    by_cases hlt : b' < a'
    · rw [if_pos hlt]
      rw [BitVec.lt_def, h1, h2] at hlt
      obtain ⟨s1, e3, h3⟩ := h.swap hs (i := A.length) (j := A.length + 1) (by simp) (by simp)
      rw [e3, Res.ok_bind]
      rw [g1, g2] at h3
      have g3 : ((A ++ [a] ++ x :: B ++ C).set A.length x).set (A.length + 1) a = A ++ x :: (a :: B) ++ C := by
        simp
      rw [g3] at h3
      have hp' : (A ++ (a :: B)).Pairwise (· ≤ ·) := by simpa using hp
      have hx' : ∀ b ∈ a :: B, x ≤ b := by
        intro b hb
        rcases List.mem_cons.1 hb with rfl | hb
        · omega
        · exact hx b hb
      obtain ⟨s', L, k1, k2, k3, k4⟩ := ih s1 A (a :: B) rfl h3 hp' hx'
      refine ⟨s', L, k1, k2, k3, k4.trans ?_⟩
      rw [List.append_assoc]
      exact List.Perm.append_left A (.swap ..)
    · rw [if_neg hlt]
      rw [BitVec.lt_def, h1, h2] at hlt
      refine ⟨s, _, rfl, hs, ?_, .refl _⟩
      rw [List.pairwise_append] at hp ⊢
      obtain ⟨p1, p2, p3⟩ := hp
      refine ⟨p1, List.pairwise_cons.2 ⟨hx, p2⟩, fun u hu v hv => ?_⟩
      have hua : u ≤ a := by
        rcases List.mem_append.1 hu with hu | hu
        · exact (List.pairwise_append.1 p1).2.2 u hu a (by simp)
        · rw [List.mem_singleton.1 hu]; exact Nat.le_refl _
      rcases List.mem_cons.1 hv with rfl | hv
      · omega
      · exact p3 u hu v hv

/-- C166: sorting. -/
theorem C166_sort (h : IntVecLaw o k R) {s : S} {xs : List Nat} (hs : R s xs) :
    ∃ s' ys, ivSort o s = .ok s' ∧ R s' ys ∧ ys.Perm xs ∧ ys.Pairwise (· ≤ ·) := by
  rw [ivSort, h.len hs, Res.ok_bind]
  rcases Nat.eq_zero_or_pos xs.length with h0 | h0
  · obtain rfl := List.length_eq_zero_iff.1 h0
    exact ⟨s, [], rfl, hs, .refl _, .nil⟩
  obtain ⟨s', e, L, C, h1, h2, h3, h4⟩ := forRange_inv (lo := 1) (hi := xs.length) (s := s) (f := fun i s => ivSift o i s)
    (fun i s => ∃ L C, R s (L ++ C) ∧ L.Pairwise (· ≤ ·) ∧ L.length = i ∧ (L ++ C).Perm xs) h0
    ⟨xs.take 1, xs.drop 1, by rwa [List.take_append_drop], by
      cases xs with
      | nil => exact .nil
      | cons x xs => exact List.pairwise_singleton ..,
      by rw [List.length_take]; omega, by rw [List.take_append_drop]⟩ (by
      rintro i s h1 hi ⟨L, C, a1, a2, a3, a4⟩
      have hl := a4.length_eq
      rw [List.length_append] at hl
      cases C with
      | nil => simp at hl; omega
      | cons x C =>
        obtain ⟨s', L', b1, b2, b3, b4⟩ := h.sift C x i s L [] a3 (by simpa using a1) (by simpa using a2) (by simp)
        refine ⟨s', b1, L', C, b2, b3, ?_, ?_⟩
        · rw [b4.length_eq, List.length_append, List.length_singleton, a3]
        · refine .trans ?_ a4
          simpa using b4.append_right C)
  have hC : C = [] := by
    have := h4.length_eq
    rw [List.length_append] at this
    exact List.length_eq_zero_iff.1 (by omega)
  subst hC
  rw [List.append_nil] at h1 h4
  exact ⟨s', L, e, h1, h4, h2⟩

theorem sorted_lt_iff {x : Nat} : ∀ {xs : List Nat}, xs.Pairwise (· ≤ ·) → ∀ (i : Nat) (hi : i < xs.length),
    (xs[i] < x ↔ i < xs.countP fun y => decide (y < x))
  | y :: xs, hp, i, hi => by
    obtain ⟨h1, h2⟩ := List.pairwise_cons.1 hp
    rw [List.countP_cons]
    by_cases hy : y < x
    · rw [if_pos (by simpa using hy)]
      cases i with
      | zero => simp [hy]
      | succ i =>
        rw [List.getElem_cons_succ, sorted_lt_iff h2 i (by simpa using hi)]
        omega
    · have hz : xs.countP (fun y => decide (y < x)) = 0 := by
        rw [List.countP_eq_zero]
        intro z hz
        have := h1 z hz
        simp only [decide_eq_true_eq]
        omega
      rw [if_neg (by simpa using hy), hz]
      have : y ≤ (y :: xs)[i] := by
        cases i with
        | zero => exact Nat.le_refl _
        | succ i => exact h1 _ (List.getElem_mem _)
      omega

theorem IntVecLaw.search (c : Cfg) (h : IntVecLaw o k R) {s : S} {xs : List Nat} (hs : R s xs) (hp : xs.Pairwise (· ≤ ·)) (x : BitVec w) (n : Nat) :
    ∀ lo hi, hi - lo ≤ n → hi ≤ xs.length → lo ≤ xs.countP (fun y => decide (y < x.toNat)) → xs.countP (fun y => decide (y < x.toNat)) ≤ hi →
      ivSearch c o s x lo hi = .ok (xs.countP fun y => decide (y < x.toNat)) := by
  have hlen := h.addressable hs
  induction n with
  | zero =>
    intro lo hi h1 h2 h3 h4
    rw [ivSearch, if_neg (by omega)]
    congr 1; omega
  | succ n ih =>
    intro lo hi h1 h2 h3 h4
    rw [ivSearch]
    by_cases hlt : lo < hi
    · have hd : (hi - lo) / 2 < hi - lo := Nat.div_lt_self (by omega) (by decide)
      obtain ⟨y, e, hy⟩ := h.get hs (lo + (hi - lo) / 2) (by omega)
      have key := sorted_lt_iff (x := x.toNat) hp (lo + (hi - lo) / 2) (by omega)
      rw [if_pos hlt, subN_ok (by omega), Res.ok_bind, addN_ok (by omega), Res.ok_bind, e, Res.ok_bind]
      by_cases hyx : y < x
      · rw [if_pos hyx, addN_ok (by omega), Res.ok_bind]
        rw [BitVec.lt_def, hy, key] at hyx
        exact ih _ _ (by omega) h2 (by omega) h4
      · rw [if_neg hyx]
        rw [BitVec.lt_def, hy, key] at hyx
        exact ih _ _ (by omega) (by omega) h3 (by omega)
    · rw [if_neg hlt]
      congr 1; omega

/-- C166: searching a sorted vector gives the number of smaller elements. -/
theorem C166_search (c : Cfg) (h : IntVecLaw o k R) {s : S} {xs : List Nat} (hs : R s xs) (hp : xs.Pairwise (· ≤ ·)) (x : BitVec w) :
    ivLowerBound c o s x = .ok (xs.countP fun y => decide (y < x.toNat)) := by
  rw [ivLowerBound, h.len hs, Res.ok_bind]
  exact h.search c hs hp x xs.length 0 xs.length (by omega) (Nat.le_refl _) (Nat.zero_le _) List.countP_le_length

/-- C166: inverting a permutation into a second vector, of any type. -/
theorem C166_inverse {w' k' : Nat} {o' : IntVecMutOps w' T} {Q : T → List Nat → Prop} (h : IntVecLaw o k R) (h' : IntVecLaw o' k' Q) (hk' : k' ≤ w')
    {s : S} {q : T} {xs zs : List Nat} (hs : R s xs) (hq : Q q zs) (hl : zs.length = xs.length) (hperm : xs.Perm (List.range xs.length))
    (hw : xs.length ≤ 2 ^ k') :
    ∃ q' ys, ivInverse o o' s q = .ok q' ∧ Q q' ys ∧ ys.length = xs.length ∧ (∀ i < xs.length, ys[xs.getD i 0]? = some i) ∧
      ∀ i < xs.length, xs[ys.getD i 0]? = some i := by
  have hpow := Nat.pow_le_pow_right (n := 2) (by omega) hk'
  have hnd : xs.Nodup := hperm.nodup_iff.2 List.nodup_range
  have hlt : ∀ x ∈ xs, x < xs.length := fun x hx => List.mem_range.1 (hperm.mem_iff.1 hx)
  rw [ivInverse, h.len hs, Res.ok_bind]
  obtain ⟨q', e, ys, h1, h2, h3⟩ := forRange_inv (lo := 0) (hi := xs.length) (s := q) (f := fun i q => do
      let x ← o.get s i
      o'.set q x.toNat (BitVec.ofNat w' i))
    (fun i q => ∃ ys, Q q ys ∧ ys.length = xs.length ∧ ∀ j < i, ys[xs.getD j 0]? = some j) (by omega) ⟨zs, hq, hl, fun j hj => by omega⟩ (by
      rintro i q - hi ⟨ys, h1, h2, h3⟩
      obtain ⟨x, e, hx⟩ := h.get hs i hi
      have hxl := hlt _ (List.getElem_mem hi)
      have hv : (BitVec.ofNat w' i).toNat = i := by rw [BitVec.toNat_ofNat, Nat.mod_eq_of_lt (by omega)]
      obtain ⟨q1, e1, h4⟩ := h'.set h1 x.toNat (BitVec.ofNat w' i) (by omega) (by omega)
      rw [e, Res.ok_bind]
      refine ⟨q1, e1, _, h4, by rw [List.length_set, h2], fun j hj => ?_⟩
      have hj' : xs.getD j 0 = xs[j] := by rw [List.getD_eq_getElem?_getD, List.getElem?_eq_getElem (by omega), Option.getD_some]
      rw [List.getElem?_set, hx, hv, hj']
      by_cases hji : j = i
      · subst hji
        rw [if_pos rfl, if_pos (by omega)]
      · rw [if_neg fun he => List.pairwise_iff_getElem.1 hnd j i (by omega) hi (by omega) he.symm, ← hj']
        exact h3 j (by omega))
  refine ⟨q', ys, e, h1, h2, h3, fun i hi => ?_⟩
  obtain ⟨j, hj, hji⟩ := List.getElem_of_mem (hperm.mem_iff.2 (List.mem_range.2 hi))
  have h4 := h3 j hj
  rw [List.getD_eq_getElem?_getD, List.getElem?_eq_getElem hj, Option.getD_some, hji] at h4
  rw [List.getD_eq_getElem?_getD, h4, Option.getD_some, List.getElem?_eq_getElem hj, hji]

/-- C166: an `IntVector` sorted in place is the sorted vector; the program that sorts it is the generic one. -/
theorem C166_sort_int_vector (c : Cfg) (h : IsBlk w) {s : IV w} {xs : List Nat} (hs : IvReach c w k s xs) :
    ∃ s', ivSort (ivIntVec c w) s = .ok s' ∧ IvReach c w k s' (xs.mergeSort) := by
  obtain ⟨s', ys, e, h1, h2, h3⟩ := C166_sort (C166_int_vector c h k) hs
  have h4 : xs.mergeSort.Pairwise (· ≤ ·) :=
    (List.pairwise_mergeSort (le := fun a b => decide (a ≤ b)) (by simp; omega) (by simp; omega) xs).imp fun h => by simpa using h
  have : ys = xs.mergeSort := List.Perm.eq_of_pairwise (le := (· ≤ ·)) (by intros; omega) h3 h4 (h2.trans (List.mergeSort_perm xs _).symm)
  exact ⟨s', e, this ▸ h1⟩

/-! Each theorem of this file that has hypotheses is applied to concrete data in `Verif/Instances/IntVecTrait.lean`. -/

end Succinct
