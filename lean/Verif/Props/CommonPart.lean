import Verif.Props.IntVecTrait
/-! Property C183: the length of a longest common subsequence of two integer vectors, by one row of numbers in a third. The programs here are not
in the crate; they call the methods of `IntVec` and `IntVecMut` and `IntVector::with_fill`. -/
namespace Succinct
open Spec

/-- The longest lists that come out of both by leaving elements out have this length. -/
def Spec.LongestCommon (xs ys : List Nat) (m : Nat) : Prop :=
  (∃ l : List Nat, l.Sublist xs ∧ l.Sublist ys ∧ l.length = m) ∧ ∀ l : List Nat, l.Sublist xs → l.Sublist ys → l.length ≤ m

section
variable {w w' : Nat} {S A B : Type} (c : Cfg) (oa : IntVecMutOps w' A) (ob : IntVecMutOps w' B) (o : IntVecMutOps w S)

/-- `let mut diag = 0; for j in 0 .. b.len() { let up = row.get(j + 1);
let v = if x == b.get(j) { diag + 1 } else { max(row.get(j), up) }; row.set(j + 1, v); diag = up }` -/
def lcsRow (b : B) (n : Nat) (x : BitVec w') (s : S) (j diag : Nat) : Res S :=
  if j < n then do
    let j1 ← addN c 64 j 1
    let up ← o.get s j1
    let y ← ob.get b j
    if x = y then do
      let v ← addN c w diag 1
      let s ← o.set s j1 (BitVec.ofNat w v)
      lcsRow b n x s j1 up.toNat
    else do
      let left ← o.get s j
      let s ← o.set s j1 (if left.toNat ≤ up.toNat then up else left)
      lcsRow b n x s j1 up.toNat
  else .ok s
partial_fixpoint

/-- `for i in 0 .. a.len() { let x = a.get(i); (the above) }` -/
def lcsRows (a : A) (b : B) (m n : Nat) (s : S) (i : Nat) : Res S :=
  if i < m then do
    let x ← oa.get a i
    let s ← lcsRow c ob o b n x s 0 0
    let i ← addN c 64 i 1
    lcsRows a b m n s i
  else .ok s
partial_fixpoint

/-- All the rows over a row of zeros, and its last number. -/
def lcsLen (a : A) (b : B) (s : S) : Res (BitVec w) := do
  let m ← oa.len a
  let n ← ob.len b
  let s ← lcsRows c oa ob o a b m n s 0
  o.get s n
end

/-! ### Longest common parts -/

theorem Spec.LongestCommon.le {xs ys : List Nat} {m : Nat} (h : LongestCommon xs ys m) : m ≤ xs.length ∧ m ≤ ys.length := by
  obtain ⟨⟨l, h1, h2, rfl⟩, -⟩ := h
  exact ⟨h1.length_le, h2.length_le⟩

theorem longestCommon_nil_left (ys : List Nat) : LongestCommon [] ys 0 :=
  ⟨⟨[], .slnil, List.nil_sublist _, rfl⟩, fun l h _ => by rw [List.sublist_nil.1 h]; exact Nat.le_refl _⟩

theorem longestCommon_nil_right (xs : List Nat) : LongestCommon xs [] 0 :=
  ⟨⟨[], List.nil_sublist _, .slnil, rfl⟩, fun l _ h => by rw [List.sublist_nil.1 h]; exact Nat.le_refl _⟩

theorem sublist_last {l xs : List Nat} {a : Nat} (h : l.Sublist (xs ++ [a])) : l.Sublist xs ∨ ∃ p, l = p ++ [a] ∧ p.Sublist xs := by
  obtain ⟨p, q, rfl, h1, h2⟩ := List.sublist_append_iff.1 h
  cases h2 with
  | cons _ h2 =>
    cases List.sublist_nil.1 h2
    exact .inl (by simpa using h1)
  | cons_cons _ h2 =>
    cases List.sublist_nil.1 h2
    exact .inr ⟨p, rfl, h1⟩

theorem longestCommon_same {xs ys : List Nat} {d : Nat} (a : Nat) (h : LongestCommon xs ys d) : LongestCommon (xs ++ [a]) (ys ++ [a]) (d + 1) := by
  obtain ⟨⟨l, h1, h2, rfl⟩, h3⟩ := h
  refine ⟨⟨l ++ [a], h1.append (List.Sublist.refl _), h2.append (List.Sublist.refl _), by simp⟩, fun m hx hy => ?_⟩
  have key {zs : List Nat} (q : m.Sublist (zs ++ [a])) : m.dropLast.Sublist zs := by
    rcases sublist_last q with q | ⟨p, rfl, q⟩
    · exact (List.dropLast_sublist _).trans q
    · simpa using q
  have := h3 _ (key hx) (key hy)
  rw [List.length_dropLast] at this
  omega

theorem longestCommon_diff {xs ys : List Nat} {a b u l : Nat} (hab : a ≠ b) (hu : LongestCommon xs (ys ++ [b]) u) (hl : LongestCommon (xs ++ [a]) ys l) :
    LongestCommon (xs ++ [a]) (ys ++ [b]) (if l ≤ u then u else l) := by
  constructor
  · by_cases h : l ≤ u
    · obtain ⟨p, h1, h2, h3⟩ := hu.1
      exact ⟨p, h1.trans (List.sublist_append_left ..), h2, by rw [if_pos h, h3]⟩
    · obtain ⟨p, h1, h2, h3⟩ := hl.1
      exact ⟨p, h1, h2.trans (List.sublist_append_left ..), by rw [if_neg h, h3]⟩
  · intro p hx hy
    have : p.length ≤ u ∨ p.length ≤ l := by
      rcases sublist_last hx with q | ⟨r, rfl, q⟩
      · exact .inl (hu.2 p q hy)
      · rcases sublist_last hy with q' | ⟨r', e, -⟩
        · exact .inr (hl.2 _ hx q')
        · exact absurd (List.append_inj_right' e rfl) (by simpa using hab)
    split <;> omega

/-- C183: the length is one only. -/
theorem C183_unique {xs ys : List Nat} {m m' : Nat} (h : LongestCommon xs ys m) (h' : LongestCommon xs ys m') : m = m' := by
  obtain ⟨⟨l, h1, h2, rfl⟩, h3⟩ := h
  obtain ⟨⟨l', h1', h2', rfl⟩, h3'⟩ := h'
  exact Nat.le_antisymm (h3' _ h1 h2) (h3 _ h1' h2')

/-! ### The row -/

variable {w w' k ka kb : Nat} {S A B : Type} {c : Cfg} {oa : IntVecMutOps w' A} {ob : IntVecMutOps w' B} {o : IntVecMutOps w S} {RA : A → List Nat → Prop}
  {RB : B → List Nat → Prop} {R : S → List Nat → Prop}

theorem lcsRow_ok (hb : IntVecLaw ob kb RB) (h : IntVecLaw o k R) (hk : k ≤ w) {b : B} {xs ys : List Nat} {a : Nat} (rb : RB b ys) (hy : ys.length < 2 ^ k)
    {x : BitVec w'} (hx : x.toNat = a) {d j diag : Nat} (hd : d = ys.length - j) (hj : j ≤ ys.length) {s : S} {row : List Nat} (r : R s row)
    (hl : row.length = ys.length + 1) (hdiag : LongestCommon xs (ys.take j) diag) (hlow : ∀ i, i ≤ j → LongestCommon (xs ++ [a]) (ys.take i) row[i]!)
    (hhigh : ∀ i, j < i → i ≤ ys.length → LongestCommon xs (ys.take i) row[i]!) :
    ∃ s' row', lcsRow c ob o b ys.length x s j diag = .ok s' ∧ R s' row' ∧ row'.length = ys.length + 1 ∧
      ∀ i, i ≤ ys.length → LongestCommon (xs ++ [a]) (ys.take i) row'[i]! := by
  have h64 := h.addressable r
  have hkw : 2 ^ k ≤ 2 ^ w := Nat.pow_le_pow_right (by decide) hk
  induction d generalizing j diag s row with
  | zero =>
    rw [lcsRow, if_neg (by omega)]
    exact ⟨s, row, rfl, r, hl, fun i hi => hlow i (by omega)⟩
  | succ d ih =>
    have hj' : j < ys.length := by omega
    have et : ys.take (j + 1) = ys.take j ++ [ys[j]] := by rw [List.take_append_getElem]
    obtain ⟨up, e1, u1⟩ := h.get r (j + 1) (by omega)
    obtain ⟨y, e2, u2⟩ := hb.get rb j hj'
    have hup : LongestCommon xs (ys.take (j + 1)) up.toNat := by
      have := hhigh (j + 1) (by omega) (by omega)
      rwa [getElem!_pos row (j + 1) (by omega), ← u1] at this
    have next : ∀ (v : BitVec w), LongestCommon (xs ++ [a]) (ys.take (j + 1)) v.toNat → ∃ s1, o.set s (j + 1) v = .ok s1 ∧
        ∃ s' row', lcsRow c ob o b ys.length x s1 (j + 1) up.toNat = .ok s' ∧ R s' row' ∧ row'.length = ys.length + 1 ∧
          ∀ i, i ≤ ys.length → LongestCommon (xs ++ [a]) (ys.take i) row'[i]! := by
      intro v hv
      have hle := hv.le.2
      rw [List.length_take] at hle
      obtain ⟨s1, e3, r1⟩ := h.set r (j + 1) v (by omega) (by omega)
      have old : ∀ i, i ≤ ys.length → i ≠ j + 1 → (row.set (j + 1) v.toNat)[i]! = row[i]! := fun i hi hne => by
        rw [getElem!_pos _ i (by simp; omega), getElem!_pos row i (by omega), List.getElem_set_ne (by omega)]
      refine ⟨s1, e3, ih (by omega) (by omega) r1 (by simpa using hl) hup (fun i hi => ?_) (fun i hi hi' => ?_) (h.addressable r1)⟩
      · rcases Nat.lt_or_ge j i with q | q
        · obtain rfl : i = j + 1 := by omega
          rw [getElem!_pos _ (j + 1) (by simp; omega), List.getElem_set_self]
          exact hv
        · rw [old i (by omega) (by omega)]
          exact hlow i q
      · rw [old i (by omega) (by omega)]
        exact hhigh i (by omega) hi'
    rw [lcsRow, if_pos hj', addN_ok (by omega), Res.ok_bind, e1, Res.ok_bind, e2, Res.ok_bind]
    by_cases hxy : x = y
    · have ha : a = ys[j] := by rw [← u2, ← hxy, hx]
      have hv : LongestCommon (xs ++ [a]) (ys.take (j + 1)) (diag + 1) := by
        rw [et, ← ha]
        exact longestCommon_same a hdiag
      have hle := hv.le.2
      rw [List.length_take] at hle
      have hlt : diag + 1 < 2 ^ w := by omega
      have ev : (BitVec.ofNat w (diag + 1)).toNat = diag + 1 := by rw [BitVec.toNat_ofNat, Nat.mod_eq_of_lt hlt]
      obtain ⟨s1, e3, h3⟩ := next (BitVec.ofNat w (diag + 1)) (by rwa [ev])
      rw [if_pos hxy, addN_ok hlt, Res.ok_bind, e3, Res.ok_bind]
      exact h3
    · obtain ⟨left, e4, u4⟩ := h.get r j (by omega)
      have ha : a ≠ ys[j] := fun q => hxy (BitVec.eq_of_toNat_eq (by rw [hx, u2, q]))
      have hleft : LongestCommon (xs ++ [a]) (ys.take j) left.toNat := by
        have := hlow j (Nat.le_refl _)
        rwa [getElem!_pos row j (by omega), ← u4] at this
      obtain ⟨s1, e3, h3⟩ := next (if left.toNat ≤ up.toNat then up else left) (by
        rw [apply_ite BitVec.toNat, et]
        rw [et] at hup
        exact longestCommon_diff ha hup hleft)
      rw [if_neg hxy, e4, Res.ok_bind, e3, Res.ok_bind]
      exact h3

theorem lcsRows_ok (ha : IntVecLaw oa ka RA) (hb : IntVecLaw ob kb RB) (h : IntVecLaw o k R) (hk : k ≤ w) {a : A} {b : B} {xs ys : List Nat} (ra : RA a xs)
    (rb : RB b ys) (hy : ys.length < 2 ^ k) {d i : Nat} (hd : d = xs.length - i) (hi : i ≤ xs.length) {s : S} {row : List Nat} (r : R s row)
    (hl : row.length = ys.length + 1) (hrow : ∀ j, j ≤ ys.length → LongestCommon (xs.take i) (ys.take j) row[j]!) :
    ∃ s' row', lcsRows c oa ob o a b xs.length ys.length s i = .ok s' ∧ R s' row' ∧ row'.length = ys.length + 1 ∧
      ∀ j, j ≤ ys.length → LongestCommon xs (ys.take j) row'[j]! := by
  have h64 := ha.addressable ra
  induction d generalizing i s row with
  | zero =>
    rw [lcsRows, if_neg (by omega)]
    rw [List.take_of_length_le (by omega)] at hrow
    exact ⟨s, row, rfl, r, hl, hrow⟩
  | succ d ih =>
    have hi' : i < xs.length := by omega
    obtain ⟨x, e1, u1⟩ := ha.get ra i hi'
    have z : row[0]! = 0 := by
      have := (hrow 0 (Nat.zero_le _)).le.2
      simpa using this
    obtain ⟨s1, row1, e2, r1, hl1, h1⟩ := lcsRow_ok (c := c) hb h hk rb hy u1 rfl (Nat.zero_le _) r hl (longestCommon_nil_right (xs.take i)) (fun j hj => by
      obtain rfl : j = 0 := by omega
      rw [z]
      exact longestCommon_nil_right _) (fun j _ hj => hrow j hj)
    rw [lcsRows, if_pos hi', e1, Res.ok_bind, e2, Res.ok_bind, addN_ok (by omega), Res.ok_bind]
    exact ih (by omega) (by omega) r1 hl1 (fun j hj => by
      have := h1 j hj
      rwa [List.take_append_getElem] at this)

/-- C183: over a row of zeros, one longer than the second sequence, the last number in the end is the length of the longest common subsequences. -/
theorem C183_length (ha : IntVecLaw oa ka RA) (hb : IntVecLaw ob kb RB) (h : IntVecLaw o k R) (hk : k ≤ w) {a : A} {b : B} {xs ys : List Nat} (ra : RA a xs)
    (rb : RB b ys) (hy : ys.length < 2 ^ k) {s : S} (r : R s (List.replicate (ys.length + 1) 0)) :
    ∃ v, lcsLen c oa ob o a b s = .ok v ∧ LongestCommon xs ys v.toNat := by
  obtain ⟨s', row, e1, r1, hl, h1⟩ := lcsRows_ok (c := c) ha hb h hk ra rb hy rfl (Nat.zero_le _) r (by simp) (fun j hj => by
    rw [getElem!_pos _ j (by simp; omega), List.getElem_replicate]
    exact longestCommon_nil_left _)
  obtain ⟨v, e2, u⟩ := h.get r1 ys.length (by omega)
  have := h1 ys.length (Nat.le_refl _)
  rw [getElem!_pos row ys.length (by omega), ← u, List.take_length] at this
  exact ⟨v, by rw [lcsLen, ha.len ra, Res.ok_bind, hb.len rb, Res.ok_bind, e1, Res.ok_bind, e2], this⟩

/-- C183: with a new `IntVector` for the row. -/
theorem C183_new (c : Cfg) (hw : IsBlk w) (h1 : 1 ≤ k) (hk : k ≤ w) (ha : IntVecLaw oa ka RA) (hb : IntVecLaw ob kb RB) {a : A} {b : B} {xs ys : List Nat}
    (ra : RA a xs) (rb : RB b ys) (hy : ys.length < 2 ^ k) (hf : Fits c.usz w ((ys.length + 1) * k)) :
    ∃ s v, IV.withFill c k (ys.length + 1) (0 : BitVec w) = .ok s ∧ lcsLen c oa ob (ivIntVec c w) a b s = .ok v ∧ LongestCommon xs ys v.toNat := by
  obtain ⟨s, e, hv⟩ := ivInit_ok c hw h1 hk (.withFill (ys.length + 1) 0) hf
  obtain ⟨v, e', h'⟩ := C183_length (c := c) ha hb (C166_int_vector c hw k) hk ra rb hy (by simpa [IvInit.elems] using hv.reach hw)
  exact ⟨s, v, e, e', h'⟩

/-! Each theorem of this file that has hypotheses is applied to concrete data in `Verif/Instances/CommonPart.lean`. -/

end Succinct
