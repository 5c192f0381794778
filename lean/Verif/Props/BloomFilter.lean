import Verif.Props.Blockwise
import Verif.Props.BitVector
/-! Property C171: approximate sets of keys as bits chosen by hashes (Bloom filters), over any store of bits. The programs here are not
in the crate; they call its `bit_len`, `get_bit`, `set_bit`, `get_block` and `set_block`. -/
namespace Succinct
open Spec

/-- The bits at the remainders of the hashes. -/
def Spec.bloomBits (m : Nat) (hs : List Nat) : List Bool := (List.range m).map fun p => decide (∃ h ∈ hs, h % m = p)

section
variable (o : BitVecMutOps w S)

/-- `for h in hashes { s.set_bit(h % n, true) }` -/
def bloomSet (n : Nat) : List Nat → S → Res S
  | [], s => .ok s
  | h :: hs, s => do
    let p ← remN h n
    let s ← o.setBit s p true
    bloomSet n hs s

/-- `let n = s.bit_len(); for h in hash(key) { … }` -/
def bloomAdd (hs : List Nat) (s : S) : Res S := do
  let n ← o.bitLen s
  bloomSet o n hs s

/-- `for h in hashes { if !s.get_bit(h % n) { return false } } true` -/
def bloomTest (n : Nat) : List Nat → S → Res Bool
  | [], _ => .ok true
  | h :: hs, s => do
    let p ← remN h n
    let b ← o.getBit s p
    if b then bloomTest n hs s else .ok false

/-- `let n = s.bit_len(); for h in hash(key) { … }` -/
def bloomHas (hs : List Nat) (s : S) : Res Bool := do
  let n ← o.bitLen s
  bloomTest o n hs s

/-- `for key in keys { add(hash(key)) }` -/
def bloomAddAll (hash : K → List Nat) : List K → S → Res S
  | [], s => .ok s
  | k :: ks, s => do
    let s ← bloomAdd o (hash k) s
    bloomAddAll hash ks s
end

theorem bloomBits_length (m : Nat) (hs : List Nat) : (bloomBits m hs).length = m := by simp [bloomBits]

theorem bloomBits_getElem? {m p : Nat} (hp : p < m) (hs : List Nat) : (bloomBits m hs)[p]? = some (decide (∃ h ∈ hs, h % m = p)) := by
  simp [bloomBits, hp]

/-- Only which hashes there are matters. -/
theorem bloomBits_congr (m : Nat) {hs hs' : List Nat} (h : ∀ x, x ∈ hs ↔ x ∈ hs') : bloomBits m hs = bloomBits m hs' := by
  simp [bloomBits, h]

theorem bloomBits_set {m h : Nat} (hm : 0 < m) (hs : List Nat) : (bloomBits m hs).set (h % m) true = bloomBits m (h :: hs) := by
  apply List.ext_getElem?
  intro p
  have hlt := Nat.mod_lt h hm
  by_cases hp : p < m
  · rw [bloomBits_getElem? hp, List.getElem?_set, bloomBits_length, bloomBits_getElem? hp]
    by_cases e : h % m = p
    · simp [e, hp]
    · simp [e]
  · rw [List.getElem?_eq_none (by simp [bloomBits_length]; omega), List.getElem?_eq_none (by rw [bloomBits_length]; omega)]

theorem bloomBits_or (m : Nat) (hs hs' : List Nat) :
    List.zipWith (· || ·) (bloomBits m hs) (bloomBits m hs') = bloomBits m (hs ++ hs') := by
  apply List.ext_getElem?
  intro p
  by_cases hp : p < m
  · rw [List.getElem?_zipWith, bloomBits_getElem? hp, bloomBits_getElem? hp, bloomBits_getElem? hp]
    simp only [Option.some.injEq]
    rw [Bool.eq_iff_iff]
    simp only [Bool.or_eq_true, decide_eq_true_eq]
    constructor
    · rintro (⟨h, h1, h2⟩ | ⟨h, h1, h2⟩)
      · exact ⟨h, List.mem_append_left _ h1, h2⟩
      · exact ⟨h, List.mem_append_right _ h1, h2⟩
    · rintro ⟨h, h1, h2⟩
      rcases List.mem_append.1 h1 with h1 | h1
      · exact .inl ⟨h, h1, h2⟩
      · exact .inr ⟨h, h1, h2⟩
  · rw [List.getElem?_eq_none (by simp [bloomBits_length]; omega), List.getElem?_eq_none (by rw [bloomBits_length]; omega)]

section
variable {c : Cfg} {o : BitVecMutOps w S} {R : S → List Bool → Prop} {m : Nat}

theorem bloomSet_ok (hm : BVMutLaw c o R) (h0 : 0 < m) (hs : List Nat) {gs : List Nat} {s : S} (hR : R s (bloomBits m gs)) :
    ∃ s', bloomSet o m hs s = .ok s' ∧ R s' (bloomBits m (hs ++ gs)) := by
  induction hs generalizing s gs with
  | nil => exact ⟨s, rfl, hR⟩
  | cons h hs ih =>
    obtain ⟨s1, e1, r1⟩ := hm.setBit hR (h % m) true (by rw [bloomBits_length]; exact Nat.mod_lt _ h0)
    rw [bloomBits_set h0] at r1
    obtain ⟨s2, e2, r2⟩ := ih r1
    refine ⟨s2, by rw [bloomSet, remN_ok h0, Res.ok_bind, e1, Res.ok_bind, e2], ?_⟩
    rwa [bloomBits_congr m (hs' := h :: hs ++ gs) (fun x => by simp only [List.mem_append, List.mem_cons, List.cons_append]; constructor <;> rintro (a | a | a) <;> simp [a])] at r2

theorem bloomTest_ok (hl : BVLaw c o.toBitVecOps R) (h0 : 0 < m) (hs : List Nat) {gs : List Nat} {s : S} (hR : R s (bloomBits m gs))
    (h64 : m < 2 ^ 64) : bloomTest o m hs s = .ok (decide (∀ h ∈ hs, ∃ g ∈ gs, g % m = h % m)) := by
  induction hs with
  | nil => simp [bloomTest]
  | cons h hs ih =>
    have hlt := Nat.mod_lt h h0
    rw [bloomTest, remN_ok h0, Res.ok_bind, hl.getBit hR _ (by omega), bloomBits_getElem? hlt, expectR_some, Res.ok_bind]
    by_cases e : ∃ g ∈ gs, g % m = h % m
    · rw [if_pos (by simpa using e), ih]
      simp only [List.mem_cons, forall_eq_or_imp, e, true_and]
    · rw [if_neg (by simpa using e)]
      simp only [List.mem_cons, forall_eq_or_imp, e, false_and, decide_false]

/-- C171: adding a key. -/
theorem C171_add (hl : BVLaw c o.toBitVecOps R) (hm : BVMutLaw c o R) (h0 : 0 < m) (hash : K → List Nat) (ks : List K) (k : K) {s : S}
    (hR : R s (bloomBits m (ks.flatMap hash))) :
    ∃ s', bloomAdd o (hash k) s = .ok s' ∧ R s' (bloomBits m ((k :: ks).flatMap hash)) := by
  obtain ⟨s', h1, h2⟩ := bloomSet_ok hm h0 (hash k) hR
  exact ⟨s', by rw [bloomAdd, hl.bitLen hR, bloomBits_length, Res.ok_bind, h1], h2⟩

/-- C171: a key is reported exactly if each of its hashes has the remainder of a hash of some key that was added; every key that was
added is reported. -/
theorem C171_has (hw : IsBlk w) (hl : BVLaw c o.toBitVecOps R) (h0 : 0 < m) (hash : K → List Nat) (ks : List K) (k : K) {s : S}
    (hR : R s (bloomBits m (ks.flatMap hash))) :
    bloomHas o (hash k) s = .ok (decide (∀ h ∈ hash k, ∃ g ∈ ks.flatMap hash, g % m = h % m)) ∧ (k ∈ ks → bloomHas o (hash k) s = .ok true) := by
  have h64 : m < 2 ^ 64 := by
    have := (hl.fits hR).lt hw.pos
    rw [bloomBits_length] at this
    omega
  have e : bloomHas o (hash k) s = .ok (decide (∀ h ∈ hash k, ∃ g ∈ ks.flatMap hash, g % m = h % m)) := by
    rw [bloomHas, hl.bitLen hR, bloomBits_length, Res.ok_bind, bloomTest_ok hl h0 _ hR h64]
  refine ⟨e, fun hk => ?_⟩
  rw [e, decide_eq_true]
  exact fun h hh => ⟨h, List.mem_flatMap.2 ⟨k, hk, hh⟩, rfl⟩

/-- C171: the filter of two sets of keys is had by combining the blocks of their filters with `|`. -/
theorem C171_union (hw : IsBlk w) (hb : BVBlockRead o.toBitVecOps R) (hm : BVMutLaw c o R) (hash : K → List Nat) (ks js : List K) {s t : S}
    (hs : R s (bloomBits m (ks.flatMap hash))) (ht : R t (bloomBits m (js.flatMap hash))) :
    ∃ u, combine o o.toBitVecOps (· ||| ·) s t = .ok u ∧ R u (bloomBits m ((ks ++ js).flatMap hash)) := by
  obtain ⟨u, h1, h2⟩ := C156_combine hw hb hm hb Bitwise.or hs ht (by rw [bloomBits_length, bloomBits_length])
  rw [bloomBits_or, ← List.flatMap_append] at h2
  exact ⟨u, h1, h2⟩

/-- C171: without any bits a key with a hash can neither be added nor looked for. -/
theorem C171_no_bits (hl : BVLaw c o.toBitVecOps R) (h : Nat) (hs : List Nat) {s : S} (hR : R s []) :
    bloomAdd o (h :: hs) s = .panic ∧ bloomHas o (h :: hs) s = .panic := by
  have e := hl.bitLen hR
  exact ⟨by rw [bloomAdd, e, Res.ok_bind]; rfl, by rw [bloomHas, e, Res.ok_bind]; rfl⟩

theorem bloomAddAll_ok (hl : BVLaw c o.toBitVecOps R) (hm : BVMutLaw c o R) (h0 : 0 < m) (hash : K → List Nat) (ks : List K) {js : List K}
    {s : S} (hR : R s (bloomBits m (js.flatMap hash))) :
    ∃ s', bloomAddAll o hash ks s = .ok s' ∧ R s' (bloomBits m ((ks ++ js).flatMap hash)) := by
  induction ks generalizing s js with
  | nil => exact ⟨s, rfl, hR⟩
  | cons k ks ih =>
    obtain ⟨s1, e1, r1⟩ := C171_add hl hm h0 hash js k hR
    obtain ⟨s2, e2, r2⟩ := ih r1
    refine ⟨s2, by rw [bloomAddAll, e1, Res.ok_bind, e2], ?_⟩
    rwa [bloomBits_congr m (hs' := (k :: ks ++ js).flatMap hash) (fun x => by
      simp only [List.flatMap_append, List.flatMap_cons, List.mem_append]
      constructor <;> rintro h <;> rcases h with h | h
      · simp [h]
      · rcases h with h | h <;> simp [h]
      · rcases h with h | h <;> simp [h]
      · simp [h])] at r2

/-- C171: over a new `BitVector` of `m` bits. -/
theorem C171_bit_vector (c : Cfg) (hw : IsBlk w) {m : Nat} (h0 : 0 < m) (hf : Fits c.usz w m) (hash : K → List Nat) (ks js : List K) :
    ∃ s s' t t' u, BV.withFill c w m false = .ok s ∧ bloomAddAll (bvBitVecMut c w) hash ks s = .ok s' ∧
      BV.withFill c w m false = .ok t ∧ bloomAddAll (bvBitVecMut c w) hash js t = .ok t' ∧
      combine (bvBitVecMut c w) (bvBitVec c w) (· ||| ·) s' t' = .ok u ∧
      ∀ k, bloomHas (bvBitVecMut c w) (hash k) s' = .ok (decide (∀ h ∈ hash k, ∃ g ∈ ks.flatMap hash, g % m = h % m)) ∧
        bloomHas (bvBitVecMut c w) (hash k) u = .ok (decide (∀ h ∈ hash k, ∃ g ∈ (ks ++ js).flatMap hash, g % m = h % m)) ∧
        (k ∈ ks → bloomHas (bvBitVecMut c w) (hash k) s' = .ok true) ∧
        (k ∈ ks ++ js → bloomHas (bvBitVecMut c w) (hash k) u = .ok true) := by
  obtain ⟨s, e1, r1⟩ := (C17_fill c hw).1 m false hf
  have r1 : bvR c w s (bloomBits m (([] : List K).flatMap hash)) := by
    have e : List.replicate m false = bloomBits m (([] : List K).flatMap hash) := by
      simp [bloomBits, List.map_const']
    rw [← e]
    exact r1.rep hw
  have hl : BVLaw c (bvBitVecMut c w).toBitVecOps (bvR c w) := bv_law c hw
  have hm := bv_mut_law c hw
  obtain ⟨s', e2, r2⟩ := bloomAddAll_ok hl hm h0 hash ks r1
  obtain ⟨t', e3, r3⟩ := bloomAddAll_ok hl hm h0 hash js r1
  rw [List.append_nil] at r2 r3
  obtain ⟨u, e4, r4⟩ := C171_union (o := bvBitVecMut c w) hw (bv_block c hw).toBVBlockRead hm hash ks js r2 r3
  exact ⟨s, s', s, t', u, e1, e2, e1, e3, e4, fun k => ⟨(C171_has hw hl h0 hash ks k r2).1, (C171_has hw hl h0 hash (ks ++ js) k r4).1,
    (C171_has hw hl h0 hash ks k r2).2, (C171_has hw hl h0 hash (ks ++ js) k r4).2⟩⟩
end

end Succinct
