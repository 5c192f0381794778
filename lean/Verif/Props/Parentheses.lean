import Verif.Props.Neighbours
/-! Property C169: ordered forests as balanced parentheses in one bit vector under rank and select. The programs here are not in the
crate; they call its `push_bit`, `get_bit`, `Rank9`, `rank` and `select`. -/
namespace Succinct
open Spec

/-- Ordered forests: none, or a first tree (the forest of its root's children) and the trees after it. -/
inductive Forest
  | nil
  | cons (children rest : Forest)
deriving DecidableEq

namespace Forest

/-- The number of nodes. -/
def size : Forest → Nat
  | nil => 0
  | cons a b => 1 + a.size + b.size

/-- The parentheses: for each tree one opens, those of the children follow, and it closes. -/
def bp : Forest → List Bool
  | nil => []
  | cons a b => true :: (a.bp ++ false :: b.bp)

/-! What is to be found, as lists of answers for the nodes in the order root, children, rest; the number of a node is its place. In
each, `n` is the number of the first node. -/

/-- How deep each node lies, the roots at depth `d`. -/
def depths (d : Nat) : Forest → List Nat
  | nil => []
  | cons a b => d :: (a.depths (d + 1) ++ b.depths d)

/-- How many nodes each node's tree has. -/
def sizes : Forest → List Nat
  | nil => []
  | cons a b => (1 + a.size) :: (a.sizes ++ b.sizes)

/-- The parent of each node, `p` for the roots. -/
def parents (n : Nat) (p : Option Nat) : Forest → List (Option Nat)
  | nil => []
  | cons a b => p :: (a.parents (n + 1) (some n) ++ b.parents (n + 1 + a.size) p)

/-- The number of the first of some trees. -/
def first (n : Nat) : Forest → Option Nat
  | nil => none
  | cons _ _ => some n

/-- The first child of each node. -/
def firstChildren (n : Nat) : Forest → List (Option Nat)
  | nil => []
  | cons a b => a.first (n + 1) :: (a.firstChildren (n + 1) ++ b.firstChildren (n + 1 + a.size))

/-- The next sibling of each node. -/
def nextSiblings (n : Nat) : Forest → List (Option Nat)
  | nil => []
  | cons a b => b.first (n + 1 + a.size) :: (a.nextSiblings (n + 1) ++ b.nextSiblings (n + 1 + a.size))

end Forest

section
variable (c : Cfg)

/-- `for t in trees { v.push_bit(true); write(v, t.children); v.push_bit(false) }` -/
def bpWrite : Forest → VB 64 → Res (VB 64)
  | .nil, s => .ok s
  | .cons a b, s => do
    let s ← (bvBitVecPush c 64).pushBit s true
    let s ← bpWrite a s
    let s ← (bvBitVecPush c 64).pushBit s false
    bpWrite b s

/-- `Rank9::new(v)` after writing a forest. -/
def bpNew (t : Forest) : Res (Rank9 (VB 64)) := do
  let s ← bpWrite c t VB.new
  Rank9.new c (bvBitVec c 64) s

variable (r : Rank9 (VB 64))

/-- `s.select1(v).unwrap()`: where node `v` opens. -/
def bpOpen (v : Nat) : Res Nat := do
  let x ← BinSearchSelect.select1 c (Rank9.ops c (bvBitVec c 64)) (.new r) v
  expectR x

/-- `loop { if v.get_bit(i) { e += 1 } else { e -= 1 }; if e == 0 { return i }; i += 1 }`: where `e` open parentheses are closed. -/
def bpClose (i e : Nat) : Res Nat := do
  let b ← (bvBitVec c 64).getBit r.inner i
  let e ← if b then addN c 64 e 1 else subN c 64 e 1
  if e = 0 then .ok i else do
    let i ← addN c 64 i 1
    bpClose i e
partial_fixpoint

/-- `while i > 0 { i -= 1; if !v.get_bit(i) { e += 1 } else if e == 0 { return Some(i) } else { e -= 1 } } None`: the innermost
parenthesis that is open at `i`. -/
def bpEnclose (i e : Nat) : Res (Option Nat) :=
  if 0 < i then do
    let i ← subN c 64 i 1
    let b ← (bvBitVec c 64).getBit r.inner i
    if b then
      if e = 0 then .ok (some i) else do
        let e ← subN c 64 e 1
        bpEnclose i e
    else do
      let e ← addN c 64 e 1
      bpEnclose i e
  else .ok none
partial_fixpoint

/-- `v - s.rank0(open(v))` -/
def bpDepth (v : Nat) : Res Nat := do
  let p ← bpOpen c r v
  let z ← (Rank9.ops c (bvBitVec c 64)).rank0 r p
  subN c 64 v z

/-- `let p = open(v); (close(p, 0) + 1 - p) / 2` -/
def bpSize (v : Nat) : Res Nat := do
  let p ← bpOpen c r v
  let q ← bpClose c r p 0
  let q ← addN c 64 q 1
  let n ← subN c 64 q p
  divN n 2

/-- `enclose(open(v), 0).map(|p| rank before p)` -/
def bpParent (v : Nat) : Res (Option Nat) := do
  let p ← bpOpen c r v
  let x ← bpEnclose c r p 0
  match x with
  | none => .ok none
  | some q => do
    let u ← rankBefore c (Rank9.ops c (bvBitVec c 64)) r q true
    .ok (some u)

/-- `if v.get_bit(open(v) + 1) { Some(v + 1) } else { None }` -/
def bpFirstChild (v : Nat) : Res (Option Nat) := do
  let p ← bpOpen c r v
  let q ← addN c 64 p 1
  let b ← (bvBitVec c 64).getBit r.inner q
  if b then do
    let u ← addN c 64 v 1
    .ok (some u)
  else .ok none

/-- `let q = close(open(v), 0) + 1; if q < v.bit_len() && v.get_bit(q) { Some(rank before q) } else { None }` -/
def bpNextSibling (v : Nat) : Res (Option Nat) := do
  let p ← bpOpen c r v
  let q ← bpClose c r p 0
  let q ← addN c 64 q 1
  let n ← (bvBitVec c 64).bitLen r.inner
  if q < n then do
    let b ← (bvBitVec c 64).getBit r.inner q
    if b then do
      let u ← rankBefore c (Rank9.ops c (bvBitVec c 64)) r q true
      .ok (some u)
    else .ok none
  else .ok none
end

namespace Forest

theorem bp_length (F : Forest) : F.bp.length = 2 * F.size := by
  induction F with
  | nil => rfl
  | cons a b iha ihb => simp only [bp, size, List.length_cons, List.length_append, iha, ihb]; omega

theorem bp_count (F : Forest) (v : Bool) : F.bp.count v = F.size := by
  induction F with
  | nil => rfl
  | cons a b iha ihb => cases v <;> simp [bp, size, iha, ihb] <;> omega

theorem depths_length (F : Forest) (d : Nat) : (F.depths d).length = F.size := by
  induction F generalizing d with
  | nil => rfl
  | cons a b iha ihb => simp [depths, size, iha, ihb]; omega

theorem sizes_length (F : Forest) : F.sizes.length = F.size := by
  induction F with
  | nil => rfl
  | cons a b iha ihb => simp [sizes, size, iha, ihb]; omega

theorem parents_length (F : Forest) (n : Nat) (p : Option Nat) : (F.parents n p).length = F.size := by
  induction F generalizing n p with
  | nil => rfl
  | cons a b iha ihb => simp [parents, size, iha, ihb]; omega

theorem firstChildren_length (F : Forest) (n : Nat) : (F.firstChildren n).length = F.size := by
  induction F generalizing n with
  | nil => rfl
  | cons a b iha ihb => simp [firstChildren, size, iha, ihb]; omega

theorem nextSiblings_length (F : Forest) (n : Nat) : (F.nextSiblings n).length = F.size := by
  induction F generalizing n with
  | nil => rfl
  | cons a b iha ihb => simp [nextSiblings, size, iha, ihb]; omega

/-- Places in `x :: (as ++ bs)`. -/
theorem at_left {α} (x : α) {as bs : List α} {m k : Nat} (h : as.length = m) (hk : k < m) :
    (x :: (as ++ bs))[k + 1]? = as[k]? := by
  rw [List.getElem?_cons_succ, List.getElem?_append_left (by omega)]

theorem at_right {α} (x : α) {as bs : List α} {m : Nat} (h : as.length = m) (k : Nat) :
    (x :: (as ++ bs))[m + k + 1]? = bs[k]? := by
  rw [List.getElem?_cons_succ, List.getElem?_append_right (by omega), h, Nat.add_sub_cancel_left]

/-- Every node among the parentheses. -/
theorem split (F : Forest) (n d : Nat) (p : Option Nat) {v : Nat} (hv : v < F.size) :
    ∃ A, ∃ a b : Forest, ∃ D, F.bp = A ++ true :: (a.bp ++ false :: (b.bp ++ D)) ∧ (D = [] ∨ ∃ D', D = false :: D') ∧ A.count true = v ∧
      (∃ x, (F.depths d)[v]? = some x ∧ x + A.count false = d + v) ∧
      F.sizes[v]? = some (1 + a.size) ∧ (F.firstChildren n)[v]? = some (a.first (n + v + 1)) ∧
      (F.nextSiblings n)[v]? = some (b.first (n + v + 1 + a.size)) ∧
      ((∃ g : Forest, A = g.bp ∧ (F.parents n p)[v]? = some p) ∨
        ∃ A1, ∃ g : Forest, A = A1 ++ true :: g.bp ∧ (F.parents n p)[v]? = some (some (n + A1.count true))) := by
  induction F generalizing n d p v with
  | nil => simp [size] at hv
  | cons a b iha ihb =>
    rw [size] at hv
    cases v with
    | zero =>
      exact ⟨[], a, b, [], by simp [bp], .inl rfl, rfl, ⟨d, rfl, by simp⟩, rfl, rfl, rfl, .inl ⟨nil, rfl, rfl⟩⟩
    | succ v =>
      by_cases hva : v < a.size
      · obtain ⟨A, a', b', D, h1, h2, h3, ⟨x, h4, h4'⟩, h5, h6, h7, h8⟩ := iha (n + 1) (d + 1) (some n) hva
        refine ⟨true :: A, a', b', D ++ false :: b.bp, by rw [bp, h1]; simp, ?_, by simp [h3], ⟨x, ?_, by simp; omega⟩, ?_, ?_, ?_, ?_⟩
        · rcases h2 with rfl | ⟨D', rfl⟩
          · exact .inr ⟨b.bp, rfl⟩
          · exact .inr ⟨D' ++ false :: b.bp, rfl⟩
        · rw [depths, at_left _ (depths_length ..) hva, h4]
        · rw [sizes, at_left _ (sizes_length ..) hva, h5]
        · rw [firstChildren, at_left _ (firstChildren_length ..) hva, h6]; congr 2; omega
        · rw [nextSiblings, at_left _ (nextSiblings_length ..) hva, h7]; congr 2; omega
        · rw [parents, at_left _ (parents_length ..) hva]
          rcases h8 with ⟨g, rfl, h9⟩ | ⟨A1, g, rfl, h9⟩
          · exact .inr ⟨[], g, rfl, by rw [h9]; rfl⟩
          · refine .inr ⟨true :: A1, g, rfl, ?_⟩
            rw [h9]
            simp
            omega
      · obtain ⟨k, rfl⟩ : ∃ k, v = a.size + k := ⟨v - a.size, by omega⟩
        obtain ⟨A, a', b', D, h1, h2, h3, ⟨x, h4, h4'⟩, h5, h6, h7, h8⟩ := ihb (n + 1 + a.size) d p (v := k) (by omega)
        have e1 := a.bp_count true
        have e2 := a.bp_count false
        refine ⟨true :: (a.bp ++ false :: A), a', b', D, by rw [bp, h1]; simp, h2, by simp [h3, e1], ⟨x, ?_, by simp [e2]; omega⟩, ?_, ?_, ?_, ?_⟩
        · rw [depths, at_right _ (depths_length ..), h4]
        · rw [sizes, at_right _ (sizes_length ..), h5]
        · rw [firstChildren, at_right _ (firstChildren_length ..), h6]; congr 2; omega
        · rw [nextSiblings, at_right _ (nextSiblings_length ..), h7]; congr 2; omega
        · rw [parents, at_right _ (parents_length ..)]
          rcases h8 with ⟨g, rfl, h9⟩ | ⟨A1, g, rfl, h9⟩
          · exact .inl ⟨cons a g, rfl, h9⟩
          · refine .inr ⟨true :: (a.bp ++ false :: A1), g, by simp, ?_⟩
            rw [h9]
            simp [e1]
            omega

end Forest

/-- The structure holds these bits. -/
structure HoldsBits (c : Cfg) (r : Rank9 (VB 64)) (bits : List Bool) : Prop where
  inner : bvR c 64 r.inner bits
  rank : RankLaw (Rank9.ops c (bvBitVec c 64)) r bits

section
variable {c : Cfg} {r : Rank9 (VB 64)}

theorem HoldsBits.getBit {A B : List Bool} {v : Bool} (h : HoldsBits c r (A ++ v :: B)) :
    (bvBitVec c 64).getBit r.inner A.length = .ok v := by
  have hs := h.rank.small
  rw [(bv_law c isBlk64).getBit h.inner _ (by simp at hs; omega)]
  simp

theorem HoldsBits.open_ok {A B : List Bool} (h : HoldsBits c r (A ++ true :: B)) : bpOpen c r (A.count true) = .ok A.length := by
  have hs := h.rank.small
  have hc := List.count_le_length (a := true) (l := A)
  simp only [List.length_append, List.length_cons] at hs
  obtain ⟨x, h3, h4⟩ := (C44_select_partial c h.rank (k := A.count true) (by omega)).1
  rw [bpOpen, h3, isSelect_unique h4 (show IsSelect true _ _ (some A.length) from ⟨by simp, by simp [occ]⟩), Res.ok_bind, expectR_some]

theorem bpClose_true {A B : List Bool} {e : Nat} (h : HoldsBits c r (A ++ true :: B)) (he : e + 1 < 2 ^ 64) :
    bpClose c r A.length e = bpClose c r (A.length + 1) (e + 1) := by
  have hs := h.rank.small
  simp only [List.length_append, List.length_cons] at hs
  rw [bpClose, h.getBit, Res.ok_bind, if_pos rfl, addN_ok he, Res.ok_bind]
  show (if e + 1 = 0 then _ else _) = _
  rw [if_neg (by omega), addN_ok (by omega), Res.ok_bind]

theorem bpClose_false {A B : List Bool} {e : Nat} (h : HoldsBits c r (A ++ false :: B)) :
    bpClose c r A.length (e + 1) = if e = 0 then .ok A.length else bpClose c r (A.length + 1) e := by
  have hs := h.rank.small
  simp only [List.length_append, List.length_cons] at hs
  rw [bpClose, h.getBit, Res.ok_bind, if_neg (by simp), subN_ok (by omega), Res.ok_bind, Nat.add_sub_cancel, addN_ok (by omega)]
  rfl

/-- Going forwards over a forest inside an open parenthesis. -/
theorem bpClose_skip (a : Forest) {A B : List Bool} {e : Nat} (h : HoldsBits c r (A ++ (a.bp ++ B))) (he : 0 < e)
    (hb : e + a.size < 2 ^ 64) : bpClose c r A.length e = bpClose c r (A.length + a.bp.length) e := by
  induction a generalizing A B e with
  | nil => rfl
  | cons a b iha ihb =>
    have hs := h.rank.small
    simp only [Forest.bp, Forest.size, List.length_cons, List.length_append] at hs hb ⊢
    rw [Forest.bp, List.cons_append] at h
    rw [bpClose_true h (by omega)]
    have h1 : HoldsBits c r ((A ++ [true]) ++ (a.bp ++ (false :: (b.bp ++ B)))) := by simpa [Forest.bp] using h
    have i1 := iha h1 (e := e + 1) (by omega) (by omega)
    rw [List.length_append, List.length_singleton] at i1
    rw [i1]
    have h2 : HoldsBits c r ((A ++ true :: a.bp) ++ false :: (b.bp ++ B)) := by simpa [Forest.bp] using h
    have i2 := bpClose_false h2 (e := e)
    rw [List.length_append, List.length_cons] at i2
    rw [show A.length + 1 + a.bp.length = A.length + (a.bp.length + 1) by omega, i2, if_neg (by omega)]
    have h3 : HoldsBits c r ((A ++ true :: (a.bp ++ [false])) ++ (b.bp ++ B)) := by simpa [Forest.bp] using h
    have i3 := ihb h3 (e := e) he (by omega)
    simp only [List.length_append, List.length_cons, List.length_nil] at i3
    rw [show A.length + (a.bp.length + 1) + 1 = A.length + (a.bp.length + (0 + 1) + 1) by omega, i3]
    congr 1
    omega

/-- Going backwards over a forest. -/
theorem bpEnclose_skip (a : Forest) {A B : List Bool} {e : Nat} (h : HoldsBits c r (A ++ (a.bp ++ B)))
    (hb : e + a.size < 2 ^ 64) : bpEnclose c r (A.length + a.bp.length) e = bpEnclose c r A.length e := by
  induction a generalizing A B e with
  | nil => rfl
  | cons a b iha ihb =>
    have hs := h.rank.small
    simp only [Forest.bp, Forest.size, List.length_cons, List.length_append] at hs hb ⊢
    have h3 : HoldsBits c r ((A ++ true :: (a.bp ++ [false])) ++ (b.bp ++ B)) := by simpa [Forest.bp] using h
    have i3 := ihb h3 (e := e) (by omega)
    simp only [List.length_append, List.length_cons, List.length_nil] at i3
    rw [show A.length + (a.bp.length + (b.bp.length + 1) + 1) = A.length + (a.bp.length + (0 + 1) + 1) + b.bp.length by omega, i3]
    have h2 : HoldsBits c r ((A ++ true :: a.bp) ++ false :: (b.bp ++ B)) := by simpa [Forest.bp] using h
    have i2 := h2.getBit
    rw [List.length_append, List.length_cons] at i2
    rw [bpEnclose, if_pos (by omega), subN_ok (by omega), Res.ok_bind,
      show A.length + (a.bp.length + (0 + 1) + 1) - 1 = A.length + (a.bp.length + 1) by omega, i2, Res.ok_bind, if_neg (by simp),
      addN_ok (by omega), Res.ok_bind]
    have h1 : HoldsBits c r ((A ++ [true]) ++ (a.bp ++ (false :: (b.bp ++ B)))) := by simpa [Forest.bp] using h
    have i1 := iha h1 (e := e + 1) (by omega)
    rw [List.length_append, List.length_singleton] at i1
    have h' : HoldsBits c r (A ++ true :: (a.bp ++ (false :: (b.bp ++ B)))) := by simpa [Forest.bp] using h
    rw [show A.length + (a.bp.length + 1) = A.length + 1 + a.bp.length by omega, i1, bpEnclose, if_pos (by omega), subN_ok (by omega), Res.ok_bind,
      Nat.add_sub_cancel, h'.getBit, Res.ok_bind, if_pos rfl, if_neg (by omega), subN_ok (by omega), Res.ok_bind, Nat.add_sub_cancel]

theorem bpClose_ok {A B : List Bool} {a : Forest} (h : HoldsBits c r (A ++ true :: (a.bp ++ false :: B))) :
    bpClose c r A.length 0 = .ok (A.length + 1 + 2 * a.size) := by
  have hs := h.rank.small
  have hl := a.bp_length
  simp only [List.length_cons, List.length_append] at hs
  rw [bpClose_true h (by omega)]
  have h1 : HoldsBits c r ((A ++ [true]) ++ (a.bp ++ (false :: B))) := by simpa using h
  have i1 := bpClose_skip a h1 (e := 1) (by omega) (by omega)
  rw [List.length_append, List.length_singleton] at i1
  have h2 : HoldsBits c r ((A ++ true :: a.bp) ++ false :: B) := by simpa using h
  have i2 := bpClose_false h2 (e := 0)
  rw [List.length_append, List.length_cons] at i2
  rw [i1, show A.length + 1 + a.bp.length = A.length + (a.bp.length + 1) by omega, i2, if_pos rfl, hl]
  congr 1
  omega
end

theorem bpWrite_ok (c : Cfg) (F : Forest) {s : VB 64} {bits : List Bool} (hR : bvR c 64 s bits)
    (hf : Fits c.usz 64 (bits.length + 2 * F.size)) : ∃ s', bpWrite c F s = .ok s' ∧ bvR c 64 s' (bits ++ F.bp) := by
  induction F generalizing s bits with
  | nil => exact ⟨s, rfl, by simpa [Forest.bp] using hR⟩
  | cons a b iha ihb =>
    rw [Forest.size] at hf
    have hl := a.bp_length
    obtain ⟨s1, e1, r1⟩ := bv_pushBit c isBlk64 hR true (hf.mono (by omega))
    obtain ⟨s2, e2, r2⟩ := iha r1 (hf.mono (by simp; omega))
    obtain ⟨s3, e3, r3⟩ := bv_pushBit c isBlk64 r2 false (hf.mono (by simp; omega))
    obtain ⟨s4, e4, r4⟩ := ihb r3 (hf.mono (by simp; omega))
    refine ⟨s4, ?_, by simpa [Forest.bp] using r4⟩
    rw [bpWrite, e1, Res.ok_bind, e2, Res.ok_bind, e3, Res.ok_bind, e4]

/-- C169: a forest of `n` nodes is written as `2n` bits, a one where a node opens and a zero where it closes. Over these bits, with
`Rank9` and `BinSearchSelect`, the programs find, for any node by its number in the order root, children, rest: how deep it lies, how
many nodes its tree has, its parent, its first child and its next sibling, and that there is none where there is none. -/
theorem C169_parentheses (c : Cfg) (F : Forest) (hf : Fits c.usz 64 (2 * F.size)) (hu : blocksFor 64 (2 * F.size) + 8 < 2 ^ c.usz) :
    ∃ r, bpNew c F = .ok r ∧ (bvBitVec c 64).bitLen r.inner = .ok (2 * F.size) ∧
      ∀ v < F.size,
        (∃ x, bpDepth c r v = .ok x ∧ (F.depths 0)[v]? = some x) ∧
        (∃ x, bpSize c r v = .ok x ∧ F.sizes[v]? = some x) ∧
        (∃ x, bpParent c r v = .ok x ∧ (F.parents 0 none)[v]? = some x) ∧
        (∃ x, bpFirstChild c r v = .ok x ∧ (F.firstChildren 0)[v]? = some x) ∧
        (∃ x, bpNextSibling c r v = .ok x ∧ (F.nextSiblings 0)[v]? = some x) := by
  have hl := F.bp_length
  obtain ⟨s, e1, r1⟩ := bpWrite_ok c F (VR.nil c isBlk64 1) (s := VB.new) (by simpa using hf)
  rw [List.nil_append] at r1
  obtain ⟨r, e2, e3, hr⟩ := C39_rank9 (bv_law c isBlk64) (bv_block c isBlk64).toBVBlockRead r1 (by rw [hl]; exact hu)
  refine ⟨r, by rw [bpNew, e1, Res.ok_bind, e2], by rw [e3, bv_bitLen c r1, hl], fun v hv => ?_⟩
  have hH : HoldsBits c r F.bp := ⟨by rw [e3]; exact r1, hr⟩
  have hs := hr.small
  obtain ⟨A, a, b, D, h1, h2, h3, ⟨x, h4, h4'⟩, h5, h6, h7, h8⟩ := F.split 0 0 none hv
  have hb : (bvBitVec c 64).bitLen r.inner = .ok F.bp.length := by rw [e3, bv_bitLen c r1]
  rw [h1] at hH hs hb
  have hla := a.bp_length
  have hc := List.count_le_length (a := true) (l := A)
  simp only [List.length_append, List.length_cons] at hs hb
  have ho := hH.open_ok
  rw [h3] at ho
  have hcl := bpClose_ok hH
  refine ⟨⟨x, ?_, h4⟩, ⟨_, ?_, h5⟩, ?_, ⟨_, ?_, h6⟩, ⟨_, ?_, h7⟩⟩
  · rw [bpDepth, ho, Res.ok_bind, hH.rank.rank0 _ (by simp), Res.ok_bind]
    have e : zeros (A ++ true :: (a.bp ++ false :: (b.bp ++ D))) (A.length + 1) = A.count false := by
      rw [zeros, List.take_length_add_append]
      simp
    rw [e, subN_ok (by omega)]
    congr 1
    omega
  · rw [bpSize, ho, Res.ok_bind, hcl, Res.ok_bind, addN_ok (by omega), Res.ok_bind, subN_ok (by omega), Res.ok_bind, divN_ok (by omega)]
    congr 1
    omega
  · rw [bpParent, ho, Res.ok_bind]
    rcases h8 with ⟨g, rfl, h9⟩ | ⟨A1, g, rfl, h9⟩
    · refine ⟨none, ?_, h9⟩
      have := bpEnclose_skip g (A := []) (e := 0) (by simpa using hH) (by have := g.bp_length; omega)
      rw [List.length_nil, Nat.zero_add] at this
      rw [this, bpEnclose, if_neg (by omega)]
      rfl
    · refine ⟨_, ?_, h9⟩
      have hH' : HoldsBits c r (A1 ++ true :: (g.bp ++ true :: (a.bp ++ false :: (b.bp ++ D)))) := by simpa using hH
      have := bpEnclose_skip g (A := A1 ++ [true]) (e := 0) (by simpa using hH') (by have := g.bp_length; simp at hs; omega)
      rw [List.length_append, List.length_singleton] at this
      rw [List.length_append, List.length_cons, show A1.length + (g.bp.length + 1) = A1.length + 1 + g.bp.length by omega, this, bpEnclose,
        if_pos (by omega), subN_ok (by omega), Res.ok_bind, Nat.add_sub_cancel, hH'.getBit, Res.ok_bind, if_pos rfl, if_pos rfl, Res.ok_bind]
      show (rankBefore c (Rank9.ops c (bvBitVec c 64)) r A1.length true).bind _ = _
      rw [rankBefore_ok c hH'.rank (by simp)]
      simp [occ, Res.bind]
  · rw [bpFirstChild, ho, Res.ok_bind, addN_ok (by omega), Res.ok_bind]
    cases a with
    | nil =>
      have hH' : HoldsBits c r ((A ++ [true]) ++ false :: (b.bp ++ D)) := by simpa [Forest.bp] using hH
      have := hH'.getBit
      rw [List.length_append, List.length_singleton] at this
      rw [this, Res.ok_bind]
      rfl
    | cons a1 a2 =>
      have hH' : HoldsBits c r ((A ++ [true]) ++ true :: (a1.bp ++ false :: a2.bp ++ false :: (b.bp ++ D))) := by
        simpa [Forest.bp] using hH
      have := hH'.getBit
      rw [List.length_append, List.length_singleton] at this
      rw [this, Res.ok_bind, if_pos rfl, addN_ok (by omega), Res.ok_bind]
      simp [Forest.first]
  · rw [bpNextSibling, ho, Res.ok_bind, hcl, Res.ok_bind, addN_ok (by omega), Res.ok_bind, hb, Res.ok_bind]
    have hH' : HoldsBits c r ((A ++ true :: (a.bp ++ [false])) ++ (b.bp ++ D)) := by simpa using hH
    have hlen : (A ++ true :: (a.bp ++ [false])).length = A.length + 1 + 2 * a.size + 1 := by simp [hla]; omega
    cases b with
    | nil =>
      rcases h2 with rfl | ⟨D', rfl⟩
      · rw [if_neg (by simp [Forest.bp]; omega)]
        rfl
      · rw [if_pos (by simp [Forest.bp]; omega)]
        rw [Forest.bp, List.nil_append] at hH'
        have := hH'.getBit
        rw [hlen] at this
        rw [this, Res.ok_bind]
        rfl
    | cons b1 b2 =>
      rw [if_pos (by simp [Forest.bp]; omega)]
      have hH' : HoldsBits c r ((A ++ true :: (a.bp ++ [false])) ++ true :: (b1.bp ++ false :: b2.bp ++ D)) := by
        simpa [Forest.bp] using hH'
      have := hH'.getBit
      rw [hlen] at this
      rw [this, Res.ok_bind, if_pos rfl, ← hlen, rankBefore_ok c hH'.rank (by simp), Res.ok_bind, occ, List.take_left]
      simp [Forest.first, a.bp_count, h3]
      omega

theorem Forest.bp_prefix {a a' : Forest} {x x' : List Bool} (h : a.bp ++ false :: x = a'.bp ++ false :: x') : a = a' ∧ x = x' := by
  induction a generalizing a' x x' with
  | nil =>
    cases a' with
    | nil => exact ⟨rfl, by simpa [Forest.bp] using h⟩
    | cons _ _ => simp [Forest.bp] at h
  | cons a b iha ihb =>
    cases a' with
    | nil => simp [Forest.bp] at h
    | cons a' b' =>
      simp only [Forest.bp, List.cons_append, List.append_assoc, List.cons.injEq, true_and] at h
      obtain ⟨rfl, h1⟩ := iha h
      obtain ⟨rfl, h2⟩ := ihb h1
      exact ⟨rfl, h2⟩

/-- C169: the bits say which forest it is; no two forests are written alike, nor is one the start of another inside a tree. -/
theorem C169_one_forest {F G : Forest} {x y : List Bool} :
    (F.bp = G.bp → F = G) ∧ (F.bp ++ false :: x = G.bp ++ false :: y → F = G ∧ x = y) :=
  ⟨fun h => (Forest.bp_prefix (x := []) (x' := []) (by rw [h])).1, Forest.bp_prefix⟩

end Succinct
