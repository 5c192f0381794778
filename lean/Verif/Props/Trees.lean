import Verif.Props.Neighbours
import Verif.Props.Coding
/-! Property C161: ordered trees as one bit vector under rank and select (LOUDS). The programs here are not in the crate; they call its
`Unary` code, `BitBuffer`, `Rank9`, `rank` and `select`. -/
namespace Succinct
open Spec

/-- Ordered trees. -/
inductive OTree
  | node (children : List OTree)

namespace OTree

def children : OTree → List OTree
  | node cs => cs

def degree (t : OTree) : Nat := t.children.length

mutual
/-- The number of nodes. -/
def size : OTree → Nat
  | node cs => sizes cs + 1
/-- The number of nodes of several trees. -/
def sizes : List OTree → Nat
  | [] => 0
  | t :: ts => t.size + sizes ts
end

/-- The subtree at the end of a path of child numbers. -/
def «at» : OTree → List Nat → Option OTree
  | t, [] => some t
  | t, k :: ks => (t.children[k]?).bind fun u => u.at ks

theorem sizes_append (ts us : List OTree) : sizes (ts ++ us) = sizes ts + sizes us := by
  induction ts with
  | nil => simp [sizes]
  | cons t ts ih => simp [sizes, ih, Nat.add_assoc]

theorem size_eq (t : OTree) : t.size = sizes t.children + 1 := by
  cases t; rfl

/-- The nodes of some trees level by level, as a queue delivers them. -/
def levelOrder : List OTree → List OTree
  | [] => []
  | t :: q => t :: levelOrder (q ++ t.children)
termination_by q => sizes q
decreasing_by rw [sizes_append, sizes, size_eq]; omega

/-- First the trees, then the children of all nodes in the same order. -/
theorem levelOrder_eq (q : List OTree) : levelOrder q = q ++ (levelOrder q).flatMap children := by
  fun_induction levelOrder q with
  | case1 => rfl
  | case2 t q ih =>
    rw [List.flatMap_cons, List.cons_append]
    congr 1
    conv => lhs; rw [ih]
    rw [List.append_assoc]

theorem levelOrder_length (q : List OTree) : (levelOrder q).length = sizes q := by
  fun_induction levelOrder q with
  | case1 => simp [sizes]
  | case2 t q ih => rw [List.length_cons, ih, sizes_append, sizes, size_eq]; omega

/-- When a node is taken from the queue, more nodes have been put there than taken before it. -/
theorem levelOrder_ahead {q as cs : List OTree} {u : OTree} (h : levelOrder q = as ++ u :: cs) :
    as.length < q.length + (as.map degree).sum := by
  induction as generalizing q with
  | nil =>
    cases q with
    | nil => rw [levelOrder] at h; cases h
    | cons t q => simp
  | cons a as ih =>
    cases q with
    | nil => rw [levelOrder] at h; cases h
    | cons t q =>
      rw [levelOrder, List.cons_append, List.cons.injEq] at h
      have := ih h.2
      simp only [List.length_append, List.length_cons, List.map_cons, List.sum_cons, ← h.1, degree] at this ⊢
      omega

end OTree

/-- The nodes, the root first, then its children, then theirs, and so on; the number of a node is its place. -/
def Spec.nodes (t : OTree) : List OTree := OTree.levelOrder [t]

/-- The number of children of each node in unary. -/
def Spec.treeBits (t : OTree) : List Bool := (nodes t).flatMap fun u => unaryWord u.degree

section
variable (c : Cfg)

/-- `while let Some(t) = queue.pop_front() { UNARY.encode(&mut buf, t.children.len() as u64)?; queue.extend(t.children) }` -/
def treeWrite : List OTree → SM (BitBuf (VB 64)) Unit
  | [] => pure ()
  | t :: q => do
    (unary c).encode (BitBuf.write c (bvBitVecPush c 64)) t.degree
    treeWrite (q ++ t.children)
termination_by q => OTree.sizes q
decreasing_by rw [OTree.sizes_append, OTree.sizes, OTree.size_eq]; omega

/-- `Rank9::new(buf.into_inner())` after writing a tree. -/
def treeNew (t : OTree) : Res (Rank9 (VB 64)) := do
  let (r, buf) ← treeWrite c [t] (.from_ VB.new)
  match r with
  | .ok () => Rank9.new c (bvBitVec c 64) buf.inner
  | .error _ => .panic

variable (r : Rank9 (VB 64))

/-- `if i == 0 { 0 } else { s.select1(i - 1).unwrap() + 1 }`: where the word of node `i` begins. -/
def treeStart (i : Nat) : Res Nat :=
  if i = 0 then .ok 0 else do
    let j ← subN c 64 i 1
    let x ← BinSearchSelect.select1 c (Rank9.ops c (bvBitVec c 64)) (.new r) j
    let p ← expectR x
    addN c 64 p 1

/-- `s.select1(i).unwrap() - start(i)` -/
def treeDegree (i : Nat) : Res Nat := do
  let a ← treeStart c r i
  let x ← BinSearchSelect.select1 c (Rank9.ops c (bvBitVec c 64)) (.new r) i
  let p ← expectR x
  subN c 64 p a

/-- `if k < degree(i) { Some(start(i) - i + k + 1) } else { None }` -/
def treeChild (i k : Nat) : Res (Option Nat) := do
  let d ← treeDegree c r i
  if k < d then do
    let a ← treeStart c r i
    let z ← subN c 64 a i
    let z ← addN c 64 z k
    let z ← addN c 64 z 1
    .ok (some z)
  else .ok none

/-- `if m == 0 { None } else { let p = s.select0(m - 1).unwrap(); let i = rank before p; Some((i, p - start(i))) }`: whose child a node
is, and which. -/
def treeParent (m : Nat) : Res (Option (Nat × Nat)) :=
  if m = 0 then .ok none else do
    let j ← subN c 64 m 1
    let x ← BinSearchSelect.select0 c (Rank9.ops c (bvBitVec c 64)) (.new r) j
    let p ← expectR x
    let i ← rankBefore c (Rank9.ops c (bvBitVec c 64)) r p true
    let a ← treeStart c r i
    let k ← subN c 64 p a
    .ok (some (i, k))

/-- From node `i` down a path of child numbers. -/
def treeWalk : List Nat → Nat → Res (Option Nat)
  | [], i => .ok (some i)
  | k :: ks, i => do
    match ← treeChild c r i k with
    | some j => treeWalk ks j
    | none => .ok none
end

/-! Unary words one after another. -/

def unaries (ds : List Nat) : List Bool := ds.flatMap unaryWord

theorem unaries_counts (ds : List Nat) :
    (unaries ds).length = ds.sum + ds.length ∧ (unaries ds).count true = ds.length ∧ (unaries ds).count false = ds.sum := by
  induction ds with
  | nil => simp [unaries]
  | cons d ds ih =>
    obtain ⟨h1, h2, h3⟩ := ih
    unfold unaries at *
    simp only [List.flatMap_cons, List.length_append, List.count_append, h1, h2, h3, unaryWord, List.length_replicate,
      List.count_replicate, List.sum_cons, List.length_cons, List.count_singleton]
    simp
    omega

/-- Within the word of number `d`. -/
theorem unaries_at (as : List Nat) (d : Nat) (cs : List Nat) {k : Nat} (hk : k ≤ d) :
    (unaries (as ++ d :: cs))[as.sum + as.length + k]? = some (decide (k = d)) ∧
      occ true (unaries (as ++ d :: cs)) (as.sum + as.length + k) = as.length ∧
      occ false (unaries (as ++ d :: cs)) (as.sum + as.length + k) = as.sum + k := by
  obtain ⟨h1, h2, h3⟩ := unaries_counts as
  have e : unaries (as ++ d :: cs) = unaries as ++ (List.replicate d false ++ (true :: unaries cs)) := by
    simp [unaries, unaryWord]
  have ht : (unaries (as ++ d :: cs)).take (as.sum + as.length + k) = unaries as ++ List.replicate k false := by
    rw [e, ← h1, List.take_length_add_append, List.take_append_of_le_length (by simpa using hk), List.take_replicate, Nat.min_eq_left hk]
  refine ⟨?_, ?_, ?_⟩
  · rw [e, ← h1, List.getElem?_append_right (Nat.le_add_right _ _), Nat.add_sub_cancel_left]
    rcases Nat.lt_or_ge k d with h | h
    · rw [List.getElem?_append_left (by simpa using h), List.getElem?_replicate, if_pos h]
      simp; omega
    · obtain rfl : k = d := by omega
      rw [List.getElem?_append_right (by simp)]
      simp
  · rw [occ, ht, List.count_append, h2, List.count_replicate]; simp
  · rw [occ, ht, List.count_append, h3, List.count_replicate]; simp

theorem sum_split {ds : List Nat} {m : Nat} (h : m < ds.sum) : ∃ as d cs k, ds = as ++ d :: cs ∧ k < d ∧ m = as.sum + k := by
  induction ds generalizing m with
  | nil => simp at h
  | cons d ds ih =>
    rw [List.sum_cons] at h
    rcases Nat.lt_or_ge m d with h1 | h1
    · exact ⟨[], d, ds, m, rfl, h1, by simp⟩
    · obtain ⟨as, e, cs, k, h2, h3, h4⟩ := ih (m := m - d) (by omega)
      exact ⟨d :: as, e, cs, k, by rw [h2]; rfl, h3, by rw [List.sum_cons]; omega⟩

theorem flatMap_at {α β : Type} (g : α → List β) (as : List α) (a : α) (cs : List α) {k : Nat} (hk : k < (g a).length) :
    ((as ++ a :: cs).flatMap g)[(as.map fun x => (g x).length).sum + k]? = (g a)[k]? := by
  have e : (as.flatMap g).length = (as.map fun x => (g x).length).sum := by
    rw [List.length_flatMap]
  rw [List.flatMap_append, List.flatMap_cons, ← e, List.getElem?_append_right (Nat.le_add_right _ _), Nat.add_sub_cancel_left,
    List.getElem?_append_left hk]

/-! Navigation. -/

section
variable {c : Cfg} {r : Rank9 (VB 64)} {as cs : List Nat} {d : Nat}

theorem treeSelect1 (hr : RankLaw (Rank9.ops c (bvBitVec c 64)) r (unaries (as ++ d :: cs))) :
    BinSearchSelect.select1 c (Rank9.ops c (bvBitVec c 64)) (.new r) as.length = .ok (some (as.sum + as.length + d)) := by
  obtain ⟨h1, h2, -⟩ := unaries_at as d cs (Nat.le_refl d)
  have hs := hr.small
  have hl := (unaries_counts (as ++ d :: cs)).1
  simp only [List.sum_append, List.sum_cons, List.length_append, List.length_cons] at hl
  obtain ⟨x, h3, h4⟩ := (C44_select_partial c hr (k := as.length) (by omega)).1
  rw [h3, isSelect_unique h4 (show IsSelect true _ _ (some _) from ⟨by rw [h1]; simp, h2⟩)]

theorem treeStart_ok (hr : RankLaw (Rank9.ops c (bvBitVec c 64)) r (unaries (as ++ d :: cs))) :
    treeStart c r as.length = .ok (as.sum + as.length) := by
  unfold treeStart
  have hs := hr.small
  have hl := (unaries_counts (as ++ d :: cs)).1
  simp only [List.sum_append, List.sum_cons, List.length_append, List.length_cons] at hl
  rcases List.eq_nil_or_concat as with rfl | ⟨bs, b, e⟩
  · simp
  · rw [List.concat_eq_append] at e
    subst e
    rw [if_neg (by simp), subN_ok (by simp), Res.ok_bind]
    have hr' : RankLaw (Rank9.ops c (bvBitVec c 64)) r (unaries (bs ++ b :: (d :: cs))) := by simpa using hr
    have := treeSelect1 hr'
    rw [show (bs ++ [b]).length - 1 = bs.length by simp, this, Res.ok_bind, expectR_some, Res.ok_bind]
    simp only [List.sum_append, List.sum_cons, List.sum_nil, List.length_append, List.length_cons, List.length_nil] at hl ⊢
    rw [addN_ok (by omega)]
    congr 1
    omega

theorem treeDegree_ok (hr : RankLaw (Rank9.ops c (bvBitVec c 64)) r (unaries (as ++ d :: cs))) :
    treeDegree c r as.length = .ok d := by
  rw [treeDegree, treeStart_ok hr, Res.ok_bind, treeSelect1 hr, Res.ok_bind, expectR_some, Res.ok_bind, subN_ok (by omega),
    Nat.add_sub_cancel_left]

theorem treeChild_ok (hr : RankLaw (Rank9.ops c (bvBitVec c 64)) r (unaries (as ++ d :: cs))) (k : Nat) :
    treeChild c r as.length k = .ok (if k < d then some (as.sum + k + 1) else none) := by
  have hs := hr.small
  have hl := (unaries_counts (as ++ d :: cs)).1
  simp only [List.sum_append, List.sum_cons, List.length_append, List.length_cons] at hl
  rw [treeChild, treeDegree_ok hr, Res.ok_bind]
  split
  · rw [treeStart_ok hr, Res.ok_bind, subN_ok (by omega), Res.ok_bind, addN_ok (by omega), Res.ok_bind, addN_ok (by omega), Res.ok_bind,
      Nat.add_sub_cancel]
  · rfl

theorem treeParent_ok (hr : RankLaw (Rank9.ops c (bvBitVec c 64)) r (unaries (as ++ d :: cs))) {k : Nat} (hk : k < d) :
    treeParent c r (as.sum + k + 1) = .ok (some (as.length, k)) := by
  have hs := hr.small
  have hl := (unaries_counts (as ++ d :: cs)).1
  simp only [List.sum_append, List.sum_cons, List.length_append, List.length_cons] at hl
  obtain ⟨h1, h2, h3⟩ := unaries_at as d cs (Nat.le_of_lt hk)
  rw [treeParent, if_neg (by omega), subN_ok (by omega), Res.ok_bind, Nat.add_sub_cancel]
  obtain ⟨x, h4, h5⟩ := (C44_select_partial c hr (k := as.sum + k) (by omega)).2.1
  rw [h4, isSelect_unique h5 (show IsSelect false _ _ (some _) from ⟨by rw [h1]; simp; omega, h3⟩), Res.ok_bind, expectR_some, Res.ok_bind,
    rankBefore_ok c hr (by rw [(unaries_counts _).1]; simp; omega), h2, Res.ok_bind, treeStart_ok hr, Res.ok_bind, subN_ok (by omega),
    Res.ok_bind, Nat.add_sub_cancel_left]
end

theorem encodeAll_treeWrite (c : Cfg) (q : List OTree) : treeWrite c q =
    encodeAll (unary c) (BitBuf.write c (bvBitVecPush c 64)) ((OTree.levelOrder q).map OTree.degree) := by
  fun_induction OTree.levelOrder q with
  | case1 => rw [treeWrite]; rfl
  | case2 t q ih => rw [treeWrite, List.map_cons, encodeAll, ih]

theorem nodes_eq (t : OTree) : nodes t = t :: (nodes t).flatMap OTree.children := by
  conv => lhs; rw [nodes, OTree.levelOrder_eq]
  rfl

theorem nodes_length (t : OTree) : (nodes t).length = t.size := by
  rw [nodes, OTree.levelOrder_length]; simp [OTree.sizes]

theorem treeBits_unaries (t : OTree) : treeBits t = unaries ((nodes t).map OTree.degree) := by
  rw [treeBits, unaries, List.flatMap_map]

theorem degrees_sum (t : OTree) : ((nodes t).map OTree.degree).sum + 1 = t.size := by
  have h := congrArg List.length (nodes_eq t)
  rw [List.length_cons, List.length_flatMap, nodes_length] at h
  exact h.symm

/-- C161: a tree of `n` nodes as `2n - 1` bits. -/
theorem treeBits_length (t : OTree) : (treeBits t).length = 2 * t.size - 1 := by
  have := degrees_sum t
  rw [treeBits_unaries, (unaries_counts _).1, List.length_map, nodes_length]
  omega

/-- The structure holds the tree. -/
def HoldsTree (c : Cfg) (r : Rank9 (VB 64)) (t : OTree) : Prop := RankLaw (Rank9.ops c (bvBitVec c 64)) r (treeBits t)

section
variable {c : Cfg} {r : Rank9 (VB 64)} {t : OTree}

theorem nodes_split {i : Nat} {u : OTree} (h : (nodes t)[i]? = some u) :
    ∃ as cs, nodes t = as ++ u :: cs ∧ as.length = i := by
  obtain ⟨h1, h2⟩ := List.getElem?_eq_some_iff.1 h
  refine ⟨(nodes t).take i, (nodes t).drop (i + 1), ?_, by rw [List.length_take]; omega⟩
  rw [← h2, List.getElem_cons_drop, List.take_append_drop]

theorem HoldsTree.split (hr : HoldsTree c r t) {as cs : List OTree} {u : OTree} (h : nodes t = as ++ u :: cs) :
    RankLaw (Rank9.ops c (bvBitVec c 64)) r (unaries (as.map OTree.degree ++ u.degree :: cs.map OTree.degree)) := by
  have := hr
  rw [HoldsTree, treeBits_unaries, h, List.map_append, List.map_cons] at this
  exact this

theorem HoldsTree.degree (hr : HoldsTree c r t) {i : Nat} {u : OTree} (hu : (nodes t)[i]? = some u) :
    treeDegree c r i = .ok u.degree := by
  obtain ⟨as, cs, h1, h2⟩ := nodes_split hu
  have := treeDegree_ok (hr.split h1)
  rwa [List.length_map, h2] at this

theorem HoldsTree.child (hr : HoldsTree c r t) {i : Nat} {u : OTree} (hu : (nodes t)[i]? = some u) (k : Nat) :
    ∃ x, treeChild c r i k = .ok x ∧ (x.bind fun j => (nodes t)[j]?) = u.children[k]? ∧ (x = none ↔ u.degree ≤ k) ∧
      ∀ j, x = some j → i < j ∧ treeParent c r j = .ok (some (i, k)) := by
  obtain ⟨as, cs, h1, h2⟩ := nodes_split hu
  have h3 := treeChild_ok (hr.split h1) k
  rw [List.length_map, h2] at h3
  refine ⟨_, h3, ?_, ?_, ?_⟩
  · split
    · next hk =>
      have h4 := flatMap_at OTree.children as u cs (k := k) hk
      rw [← h1] at h4
      show (nodes t)[_]? = _
      rw [nodes_eq, List.getElem?_cons_succ]
      exact h4
    · next hk =>
      rw [List.getElem?_eq_none (by rw [OTree.degree] at hk; omega)]
      rfl
  · split <;> simp <;> omega
  · intro j hj
    split at hj
    · next hk =>
      cases hj
      have h5 := treeParent_ok (hr.split h1) hk
      rw [List.length_map, h2] at h5
      refine ⟨?_, h5⟩
      have := OTree.levelOrder_ahead h1
      rw [List.length_singleton] at this
      omega
    · cases hj

theorem HoldsTree.parent (hr : HoldsTree c r t) {m : Nat} (h0 : 0 < m) (hm : m < t.size) :
    ∃ i k, treeParent c r m = .ok (some (i, k)) ∧ i < t.size ∧ treeChild c r i k = .ok (some m) := by
  have hs := degrees_sum t
  obtain ⟨as, d, cs, k, h1, h2, h3⟩ := sum_split (ds := (nodes t).map OTree.degree) (m := m - 1) (by omega)
  have hr' := hr
  rw [HoldsTree, treeBits_unaries, h1] at hr'
  have e : as.sum + k + 1 = m := by omega
  refine ⟨as.length, k, by rw [← e]; exact treeParent_ok hr' h2, ?_, by rw [treeChild_ok hr' k, if_pos h2, e]⟩
  have := congrArg List.length h1
  rw [List.length_map, nodes_length, List.length_append, List.length_cons] at this
  omega

theorem HoldsTree.walk (hr : HoldsTree c r t) (ks : List Nat) {i : Nat} {u : OTree} (hu : (nodes t)[i]? = some u) :
    ∃ x, treeWalk c r ks i = .ok x ∧ (x.bind fun j => (nodes t)[j]?) = u.at ks ∧ ∀ j, x = some j → j < t.size := by
  induction ks generalizing i u with
  | nil =>
    refine ⟨some i, rfl, ?_, fun j hj => ?_⟩
    · simpa [OTree.at] using hu
    · cases hj
      rw [← nodes_length]
      exact (List.getElem?_eq_some_iff.1 hu).1
  | cons k ks ih =>
    obtain ⟨x, h1, h2, h3, -⟩ := hr.child hu k
    rw [treeWalk, h1, Res.ok_bind]
    cases x with
    | none =>
      have h4 := h3.1 rfl
      refine ⟨none, rfl, ?_, fun _ h => nomatch h⟩
      rw [OTree.at, List.getElem?_eq_none h4]; rfl
    | some j =>
      have h2 : (nodes t)[j]? = u.children[k]? := h2
      have h4 : k < u.children.length := by
        apply Nat.lt_of_not_le
        intro h
        cases h3.2 h
      rw [List.getElem?_eq_getElem h4] at h2
      obtain ⟨y, h5, h6, h7⟩ := ih h2
      refine ⟨y, h5, ?_, h7⟩
      rw [h6, OTree.at, List.getElem?_eq_getElem h4]; rfl
end

theorem treeNew_ok (c : Cfg) (t : OTree) (hf : Fits c.usz 64 (2 * t.size - 1)) (hu : blocksFor 64 (2 * t.size - 1) + 8 < 2 ^ c.usz) :
    ∃ r, treeNew c t = .ok r ∧ (bvBitVec c 64).bitLen r.inner = .ok (2 * t.size - 1) ∧ HoldsTree c r t := by
  have hl := treeBits_length t
  have h0 : bufR (bvR c 64) (.from_ (VB.new : VB 64)) ⟨[], 0⟩ := ⟨VR.nil c isBlk64 1, rfl, Nat.le_refl _⟩
  have hm : ∀ {m n}, Fits c.usz 64 n → m ≤ n → Fits c.usz 64 m := fun h1 h2 => h1.mono h2
  obtain ⟨s, e1, r1⟩ := (buf_sink (bv_pushVec c isBlk64)).writeAll hm (treeBits t) h0 (by simpa [hl] using hf)
  have r1 : bvR c 64 s.data (treeBits t) := by simpa using r1.1
  have hlt := hf.lt (by omega)
  obtain ⟨r, e2, e3, h1⟩ := C39_rank9 (bv_law c isBlk64) (bv_block c isBlk64).toBVBlockRead r1 (by rw [hl]; exact hu)
  refine ⟨r, ?_, by rw [e3, bv_bitLen c r1, hl], h1⟩
  have hd : ∀ d ∈ (nodes t).map OTree.degree, d < 2 ^ 64 := fun d hd => by
    obtain ⟨as, cs, e⟩ := List.append_of_mem hd
    have := degrees_sum t
    rw [e, List.sum_append, List.sum_cons] at this
    omega
  have e4 : treeWrite c [t] = writeAll (BitBuf.write c (bvBitVecPush c 64)) (treeBits t) := by
    rw [encodeAll_treeWrite, treeBits_unaries]
    exact encodeAll_eq (C55_unary c).encodes _ _ hd
  rw [treeNew, e4, e1, Res.ok_bind]
  exact e2

/-- C161: a tree of `n` nodes is written as `2n - 1` bits, the numbers of children in `Unary`, level by level. Over these bits `Rank9`
and `BinSearchSelect` find, for any node by its number: how many children it has, the number of each of them, and whose child it is and
which. A path of child numbers from the root leads to the subtree there, and nowhere if there is none. -/
theorem C161_trees (c : Cfg) (t : OTree) (hf : Fits c.usz 64 (2 * t.size - 1)) (hu : blocksFor 64 (2 * t.size - 1) + 8 < 2 ^ c.usz) :
    ∃ r, treeNew c t = .ok r ∧ (bvBitVec c 64).bitLen r.inner = .ok (2 * t.size - 1) ∧ (nodes t).length = t.size ∧
      (∀ i u, (nodes t)[i]? = some u → treeDegree c r i = .ok u.children.length ∧
        ∀ k, ∃ x, treeChild c r i k = .ok x ∧ (x.bind fun j => (nodes t)[j]?) = u.children[k]? ∧ (x = none ↔ u.children.length ≤ k) ∧
          ∀ j, x = some j → i < j ∧ treeParent c r j = .ok (some (i, k))) ∧
      treeParent c r 0 = .ok none ∧
      (∀ m, 0 < m → m < t.size → ∃ i k, treeParent c r m = .ok (some (i, k)) ∧ i < t.size ∧ treeChild c r i k = .ok (some m)) ∧
      ∀ ks, ∃ x, treeWalk c r ks 0 = .ok x ∧ (x.bind fun j => (nodes t)[j]?) = t.at ks ∧ ∀ j, x = some j → j < t.size := by
  obtain ⟨r, h1, h2, h3⟩ := treeNew_ok c t hf hu
  refine ⟨r, h1, h2, nodes_length t, fun i u hu => ⟨h3.degree hu, h3.child hu⟩, rfl, fun m => h3.parent, fun ks => h3.walk ks ?_⟩
  rw [nodes_eq]; rfl

end Succinct
