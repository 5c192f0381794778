import Verif.Props.Parentheses
import Verif.Props.BitVector
/-! Property C176: directed graphs as one bit vector under select and one integer vector, and what can be reached in them. The programs here
are not in the crate; they call its `push_bit`, `get_bit`, `set_bit`, `with_fill`, `select1` and the methods of `IntVector`. -/
namespace Succinct
open Spec

/-- A graph is given by the targets of the edges of each node. A node is reached from itself, and over an edge from any reached node. -/
inductive Spec.Reaches (g : List (List Nat)) (s : Nat) : Nat → Prop where
  | here : Reaches g s s
  | edge {u x : Nat} {ts : List Nat} : Reaches g s u → g[u]? = some ts → x ∈ ts → Reaches g s x

/-- For each node a one, and a zero for each of its edges. -/
def degreeBits (g : List (List Nat)) : List Bool := g.flatMap fun ts => true :: List.replicate ts.length false

/-- The bits under rank and select, and the targets of all edges. -/
structure Graph where
  rank : Rank9 (VB 64)
  targets : IV 64

section
variable (c : Cfg)

/-- `for x in ts { b.push_bit(false); t.push(x) }` -/
def graphRow : List Nat → VB 64 → IV 64 → Res (VB 64 × IV 64)
  | [], b, t => .ok (b, t)
  | x :: ts, b, t => do
    let b ← (bvBitVecPush c 64).pushBit b false
    let t ← t.push c (BitVec.ofNat 64 x)
    graphRow ts b t

/-- `for ts in g { b.push_bit(true); (the above for ts) }` -/
def graphFill : List (List Nat) → VB 64 → IV 64 → Res (VB 64 × IV 64)
  | [], b, t => .ok (b, t)
  | ts :: g, b, t => do
    let b ← (bvBitVecPush c 64).pushBit b true
    let (b, t) ← graphRow c ts b t
    graphFill g b t

/-- The same with a last one behind the edges of the last node. -/
def graphNew (k : Nat) (g : List (List Nat)) : Res Graph := do
  let t ← IV.new 64 k
  let (b, t) ← graphFill c g VB.new t
  let b ← (bvBitVecPush c 64).pushBit b true
  let r ← Rank9.new c (bvBitVec c 64) b
  .ok ⟨r, t⟩

variable (G : Graph)

/-- `select1(v).unwrap() - v`: where the edges of `v` begin. -/
def Graph.start (v : Nat) : Res Nat := do
  let p ← bpOpen c G.rank v
  subN c 64 p v

/-- `start(v + 1)` -/
def Graph.stop (v : Nat) : Res Nat := do
  let v ← addN c 64 v 1
  G.start c v

/-- `stop(v) - start(v)` -/
def Graph.degree (v : Nat) : Res Nat := do
  let a ← G.start c v
  let b ← G.stop c v
  subN c 64 b a

/-- `t.get(start(v) + i)` -/
def Graph.target (v i : Nat) : Res (BitVec 64) := do
  let a ← G.start c v
  let p ← addN c 64 a i
  G.targets.get c p

/-- `b.bit_len() - t.len() - 1` -/
def Graph.nodes : Res Nat := do
  let m ← (bvBitVec c 64).bitLen G.rank.inner
  let m ← subN c 64 m G.targets.len
  subN c 64 m 1

/-- `let x = t.get(i); if !seen.get_bit(x) { seen.set_bit(x, true); stack.push(x) }` -/
def Graph.look (i : Nat) (st : VB 64 × IV 64) : Res (VB 64 × IV 64) := do
  let x ← G.targets.get c i
  let b ← (bvBitVec c 64).getBit st.1 x.toNat
  if b then .ok st
  else do
    let seen ← (bvBitVecMut c 64).setBit st.1 x.toNat true
    let stack ← st.2.push c x
    .ok (seen, stack)

/-- `while let Some(v) = stack.pop() { for i in start(v) .. stop(v) { (the above) } }` -/
def Graph.visit (seen : VB 64) (stack : IV 64) : Res (VB 64) := do
  let (top, stack) ← stack.pop c
  match top with
  | none => .ok seen
  | some v => do
    let a ← G.start c v.toNat
    let b ← G.stop c v.toNat
    let (seen, stack) ← forRange a b (seen, stack) (G.look c)
    Graph.visit seen stack
partial_fixpoint

/-- `let mut seen = BitVector::with_fill(nodes(), false); seen.set_bit(s, true); let mut stack = IntVector::new(64); stack.push(s); (the above)` -/
def Graph.reach (s : Nat) : Res (VB 64) := do
  let n ← G.nodes c
  let seen ← BV.withFill c 64 n false
  let seen ← (bvBitVecMut c 64).setBit seen s true
  let stack ← IV.new 64 64
  let stack ← stack.push c (BitVec.ofNat 64 s)
  G.visit c seen stack
end

/-- The structure holds this graph. -/
structure HoldsGraph (c : Cfg) (k : Nat) (G : Graph) (g : List (List Nat)) : Prop where
  bits : HoldsBits c G.rank (degreeBits g ++ [true])
  targets : IR c 64 k G.targets g.flatten

theorem degreeBits_cons (ts : List Nat) (g : List (List Nat)) : degreeBits (ts :: g) = true :: (List.replicate ts.length false ++ degreeBits g) := rfl

theorem degreeBits_append (g h : List (List Nat)) : degreeBits (g ++ h) = degreeBits g ++ degreeBits h := List.flatMap_append

theorem degreeBits_length (g : List (List Nat)) : (degreeBits g).length = g.length + g.flatten.length := by
  induction g with
  | nil => rfl
  | cons ts g ih =>
    rw [degreeBits_cons, List.length_cons, List.length_append, List.length_replicate, ih, List.length_cons, List.flatten_cons, List.length_append]
    omega

theorem degreeBits_count (g : List (List Nat)) : (degreeBits g).count true = g.length := by
  induction g with
  | nil => rfl
  | cons ts g ih =>
    rw [degreeBits_cons, List.count_cons_self, List.count_append, ih, List.count_replicate]
    simp

section
variable {c : Cfg} {k : Nat} {G : Graph} {g : List (List Nat)}

theorem graphRow_ok (c : Cfg) {k : Nat} {b : VB 64} {t : IV 64} {bits : List Bool} {ys : List Nat} (ts : List Nat) (hb : bvR c 64 b bits) (ht : IR c 64 k t ys)
    (hx : ∀ x ∈ ts, x < 2 ^ k) (hf : Fits c.usz 64 (bits.length + ts.length)) (hg : Fits c.usz 64 ((ys.length + ts.length) * k)) :
    ∃ b' t', graphRow c ts b t = .ok (b', t') ∧ bvR c 64 b' (bits ++ List.replicate ts.length false) ∧ IR c 64 k t' (ys ++ ts) := by
  have hk := Nat.pow_le_pow_right (n := 2) (by omega) ht.le
  induction ts generalizing b t bits ys with
  | nil => exact ⟨b, t, rfl, by simpa using hb, by simpa using ht⟩
  | cons x ts ih =>
    rw [List.length_cons] at hf hg
    have hxk := hx x (by simp)
    have e : (BitVec.ofNat 64 x).toNat = x := by rw [BitVec.toNat_ofNat, Nat.mod_eq_of_lt (by omega)]
    obtain ⟨b1, e1, r1⟩ := bv_pushBit c isBlk64 hb false (hf.mono (by omega))
    obtain ⟨t1, e2, r2⟩ := ht.push_ok isBlk64 (BitVec.ofNat 64 x) (hg.mono (by
      rw [← Nat.succ_mul]
      exact Nat.mul_le_mul_right _ (by omega))) (by rw [e]; exact hxk)
    rw [e] at r2
    obtain ⟨b2, t2, e3, r3, r4⟩ := ih r1 r2 (fun y hy => hx y (List.mem_cons_of_mem _ hy))
      (by rw [List.length_append, List.length_singleton, Nat.add_assoc, Nat.add_comm 1]; exact hf)
      (by rw [List.length_append, List.length_singleton, Nat.add_assoc, Nat.add_comm 1]; exact hg)
    refine ⟨b2, t2, by rw [graphRow, e1, Res.ok_bind, e2, Res.ok_bind, e3], ?_, by simpa using r4⟩
    rw [List.length_cons, List.replicate_succ]
    simpa using r3

theorem graphFill_ok (c : Cfg) {k : Nat} {b : VB 64} {t : IV 64} {bits : List Bool} {ys : List Nat} (g : List (List Nat)) (hb : bvR c 64 b bits)
    (ht : IR c 64 k t ys) (hx : ∀ ts ∈ g, ∀ x ∈ ts, x < 2 ^ k) (hf : Fits c.usz 64 (bits.length + (degreeBits g).length))
    (hg : Fits c.usz 64 ((ys.length + g.flatten.length) * k)) :
    ∃ b' t', graphFill c g b t = .ok (b', t') ∧ bvR c 64 b' (bits ++ degreeBits g) ∧ IR c 64 k t' (ys ++ g.flatten) := by
  induction g generalizing b t bits ys with
  | nil => exact ⟨b, t, rfl, by simpa [degreeBits] using hb, by simpa using ht⟩
  | cons ts g ih =>
    rw [degreeBits_cons, List.length_cons, List.length_append, List.length_replicate] at hf
    rw [List.flatten_cons, List.length_append] at hg
    obtain ⟨b1, e1, r1⟩ := bv_pushBit c isBlk64 hb true (hf.mono (by omega))
    obtain ⟨b2, t2, e2, r2, r3⟩ := graphRow_ok c ts r1 ht (hx ts (by simp))
      (hf.mono (by rw [List.length_append, List.length_singleton]; omega)) (hg.mono (Nat.mul_le_mul_right _ (by omega)))
    obtain ⟨b3, t3, e3, r4, r5⟩ := ih r2 r3 (fun us hu => hx us (List.mem_cons_of_mem _ hu))
      (hf.mono (by simp only [List.length_append, List.length_singleton, List.length_replicate]; omega))
      (by rw [List.length_append, Nat.add_assoc]; exact hg)
    refine ⟨b3, t3, ?_, by simpa [degreeBits_cons] using r4, by simpa using r5⟩
    rw [graphFill, e1, Res.ok_bind, e2]
    exact e3

theorem HoldsGraph.start_ok (h : HoldsGraph c k G g) {v : Nat} (hv : v ≤ g.length) : G.start c v = .ok (g.take v).flatten.length := by
  have hc := degreeBits_count (g.take v)
  have hl := degreeBits_length (g.take v)
  rw [List.length_take, Nat.min_eq_left hv] at hc hl
  obtain ⟨B, hB⟩ : ∃ B, degreeBits (g.drop v) ++ [true] = true :: B := by
    cases g.drop v with
    | nil => exact ⟨[], rfl⟩
    | cons ts r => exact ⟨_, rfl⟩
  have hb := h.bits
  rw [← List.take_append_drop v g, degreeBits_append, List.append_assoc, hB] at hb
  have := hb.open_ok
  rw [hc, hl] at this
  have hs := hb.rank.small
  rw [List.length_append, hl] at hs
  rw [Graph.start, this, Res.ok_bind, subN_ok (by omega)]
  congr 1
  omega

theorem HoldsGraph.stop_ok (h : HoldsGraph c k G g) {v : Nat} (hv : v < g.length) :
    G.stop c v = .ok ((g.take v).flatten.length + g[v].length) := by
  have hs := h.bits.rank.small
  rw [List.length_append, degreeBits_length] at hs
  rw [Graph.stop, addN_ok (by omega), Res.ok_bind, h.start_ok (by omega), List.take_succ_eq_append_getElem hv, List.flatten_append, List.length_append]
  simp

theorem flatten_at {v i : Nat} (hv : v < g.length) (hi : i < g[v].length) : g.flatten[(g.take v).flatten.length + i]? = some g[v][i] := by
  have e : g = g.take v ++ g[v] :: g.drop (v + 1) := by rw [List.getElem_cons_drop, List.take_append_drop]
  conv => lhs; rw [e]
  rw [List.flatten_append, List.flatten_cons, List.take_left' (by rw [List.length_take]; omega), List.getElem?_append_right (by omega),
    show (g.take v).flatten.length + i - (g.take v).flatten.length = i by omega, List.getElem?_append_left hi, List.getElem?_eq_getElem hi]

theorem HoldsGraph.target_ok (h : HoldsGraph c k G g) {v i : Nat} (hv : v < g.length) (hi : i < g[v].length) :
    ∃ x, G.targets.get c ((g.take v).flatten.length + i) = .ok x ∧ x.toNat = g[v][i] := by
  have := flatten_at hv hi
  obtain ⟨h1, h2⟩ := List.getElem?_eq_some_iff.1 this
  rw [← h2]
  exact h.targets.get_ok isBlk64 h1

/-- C176: the structure of a graph gives the number of nodes, the number of edges of each node, and each target. -/
theorem C176_graph (c : Cfg) {k : Nat} (h1 : 1 ≤ k) (hk : k ≤ 64) (g : List (List Nat)) (hx : ∀ ts ∈ g, ∀ x ∈ ts, x < 2 ^ k)
    (hf : Fits c.usz 64 (g.length + g.flatten.length + 1)) (hg : Fits c.usz 64 (g.flatten.length * k))
    (hu : blocksFor 64 (g.length + g.flatten.length + 1) + 8 < 2 ^ c.usz) :
    ∃ G, graphNew c k g = .ok G ∧ HoldsGraph c k G g ∧ G.nodes c = .ok g.length ∧
      ∀ v (hv : v < g.length), G.degree c v = .ok g[v].length ∧
        ∀ i (hi : i < g[v].length), ∃ x, G.target c v i = .ok x ∧ x.toNat = g[v][i] := by
  obtain ⟨t, e1, r1⟩ := ivInit_ok c isBlk64 h1 hk .new trivial
  obtain ⟨b, t', e2, r2, r3⟩ := graphFill_ok c g (VR.nil c isBlk64 1) (b := VB.new) r1 hx
    (hf.mono (by rw [degreeBits_length]; simp)) (by simpa [IvInit.elems] using hg)
  rw [List.nil_append] at r2
  have r3 : IR c 64 k t' g.flatten := by simpa [IvInit.elems] using r3
  obtain ⟨b', e3, r4⟩ := bv_pushBit c isBlk64 r2 true (hf.mono (by rw [degreeBits_length]; omega))
  have hl : (degreeBits g ++ [true]).length = g.length + g.flatten.length + 1 := by rw [List.length_append, degreeBits_length]; rfl
  obtain ⟨r, e4, e5, hr⟩ := C39_rank9 (bv_law c isBlk64) (bv_block c isBlk64).toBVBlockRead r4 (by rw [hl]; exact hu)
  have hG : HoldsGraph c k ⟨r, t'⟩ g := ⟨⟨by rw [e5]; exact r4, hr⟩, r3⟩
  have hs := hr.small
  rw [hl] at hs
  refine ⟨⟨r, t'⟩, ?_, hG, ?_, fun v hv => ⟨?_, fun i hi => ?_⟩⟩
  · rw [graphNew, show IV.new 64 k = .ok t from e1, Res.ok_bind, e2]
    show ((bvBitVecPush c 64).pushBit b true).bind _ = _
    rw [e3]
    show (Rank9.new c (bvBitVec c 64) b').bind _ = _
    rw [e4]
    rfl
  · have hln : t'.len = g.flatten.length := r3.len
    rw [Graph.nodes, e5, bv_bitLen c r4, Res.ok_bind, hl]
    show (subN c 64 _ t'.len).bind _ = _
    rw [hln, subN_ok (by omega)]
    show subN c 64 _ 1 = _
    rw [subN_ok (by omega)]
    congr 1
    omega
  · rw [Graph.degree, hG.start_ok (by omega), Res.ok_bind, hG.stop_ok hv, Res.ok_bind, subN_ok (by omega), Nat.add_sub_cancel_left]
  · obtain ⟨x, h2, h3⟩ := hG.target_ok hv hi
    have := (List.getElem?_eq_some_iff.1 (flatten_at hv hi)).1
    refine ⟨x, ?_, h3⟩
    rw [Graph.target, hG.start_ok (by omega), Res.ok_bind, addN_ok (by omega), Res.ok_bind, h2]

/-! ### What is reached -/

theorem seen_set {bs : List Bool} {x u : Nat} (hx : x < bs.length) : (bs.set x true)[u]? = some true ↔ u = x ∨ bs[u]? = some true := by
  rw [List.getElem?_set]
  by_cases e : x = u
  · subst e
    simp [hx]
  · simp [e, Ne.symm e]

theorem unseen_set {bs : List Bool} {x : Nat} (hx : x < bs.length) (h : bs[x] = false) : (bs.set x true).count false + 1 = bs.count false := by
  have hp : 0 < bs.count false := List.count_pos_iff.2 (h ▸ List.getElem_mem hx)
  rw [List.count_set hx, h]
  simp
  omega

/-- What one pass over the edges of a node keeps: `bs`, `st` before, `bs'`, `st'` after the first `m` edges of `ts`. -/
structure Looked (ts : List Nat) (m : Nat) (bs bs' : List Bool) (st st' : List Nat) : Prop where
  len : bs'.length = bs.length
  mono : ∀ u : Nat, bs[u]? = some true → bs'[u]? = some true
  new : ∀ u : Nat, bs'[u]? = some true → bs[u]? = some true ∨ (u ∈ st' ∧ u ∈ ts)
  keep : ∀ u ∈ st, u ∈ st'
  stack : ∀ u ∈ st', u ∈ st ∨ bs'[u]? = some true
  done : ∀ j (hj : j < ts.length), j < m → bs'[ts[j]]? = some true
  sum : st'.length + bs'.count false = st.length + bs.count false
  less : bs'.count false ≤ bs.count false

theorem HoldsGraph.look_ok (h : HoldsGraph c k G g) {n : Nat} (hf : Fits c.usz 64 (n * 64)) {v : Nat} (hv : v < g.length)
    (hx : ∀ x ∈ g[v], x < n) {m : Nat} (hm : m < g[v].length) {bs bs' : List Bool} {st st' : List Nat} (hn : bs.length = n)
    (hsum : st.length + bs.count false ≤ n) (hl : Looked g[v] m bs bs' st st') {seen : VB 64} {stack : IV 64} (hb : bvR c 64 seen bs')
    (ht : IR c 64 64 stack st') :
    ∃ seen' stack' bs'' st'', G.look c ((g.take v).flatten.length + m) (seen, stack) = .ok (seen', stack') ∧ bvR c 64 seen' bs'' ∧
      IR c 64 64 stack' st'' ∧ Looked g[v] (m + 1) bs bs'' st st'' := by
  obtain ⟨x, e1, hxe⟩ := h.target_ok hv hm
  have hxn : x.toNat < bs'.length := by rw [hl.len, hn, hxe]; exact hx _ (List.getElem_mem hm)
  have e2 : (bvBitVec c 64).getBit seen x.toNat = .ok bs'[x.toNat] := by
    rw [(bv_law c isBlk64).getBit hb x.toNat x.isLt]
    simp [hxn]
  rw [Graph.look, e1, Res.ok_bind]
  show ∃ seen' stack' bs'' st'', ((bvBitVec c 64).getBit seen x.toNat).bind _ = _ ∧ _
  rw [e2]
  show ∃ seen' stack' bs'' st'', (if bs'[x.toNat] = true then _ else _) = _ ∧ _
  by_cases hbit : bs'[x.toNat] = true
  · rw [if_pos hbit]
    refine ⟨seen, stack, bs', st', rfl, hb, ht, hl.len, hl.mono, hl.new, hl.keep, hl.stack, fun j hj hjm => ?_, hl.sum, hl.less⟩
    rcases Nat.lt_or_eq_of_le (Nat.le_of_lt_succ hjm) with h1 | rfl
    · exact hl.done j hj h1
    · rw [← hxe, List.getElem?_eq_getElem hxn, hbit]
  · rw [if_neg hbit]
    have hbit : bs'[x.toNat] = false := by simpa using hbit
    obtain ⟨seen', e3, r1⟩ := (bv_mut_law c isBlk64).setBit hb x.toNat true hxn
    have hu := unseen_set hxn hbit
    have hsu := hl.sum
    obtain ⟨stack', e4, r2⟩ := ht.push_ok isBlk64 x (hf.mono (by rw [← Nat.succ_mul]; exact Nat.mul_le_mul_right _ (by omega))) x.isLt
    refine ⟨seen', stack', _, _, ?_, r1, r2, by rw [List.length_set, hl.len], fun u hu => (seen_set hxn).2 (.inr (hl.mono u hu)), fun u hu => ?_,
      fun u hu => List.mem_append_left _ (hl.keep u hu), fun u hu => ?_, fun j hj hjm => ?_, ?_, ?_⟩
    · show ((bvBitVecMut c 64).setBit seen x.toNat true).bind _ = _
      rw [e3]
      show (stack.push c x).bind _ = _
      rw [e4]
      rfl
    · rcases (seen_set hxn).1 hu with rfl | hu
      · exact .inr ⟨by simp, hxe ▸ List.getElem_mem hm⟩
      · rcases hl.new u hu with h1 | ⟨h1, h2⟩
        · exact .inl h1
        · exact .inr ⟨List.mem_append_left _ h1, h2⟩
    · rcases List.mem_append.1 hu with hu | hu
      · rcases hl.stack u hu with h1 | h1
        · exact .inl h1
        · exact .inr ((seen_set hxn).2 (.inr h1))
      · exact .inr ((seen_set hxn).2 (.inl (by simpa using hu)))
    · rw [seen_set hxn]
      rcases Nat.lt_or_eq_of_le (Nat.le_of_lt_succ hjm) with h1 | rfl
      · exact .inr (hl.done j hj h1)
      · exact .inl hxe.symm
    · rw [List.length_append, List.length_singleton]
      omega
    · have := hl.less
      omega

/-- Between two nodes: those on the stack and all seen are reached, those seen but not on the stack have all targets seen. -/
structure Searching (g : List (List Nat)) (s : Nat) (bs : List Bool) (st : List Nat) : Prop where
  len : bs.length = g.length
  stack : ∀ u ∈ st, bs[u]? = some true
  reached : ∀ u : Nat, bs[u]? = some true → Reaches g s u
  closed : ∀ (u : Nat) ts, bs[u]? = some true → g[u]? = some ts → u ∈ st ∨ ∀ x ∈ ts, bs[x]? = some true
  source : bs[s]? = some true
  sum : st.length + bs.count false ≤ g.length

theorem Searching.all {s : Nat} {bs : List Bool} (h : Searching g s bs []) (u : Nat) : bs[u]? = some true ↔ Reaches g s u := by
  refine ⟨h.reached u, fun hr => ?_⟩
  induction hr with
  | here => exact h.source
  | edge _ h1 h2 ih =>
    rcases h.closed _ _ ih h1 with h3 | h3
    · simp at h3
    · exact h3 _ h2

theorem Searching.step {s v : Nat} {bs bs' : List Bool} {st st' : List Nat} (h : Searching g s bs (st ++ [v])) (hv : v < g.length)
    (hl : Looked g[v] g[v].length bs bs' st st') : Searching g s bs' st' where
  len := hl.len.trans h.len
  stack u hu := by
    rcases hl.stack u hu with h1 | h1
    · exact hl.mono u (h.stack u (List.mem_append_left _ h1))
    · exact h1
  reached u hu := by
    rcases hl.new u hu with h1 | ⟨-, h1⟩
    · exact h.reached u h1
    · exact .edge (h.reached v (h.stack v (by simp))) (List.getElem?_eq_getElem hv) h1
  closed u ts hu ht := by
    rcases hl.new u hu with h1 | ⟨h1, -⟩
    · by_cases e : u = v
      · subst e
        rw [List.getElem?_eq_getElem hv, Option.some_inj] at ht
        subst ht
        refine .inr fun x hx => ?_
        obtain ⟨j, hj, rfl⟩ := List.getElem_of_mem hx
        exact hl.done j hj hj
      · rcases h.closed u ts h1 ht with h2 | h2
        · rcases List.mem_append.1 h2 with h2 | h2
          · exact .inl (hl.keep u h2)
          · exact absurd (by simpa using h2) e
        · exact .inr fun x hx => hl.mono x (h2 x hx)
    · exact .inl h1
  source := hl.mono s h.source
  sum := by
    have h1 := h.sum
    have h2 := hl.sum
    rw [List.length_append, List.length_singleton] at h1
    omega

theorem HoldsGraph.visit_ok (h : HoldsGraph c k G g) (hx : ∀ ts ∈ g, ∀ x ∈ ts, x < g.length) (hf : Fits c.usz 64 (g.length * 64)) {s : Nat}
    {bs : List Bool} {st : List Nat} {seen : VB 64} {stack : IV 64} (hb : bvR c 64 seen bs) (ht : IR c 64 64 stack st)
    (hS : Searching g s bs st) : ∃ seen' bs', G.visit c seen stack = .ok seen' ∧ bvR c 64 seen' bs' ∧ Searching g s bs' [] := by
  generalize hn : 2 * bs.count false + st.length = n
  induction n using Nat.strongRecOn generalizing bs st seen stack with
  | ind n ih =>
    obtain ⟨o, stack1, e1, h1, r1⟩ := ht.pop_eq isBlk64
    rw [Graph.visit, e1, Res.ok_bind]
    rcases List.eq_nil_or_concat st with rfl | ⟨st, v, rfl⟩
    · have : o = none := by
        cases o with
        | none => rfl
        | some o => simp at h1
      subst this
      exact ⟨seen, bs, rfl, hb, hS⟩
    · rw [List.concat_eq_append] at *
      obtain ⟨o, rfl, rfl⟩ : ∃ x, o = some x ∧ x.toNat = v := by
        cases o with
        | none => simp at h1
        | some o => exact ⟨o, rfl, by simpa using h1⟩
      rw [List.dropLast_concat] at r1
      have hvs := hS.stack o.toNat (by simp)
      have hv : o.toNat < g.length := hS.len ▸ (List.getElem?_eq_some_iff.1 hvs).1
      have hsum := hS.sum
      rw [List.length_append, List.length_singleton] at hsum hn
      obtain ⟨⟨seen2, stack2⟩, e2, bs2, st2, r2, r3, r4⟩ := forRange_inv (lo := (g.take o.toNat).flatten.length)
        (hi := (g.take o.toNat).flatten.length + g[o.toNat].length) (s := (seen, stack1)) (f := G.look c)
        (fun i p => ∃ bs' st', bvR c 64 p.1 bs' ∧ IR c 64 64 p.2 st' ∧ Looked g[o.toNat] (i - (g.take o.toNat).flatten.length) bs bs' st st')
        (by omega) ⟨bs, st, hb, r1, rfl, fun _ h => h, fun _ h => .inl h, fun _ h => h, fun _ h => .inl h, fun _ _ h => by omega, rfl, Nat.le_refl _⟩ (by
          rintro i ⟨sn, sk⟩ hi hi' ⟨bs', st', q1, q2, q3⟩
          obtain ⟨sn', sk', bs'', st'', q4, q5, q6, q7⟩ := h.look_ok hf hv (hx _ (List.getElem_mem hv))
            (m := i - (g.take o.toNat).flatten.length) (by omega) hS.len (by omega) q3 q1 q2
          rw [show (g.take o.toNat).flatten.length + (i - (g.take o.toNat).flatten.length) = i by omega] at q4
          refine ⟨(sn', sk'), q4, bs'', st'', q5, q6, ?_⟩
          rw [show i + 1 - (g.take o.toNat).flatten.length = i - (g.take o.toNat).flatten.length + 1 by omega]
          exact q7)
      rw [Nat.add_sub_cancel_left] at r4
      have hm1 := r4.sum
      have hm2 := r4.less
      obtain ⟨seen', bs', e3, t1, t2⟩ := ih (2 * bs2.count false + st2.length) (by omega) r2 r3 (hS.step hv r4) rfl
      refine ⟨seen', bs', ?_, t1, t2⟩
      show (G.start c o.toNat).bind _ = _
      rw [h.start_ok (by omega)]
      show (G.stop c o.toNat).bind _ = _
      rw [h.stop_ok hv]
      show (forRange _ _ (seen, stack1) (G.look c)).bind _ = _
      rw [e2]
      exact e3

open Classical in
/-- C176: the search marks exactly the nodes that are reached. -/
theorem C176_reach (h : HoldsGraph c k G g) (hn : G.nodes c = .ok g.length) (hx : ∀ ts ∈ g, ∀ x ∈ ts, x < g.length)
    (hf : Fits c.usz 64 (g.length * 64)) {s : Nat} (hs : s < g.length) :
    ∃ seen, G.reach c s = .ok seen ∧ BvReach c 64 seen ((List.range g.length).map fun u => decide (Reaches g s u)) := by
  have hsm := h.bits.rank.small
  rw [List.length_append, degreeBits_length] at hsm
  obtain ⟨v0, e1, r1⟩ := (C17_fill c isBlk64).1 g.length false (hf.mono (by omega))
  obtain ⟨v1, e2, r2⟩ := (bv_mut_law c isBlk64).setBit (r1.rep isBlk64) s true (by simpa using hs)
  obtain ⟨t0, e3, r3⟩ := ivInit_ok c isBlk64 (k := 64) (by omega) (Nat.le_refl _) .new trivial
  obtain ⟨t1, e4, r4⟩ := r3.push_ok isBlk64 (BitVec.ofNat 64 s) (hf.mono (by simp [IvInit.elems]; omega)) (BitVec.isLt _)
  have es : (BitVec.ofNat 64 s).toNat = s := by rw [BitVec.toNat_ofNat, Nat.mod_eq_of_lt (by omega)]
  rw [es] at r4
  have r4 : IR c 64 64 t1 [s] := r4
  have hsr : s < (List.replicate g.length false).length := by simpa using hs
  have h0 : ∀ u, ((List.replicate g.length false).set s true)[u]? = some true ↔ u = s := fun u => by
    rw [seen_set hsr]
    simp [List.getElem?_replicate]
  obtain ⟨seen, bs, e5, r5, r6⟩ := h.visit_ok hx hf (s := s) r2 r4 ⟨by simp, fun u hu => (h0 u).2 (by simpa using hu),
    fun u hu => (h0 u).1 hu ▸ .here, fun u ts hu _ => .inl (by simp [(h0 u).1 hu]), (h0 s).2 rfl, by
      have := unseen_set hsr (by simp)
      rw [List.count_replicate_self] at this
      simp only [List.length_singleton]
      omega⟩
  have eb : bs = (List.range g.length).map fun u => decide (Reaches g s u) := by
    apply List.ext_getElem
    · rw [r6.len]; simp
    · intro u hu _
      rw [List.getElem_map, List.getElem_range, Bool.eq_iff_iff, decide_eq_true_iff, ← r6.all u, List.getElem?_eq_getElem hu, Option.some_inj]
  refine ⟨seen, ?_, eb ▸ bvR.reach isBlk64 r5⟩
  rw [Graph.reach, hn, Res.ok_bind, e1, Res.ok_bind, e2, Res.ok_bind, show IV.new 64 64 = .ok t0 from e3, Res.ok_bind, e4, Res.ok_bind, e5]

end

/-! Each theorem of this file that has hypotheses is applied to concrete data in `Verif/Instances/Graph.lean`. -/

end Succinct
