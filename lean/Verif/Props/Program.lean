import Verif.Spec.Program
import Verif.Props.CodeOutcome
import Verif.Props.RandomAccess
import Verif.Props.Packed
import Verif.Props.Rank
import Verif.Props.Select
import Verif.Props.Derived
import Verif.Props.Iter
import Verif.Props.Reach
import Verif.Lemmas.View
/-! Property C117: programs that use many objects at once behave as if the objects were lists. -/
namespace Succinct
open Spec

/-- an object of the crate -/
inductive Obj where
  | bits (w : Nat) (s : VB w)
  | ints (w : Nat) (s : IV w)
  | buf (w : Nat) (s : BitBuf (VB w))
  | rank9 (s : BinSearchSelect (Rank9 (VB 64)))
  | jacobson (w : Nat) (s : BinSearchSelect (Jacobson (VB w)))
  /-- an object that was given away and lost -/
  | gone

/-- The same command carried out by the crate; a number without an object, or with one of another type, counts as a panic.
`rank` and `select` are the methods of `BinSearchSelect` over the rank structure. -/
def cmdRun (c : Cfg) (st : List Obj) : Cmd → Res (Out × List Obj)
  | .newBits w i => do
    let s ← bvInit c i
    .ok (.unit, st ++ [.bits w s])
  | .newInts w k i => do
    let s ← ivInit c k i
    .ok (.unit, st ++ [.ints w s])
  | .clone i =>
    match st[i]? with
    | none | some .gone => .panic
    | some o => .ok (.unit, st ++ [o])
  | .onBits i op =>
    match st[i]? with
    | some (.bits w s) => do
      let r ← bvStep c s (op w)
      .ok (.bits w r.1, st.set i (.bits w r.2))
    | _ => .panic
  | .onInts i op =>
    match st[i]? with
    | some (.ints w s) => do
      let r ← ivStep c s (op w)
      .ok (.ints r.1, st.set i (.ints w r.2))
    | _ => .panic
  | .onBuf i op =>
    match st[i]? with
    | some (.buf w s) => do
      let r ← bufStep c (bvBitVecPush c w) s op
      .ok (.buf r.1, st.set i (.buf w r.2))
    | _ => .panic
  | .toBuf i e =>
    match st[i]? with
    | some (.bits w s) => do
      let b ← if e then BitBuf.append (bvBitVec c w) s else .ok (BitBuf.from_ s)
      .ok (.unit, st.set i (.buf w b))
    | _ => .panic
  | .toRank9 i =>
    match st[i]? with
    | some (.bits 64 s) => do
      let r ← Rank9.new c (bvBitVec c 64) s
      .ok (.unit, st.set i (.rank9 (.new r)))
    | _ => .panic
  | .toJacobson i =>
    match st[i]? with
    | some (.bits w s) => do
      let r ← Jacobson.new c (bvBitVec c w) s
      .ok (.unit, st.set i (.jacobson w (.new r)))
    | _ => .panic
  | .intoInner i =>
    match st[i]? with
    | some (.buf w b) => .ok (.unit, st.set i (.bits w b.inner))
    | some (.rank9 r) => .ok (.unit, st.set i (.bits 64 r.inner.inner))
    | some (.jacobson w r) => .ok (.unit, st.set i (.bits w r.inner.inner))
    | _ => .panic
  | .rank i p b =>
    match st[i]? with
    | some (.rank9 r) => do
      let n ← (BinSearchSelect.rankOps (Rank9.ops c (bvBitVec c 64))).rank r p b
      .ok (.num n, st)
    | some (.jacobson w r) => do
      let n ← (BinSearchSelect.rankOps (Jacobson.ops c (bvBitVec c w))).rank r p b
      .ok (.num n, st)
    | _ => .panic
  | .select i k b =>
    match st[i]? with
    | some (.rank9 r) => do
      let n ← BinSearchSelect.select c (Rank9.ops c (bvBitVec c 64)) r k b
      .ok (.optNum n, st)
    | some (.jacobson w r) => do
      let n ← BinSearchSelect.select c (Jacobson.ops c (bvBitVec c w)) r k b
      .ok (.optNum n, st)
    | _ => .panic
  | .encode i k v =>
    match st[i]? with
    | some (.buf w s) => do
      let r ← (CodeName.code c k).encode (BitBuf.write c (bvBitVecPush c w)) v s
      .ok (match r.1 with | .ok () => .unit | .error e => .err e, st.set i (.buf w r.2))
    | _ => .panic
  | .decode i k =>
    match st[i]? with
    | some (.buf w s) => do
      let r ← (CodeName.code c k).decode (BitBuf.read c (bvBitVec c w)) s
      .ok (match r.1 with | .ok o => .optNum o | .error e => .err e, st.set i (.buf w r.2))
    | _ => .panic
  | .eq i j =>
    match st[i]?, st[j]? with
    | some (.bits w s), some (.bits w' t) => if h : w = w' then .ok (.flag (decide (h ▸ s = t)), st) else .panic
    | some (.ints w s), some (.ints w' t) => if h : w = w' then .ok (.flag (decide (h ▸ s = t)), st) else .panic
    | _, _ => .panic
  | .cmp i j =>
    match st[i]?, st[j]? with
    | some (.bits w s), some (.bits w' t) => if h : w = w' then .ok (.order (VB.cmp (h ▸ s) t), st) else .panic
    | some (.ints w s), some (.ints w' t) => if h : w = w' then .ok (.order (IV.cmp (h ▸ s) t), st) else .panic
    | _, _ => .panic
  | .fmt i =>
    match st[i]? with
    | some (.bits _ s) => do
      let t ← BV.fmtBinary c s
      .ok (.text t, st)
    | some (.ints _ s) => do
      let t ← IV.fmtDebug c s
      .ok (.text t, st)
    | _ => .panic
  | .iter i ops =>
    match st[i]? with
    | some (.bits _ s) => do
      let r ← itRun c (BV.iter s) ops
      .ok (.items (r.1.map (Option.map fun x => (bitItem x).toNat)), st)
    | some (.ints _ s) => do
      let r ← itRun c s.iter ops
      .ok (.items (r.1.map (Option.map BitVec.toNat)), st)
    | _ => .panic
  | .view i rs op =>
    match st[i]? with
    | some (.bits w s) => do
      let r ← readThrough c (bvBitVec c w) s rs op
      .ok (.bits w r, st)
    | some (.ints w s) => do
      let r ← readThrough c (ivBitVec c w) s rs op
      .ok (.bits w r, st)
    | some (.buf w s) => do
      let r ← readThrough c (BitBuf.bitVec c (bvBitVec c w)) s rs op
      .ok (.bits w r, st)
    | some (.rank9 s) => do
      let r ← readThrough c (BinSearchSelect.bitVec (Rank9.bitVec (bvBitVec c 64))) s rs op
      .ok (.bits 64 r, st)
    | some (.jacobson w s) => do
      let r ← readThrough c (BinSearchSelect.bitVec (Jacobson.bitVec (bvBitVec c w))) s rs op
      .ok (.bits w r, st)
    | _ => .panic
  | .edit i rs op =>
    match st[i]? with
    | some (.bits w s) => do
      let s ← writeThrough c (bvBitVecMut c w) s rs (op w)
      .ok (.unit, st.set i (.bits w s))
    | some (.ints w s) => do
      let s ← writeThrough c (ivBitVecMut c w) s rs (op w)
      .ok (.unit, st.set i (.ints w s))
    | some (.buf w s) => do
      let s ← writeThrough c (BitBuf.bitVecMut c (bvBitVecMut c w)) s rs (op w)
      .ok (.unit, st.set i (.buf w s))
    | _ => .panic
  | .readInt i W n be =>
    match st[i]? with
    | some (.buf w s) => do
      let r ← (if be then Succinct.readIntBe c (BitBuf.read c (bvBitVec c w)) W n
        else Succinct.readInt c (BitBuf.read c (bvBitVec c w)) W n) s
      .ok (match r.1 with | .ok o => .optNum (o.map BitVec.toNat) | .error e => .err e, st.set i (.buf w r.2))
    | _ => .panic
  | .writeInt i n sg be _ x =>
    match st[i]? with
    | some (.buf w s) => do
      let r ← (if be then Succinct.writeIntBe c sg (BitBuf.write c (bvBitVecPush c w)) n x
        else Succinct.writeInt c sg (BitBuf.write c (bvBitVecPush c w)) n x) s
      .ok (match r.1 with | .ok () => .unit | .error e => .err e, st.set i (.buf w r.2))
    | _ => .panic

/-- A program; stops at the first panic. -/
def progRun (c : Cfg) (st : List Obj) : List Cmd → Res (List Out × List Obj)
  | [] => .ok ([], st)
  | cmd :: cmds => do
    let (o, st) ← cmdRun c st cmd
    let (os, st) ← progRun c st cmds
    .ok (o :: os, st)

/-- an object holds these contents -/
inductive ObjR (c : Cfg) : Obj → SObj → Prop
  | bits : IsBlk w → bvR c w s l → ObjR c (.bits w s) (.bits w l)
  | ints : IsBlk w → IR c w k s xs → ObjR c (.ints w s) (.ints w k xs)
  | buf : IsBlk w → bufR (bvR c w) s f → ObjR c (.buf w s) (.file w f)
  | rank9 : bvR c 64 s.inner.inner l → RankLaw (Rank9.ops c (bvBitVec c 64)) s.inner l → ObjR c (.rank9 s) (.rank9 l)
  | jacobson : IsBlk w → bvR c w s.inner.inner l → RankLaw (Jacobson.ops c (bvBitVec c w)) s.inner l →
      ObjR c (.jacobson w s) (.jacobson w l)
  | gone : ObjR c .gone .gone

structure StR (c : Cfg) (st : List Obj) (sp : List SObj) : Prop where
  length : st.length = sp.length
  obj : ∀ (i : Nat) o so, st[i]? = some o → sp[i]? = some so → ObjR c o so

theorem StR.push (h : StR c st sp) (ho : ObjR c o so) : StR c (st ++ [o]) (sp ++ [so]) := by
  refine ⟨by simp [h.length], fun i x y hx hy => ?_⟩
  rw [List.getElem?_append] at hx hy
  rw [h.length] at hx
  split at hx
  · next hl =>
    rw [if_pos hl] at hy
    exact h.obj i x y hx hy
  · next hl =>
    rw [if_neg hl] at hy
    generalize i - sp.length = m at hx hy
    cases m with
    | zero => cases hx; cases hy; exact ho
    | succ m => simp at hx

theorem StR.set (h : StR c st sp) (ho : ObjR c o so) (i : Nat) : StR c (st.set i o) (sp.set i so) := by
  refine ⟨by simp [h.length], fun j x y hx hy => ?_⟩
  rw [List.getElem?_set] at hx hy
  by_cases e : i = j
  · rw [if_pos e] at hx hy
    split at hx
    · split at hy
      · cases hx; cases hy; exact ho
      · cases hy
    · cases hx
  · rw [if_neg e] at hx hy
    exact h.obj j x y hx hy

/-- Both sides have an object there, or neither. -/
theorem StR.at (h : StR c st sp) (i : Nat) :
    (st[i]? = none ∧ sp[i]? = none) ∨ ∃ o so, st[i]? = some o ∧ sp[i]? = some so ∧ ObjR c o so := by
  rcases Nat.lt_or_ge i st.length with hl | hl
  · have hl' : i < sp.length := by rw [← h.length]; exact hl
    exact .inr ⟨_, _, List.getElem?_eq_getElem hl, List.getElem?_eq_getElem hl',
      h.obj i _ _ (List.getElem?_eq_getElem hl) (List.getElem?_eq_getElem hl')⟩
  · exact .inl ⟨List.getElem?_eq_none hl, List.getElem?_eq_none (by rw [← h.length]; exact hl)⟩

theorem refines_set {R : S → A → Prop} {m : Res (O × S)} {sp : Option (O × A)} (h : Refines R m sp) {st : List Obj} {ss : List SObj}
    (hst : StR c st ss) (i : Nat) (f : O → Out) {g : S → Obj} {g' : A → SObj} (hg : ∀ s a, R s a → ObjR c (g s) (g' a)) :
    Refines (StR c) (do let r ← m; Res.ok (f r.1, st.set i (g r.2))) (sp.map fun r => (f r.1, ss.set i (g' r.2))) := by
  cases sp with
  | none =>
    rw [show m = .panic from h]
    rfl
  | some r =>
    obtain ⟨s, h1, h2⟩ := h
    exact ⟨_, by rw [h1, Res.ok_bind], hst.set (hg _ _ h2) i⟩

/-! ### codes -/

theorem overwrite_step {l : List Bool} {p : Nat} (h : p ≤ l.length) (b : Bool) (x : List Bool) :
    overwrite (l.take p ++ b :: l.drop (p + 1)) (p + 1) x = overwrite l p (b :: x) := by
  obtain ⟨A, B, rfl, rfl⟩ : ∃ A B, l = A ++ B ∧ p = A.length :=
    ⟨l.take p, l.drop p, (List.take_append_drop p l).symm, by simp [h]⟩
  have e1 : (A ++ B).drop (A.length + 1) = B.drop 1 := by rw [← List.drop_drop, List.drop_left]
  have e2 : A ++ b :: B.drop 1 = (A ++ [b]) ++ B.drop 1 := by simp
  have e3 : A.length + 1 = (A ++ [b]).length := by simp
  rw [List.take_left, e1, e2, e3, overwrite, overwrite, List.take_left, List.take_left, ← List.drop_drop, List.drop_left,
    ← List.drop_drop, List.drop_left, List.drop_drop, List.length_cons, Nat.add_comm 1]
  simp

/-- Writing to a file at any position. -/
theorem buf_writeAll_file {o : BitVecPushOps w S} {Fit : Nat → Prop} (hv : PushVec c w o R Fit) (hm : ∀ {m n}, Fit n → m ≤ n → Fit m)
    (x : List Bool) {s : BitBuf S} {f : BitFile} (hs : bufR R s f) (hf : Fit (max f.bits.length (f.pos + x.length))) :
    ∃ s', writeAll (BitBuf.write c o) x s = .ok (.ok (), s') ∧ bufR R s' ⟨overwrite f.bits f.pos x, f.pos + x.length⟩ := by
  induction x generalizing s f with
  | nil =>
    refine ⟨s, rfl, ?_⟩
    rw [overwrite]
    simpa using hs
  | cons b x ih =>
    have hle := hs.2.2
    rw [List.length_cons] at hf
    obtain ⟨s1, h1, h2⟩ := buf_write hv hs b (fun he => hm hf (by omega))
    obtain ⟨s2, h3, h4⟩ := ih h2 (hm hf (by simp; omega))
    refine ⟨s2, ?_, ?_⟩
    · rw [writeAll, SM.bind_run_ok h1]
      exact h3
    · have e : overwrite (f.bits.take f.pos ++ b :: f.bits.drop (f.pos + 1)) (f.pos + 1) x = overwrite f.bits f.pos (b :: x) := by
        exact overwrite_step hle b x
      rw [e] at h4
      rw [List.length_cons, show f.pos + (x.length + 1) = f.pos + 1 + x.length by omega]
      exact h4

/-! ### select -/

theorem occ_lt (v : Bool) (l : List Bool) {p q : Nat} (h : p < q) (hp : l[p]? = some v) : occ v l p < occ v l q := by
  have hl : p < l.length := by
    rcases Nat.lt_or_ge p l.length with h | h
    · exact h
    · rw [List.getElem?_eq_none h] at hp; cases hp
  have e : l.take q = l.take p ++ (l.drop p).take (q - p) := by
    rw [← List.take_add, Nat.add_sub_cancel' (by omega)]
  have hv : l[p] = v := Option.some.inj ((List.getElem?_eq_getElem hl).symm.trans hp)
  rw [occ, occ, e, List.count_append, List.drop_eq_getElem_cons hl, show q - p = (q - p - 1) + 1 by omega, List.take_succ_cons,
    hv, List.count_cons_self]
  omega

theorem selectPos_eq {v : Bool} {l : List Bool} {k : Nat} {x : Option Nat} (h : IsSelect v l k x) : selectPos v l k = x := by
  unfold selectPos
  cases x with
  | some p =>
    obtain ⟨h1, h2⟩ := h
    have hl : p < l.length := by
      rcases Nat.lt_or_ge p l.length with h | h
      · exact h
      · rw [List.getElem?_eq_none h] at h1; cases h1
    rw [List.find?_range_eq_some]
    refine ⟨by simp [h1, h2], List.mem_range.2 hl, fun j hj => ?_⟩
    simp only [Bool.not_eq_eq_eq_not, Bool.not_true, Bool.and_eq_false_imp, beq_iff_eq, beq_eq_false_iff_ne]
    intro hv
    have := occ_lt v l hj hv
    omega
  | none =>
    rw [List.find?_eq_none]
    intro p hp
    simp only [Bool.and_eq_true, beq_iff_eq, not_and]
    intro hv
    have h1 := occ_lt v l (List.mem_range.1 hp) hv
    have h2 : occ v l l.length = l.count v := by rw [occ, List.take_length]
    have h3 : l.count v ≤ k := h
    omega

/-! ### the theorem -/

theorem StR.keep (h : StR c st sp) {i : Nat} (hi : sp[i]? = some so) (ho : ObjR c o so) : StR c (st.set i o) sp := by
  have e : sp.set i so = sp := by
    apply List.ext_getElem?
    intro j
    rw [List.getElem?_set]
    by_cases e : i = j
    · subst e
      have hl : i < sp.length := by
        rcases Nat.lt_or_ge i sp.length with h | h
        · exact h
        · rw [List.getElem?_eq_none h] at hi; cases hi
      rw [if_pos rfl, if_pos hl, hi]
    · rw [if_neg e]
  have := h.set ho i
  rwa [e] at this

/-- A buffer is a lawful source, and reading does not change its bits. -/
theorem bv_buf_source (c : Cfg) (hw : IsBlk w) (bits : List Bool) : LawfulSource (BitBuf.read c (bvBitVec c w))
    (fun b l => ∃ q, bufR (bvR c w) b ⟨bits, q⟩ ∧ l = bits.drop q) where
  some := by
    rintro b x l ⟨q, ⟨hR, hp, hle⟩, hx⟩
    have hlt : q < bits.length := by
      rcases Nat.lt_or_ge q bits.length with h | h
      · exact h
      · rw [List.drop_eq_nil_of_le h] at hx; cases hx
    rw [List.drop_eq_getElem_cons hlt] at hx
    injection hx with e1 e2
    simp only at hp hR hle
    refine ⟨{ b with pos := b.pos + 1 }, ?_, q + 1, ⟨hR, by simp only [hp], hlt⟩, e2⟩
    rw [buf_read_some hw (bv_law c hw) (bv_block c hw) hR (by omega)]
    simp only [hp, e1]
  none := by
    rintro b ⟨q, ⟨hR, hp, hle⟩, hx⟩
    have hge : bits.length ≤ q := List.drop_eq_nil_iff.1 hx.symm
    simp only at hp hR hle
    exact ⟨b, buf_read_none (bv_law c hw) hR (by omega), q, ⟨hR, hp, hle⟩, hx⟩

theorem bufR_rest {R : S → List Bool → Prop} {b : BitBuf S} {bits rest : List Bool}
    (h : ∃ q, bufR R b ⟨bits, q⟩ ∧ rest = bits.drop q) : bufR R b ⟨bits, bits.length - rest.length⟩ := by
  obtain ⟨q, ⟨h1, h2, h3⟩, rfl⟩ := h
  simp only at h2 h3
  exact ⟨h1, by show b.pos = bits.length - _; rw [List.length_drop]; omega, Nat.sub_le _ _⟩

theorem rank9_ok (c : Cfg) {s : VB 64} (hR : bvR c 64 s l) (hm : InMemory c.usz l.length) :
    ∃ r, Rank9.new c (bvBitVec c 64) s = .ok r ∧ ObjR c (.rank9 (.new r)) (.rank9 l) := by
  obtain ⟨r, h1, h2⟩ := C39_bit_vector c hR (by
    unfold InMemory at hm
    unfold blocksFor
    rcases c with ⟨_, _ | _, _⟩ <;> simp [Cfg.usz] at hm ⊢ <;> omega)
  have e := C42_rank9_inner c _ h1
  exact ⟨r, h1, .rank9 (by show bvR c 64 r.inner l; rw [e]; exact hR) h2⟩

theorem jacobson_ok (c : Cfg) (hw : IsBlk w) {s : VB w} (hR : bvR c w s l) (hm : InMemory c.usz l.length) (h2 : 2 ≤ l.length) :
    ∃ r, Jacobson.new c (bvBitVec c w) s = .ok r ∧ ObjR c (.jacobson w (.new r)) (.jacobson w l) := by
  obtain ⟨r, h1, h2⟩ := C37_bit_vector c hw hR hm h2
  have e := C42_jacobson_inner c _ h1
  exact ⟨r, h1, .jacobson hw (by show bvR c w r.inner l; rw [e]; exact hR) h2⟩

theorem ints_eq (hR : IR c w k s xs) (hR' : IR c w k' s' xs') : s = s' ↔ k = k' ∧ xs = xs' := by
  constructor
  · rintro rfl
    obtain rfl : k = k' := hR.eb.symm.trans hR'.eb
    exact ⟨rfl, packBits_inj k hR.pos _ _ hR.lt hR'.lt (hR.rep.bits_of_eq hR'.rep)⟩
  · rintro ⟨rfl, rfl⟩
    have h1 := hR.rep.eq_of_bits hR.pos hR'.rep
    have h2 := hR.eb.trans hR'.eb.symm
    cases s; cases s'; simp_all

theorem compareLex_map [Ord α] [Ord β] (f : α → β) (hf : ∀ a b, compare (f a) (f b) = compare a b) (l l' : List α) :
    List.compareLex compare (l.map f) (l'.map f) = List.compareLex compare l l' := by
  induction l generalizing l' with
  | nil => cases l' <;> rfl
  | cons a l ih =>
    cases l' with
    | nil => rfl
    | cons b l' => rw [List.map_cons, List.map_cons, List.compareLex, List.compareLex, hf, ih]

theorem compare_toNat (a b : BitVec w) : compare a.toNat b.toNat = compare a b := by
  show compareOfLessAndEq _ _ = compareOfLessAndEq _ _
  simp only [compareOfLessAndEq, BitVec.lt_def, BitVec.toNat_inj]

theorem VR.vec_vals (h : IsBlk w) (hR : VR c w eb s bits) : s.vec.map BitVec.toNat = blockVals w bits := by
  rw [hR.vec_eq h, List.map_map, blockVals]
  apply List.map_congr_left
  intro i _
  show (BitVec.ofNat w _).toNat = _
  rw [BitVec.toNat_ofNat, Nat.mod_eq_of_lt]
  exact Nat.lt_of_lt_of_le (bitsVal_lt _) (Nat.pow_le_pow_right (by omega) (List.length_take_le _ _))

theorem VR.cmp_vec (h : IsBlk w) (hR : VR c w eb s bits) (hR' : VR c w eb' s' bits') :
    List.compareLex compare s.vec s'.vec = List.compareLex compare (blockVals w bits) (blockVals w bits') := by
  rw [← hR.vec_vals h, ← hR'.vec_vals h, compareLex_map _ compare_toNat]

theorem bits_cmp (h : IsBlk w) (hR : bvR c w s l) (hR' : bvR c w s' l') : VB.cmp s s' = bitsOrder w l l' := by
  have h1 := hR.len
  have h2 := hR'.len
  rw [Nat.mul_one] at h1 h2
  rw [VB.cmp, hR.cmp_vec h hR', h1, h2, bitsOrder]

theorem ints_cmp (h : IsBlk w) (hR : IR c w k s xs) (hR' : IR c w k' s' ys) :
    IV.cmp s s' = (compare k k').then ((compare xs.length ys.length).then
      (List.compareLex compare (blockVals w (packBits k xs)) (blockVals w (packBits k' ys)))) := by
  rw [IV.cmp, VB.cmp, hR.rep.cmp_vec h hR'.rep, hR.len, hR'.len, hR.eb, hR'.eb]

theorem view_law (c : Cfg) {o : Obj} {so : SObj} (ho : ObjR c o so) (hg : so ≠ .gone) {st : List Obj} {i : Nat} (rs : List Rng) (op : RdOp)
    (h1 : st[i]? = some o) (h2 : cutOk so.list.length rs) (h3 : op.Ok so.width) : cmdRun c st (.view i rs op) =
      expectR ((readSpec so.width so.list rs op).map fun r => (.bits so.width r, st)) := by
  have fin : ∀ {w : Nat} {S : Type} {o : BitVecOps w S} {R : S → List Bool → Prop} {d : S} {l : List Bool}, IsBlk w → BVLaw c o R →
      R d l → cutOk l.length rs → op.Ok w → (do let r ← readThrough c o d rs op; Res.ok (Out.bits w r, st)) =
        expectR ((readSpec w l rs op).map fun r => (Out.bits w r, st)) := by
    intro w S o R d l hw hl hR h2 h3
    rw [readThrough_eq hw hl hR rs op h2 h3]
    cases readSpec w l rs op <;> rfl
  cases ho with
  | bits hw hR => simp only [cmdRun, h1]; exact fin hw (bv_law c hw) hR h2 h3
  | ints hw hR => simp only [cmdRun, h1]; exact fin hw (iv_law c hw) hR.ivR h2 h3
  | buf hw hR => simp only [cmdRun, h1]; exact fin hw (buf_law c hw (bv_law c hw) (bv_block c hw)) hR.1 h2 h3
  | rank9 hR _ =>
    simp only [cmdRun, h1]
    exact fin isBlk64 ((C42_bin_search_select _).1.law ((C42_rank9 _).law (bv_law c isBlk64))) hR h2 h3
  | jacobson hw hR _ =>
    simp only [cmdRun, h1]
    exact fin hw ((C42_bin_search_select _).1.law ((C42_jacobson _).law (bv_law c hw))) hR h2 h3
  | gone => exact absurd rfl hg

theorem cmd_refines (c : Cfg) {st : List Obj} {ss : List SObj} (hst : StR c st ss) (cmd : Cmd) (hok : cmd.Ok c ss) :
    Refines (StR c) (cmdRun c st cmd) (cmdSpec c ss cmd) := by
  cases cmd with
  | newBits w i =>
    obtain ⟨s, h1, h2⟩ := bvInit_ok c hok.1 i hok.2
    exact ⟨_, by simp only [cmdRun, h1, Res.ok_bind], hst.push (.bits hok.1 h2)⟩
  | newInts w k i =>
    obtain ⟨hw, hk, hkw, hi⟩ := hok
    obtain ⟨s, h1, h2⟩ := ivInit_ok c hw hk hkw i hi
    exact ⟨_, by simp only [cmdRun, h1, Res.ok_bind], hst.push (.ints hw h2)⟩
  | clone i =>
    rcases hst.at i with ⟨h1, h2⟩ | ⟨o, so, h1, h2, ho⟩
    · simp only [cmdRun, cmdSpec, h1, h2]; rfl
    · cases ho with
      | gone => simp only [cmdRun, cmdSpec, h1, h2]; rfl
      | bits hw hR => simp only [cmdRun, cmdSpec, h1, h2]; exact ⟨_, rfl, hst.push (.bits hw hR)⟩
      | ints hw hR => simp only [cmdRun, cmdSpec, h1, h2]; exact ⟨_, rfl, hst.push (.ints hw hR)⟩
      | buf hw hR => simp only [cmdRun, cmdSpec, h1, h2]; exact ⟨_, rfl, hst.push (.buf hw hR)⟩
      | rank9 hR hr => simp only [cmdRun, cmdSpec, h1, h2]; exact ⟨_, rfl, hst.push (.rank9 hR hr)⟩
      | jacobson hw hR hr => simp only [cmdRun, cmdSpec, h1, h2]; exact ⟨_, rfl, hst.push (.jacobson hw hR hr)⟩
  | onBits i op =>
    rcases hst.at i with ⟨h1, h2⟩ | ⟨o, so, h1, h2, ho⟩
    · simp only [cmdRun, cmdSpec, h1, h2]; rfl
    cases ho with
    | bits hw hR =>
      simp only [cmdRun, cmdSpec, h1, h2]
      exact refines_set (bvStep_refines c hw hR (op _) (hok _ _ h2)) hst i (.bits _) fun s a h => .bits hw h
    | _ => simp only [cmdRun, cmdSpec, h1, h2]; rfl
  | onInts i op =>
    rcases hst.at i with ⟨h1, h2⟩ | ⟨o, so, h1, h2, ho⟩
    · simp only [cmdRun, cmdSpec, h1, h2]; rfl
    cases ho with
    | ints hw hR =>
      simp only [cmdRun, cmdSpec, h1, h2]
      exact refines_set (ivStep_refines c hw hR (op _) (hok _ _ _ h2)) hst i .ints fun s a h => .ints hw h
    | _ => simp only [cmdRun, cmdSpec, h1, h2]; rfl
  | onBuf i op =>
    rcases hst.at i with ⟨h1, h2⟩ | ⟨o, so, h1, h2, ho⟩
    · simp only [cmdRun, cmdSpec, h1, h2]; rfl
    cases ho with
    | buf hw hR =>
      simp only [cmdRun, cmdSpec, h1, h2]
      exact refines_set (bufStep_refines (bv_pushVec c hw) hR op (hok _ _ h2)) hst i .buf fun s a h => .buf hw h
    | _ => simp only [cmdRun, cmdSpec, h1, h2]; rfl
  | toBuf i e =>
    rcases hst.at i with ⟨h1, h2⟩ | ⟨o, so, h1, h2, ho⟩
    · simp only [cmdRun, cmdSpec, h1, h2]; rfl
    cases ho with
    | @bits w s l hw hR =>
      simp only [cmdRun, cmdSpec, h1, h2]
      cases e with
      | false => exact ⟨_, rfl, hst.set (.buf hw ⟨hR, rfl, Nat.zero_le _⟩) i⟩
      | true =>
        have h3 : BitBuf.append (bvBitVec c w) s = .ok ⟨s, l.length⟩ := by rw [BitBuf.append, (bv_law c hw).bitLen hR]; rfl
        simp only [if_true, h3, Res.ok_bind]
        exact ⟨_, rfl, hst.set (.buf hw ⟨hR, rfl, Nat.le_refl _⟩) i⟩
    | _ => simp only [cmdRun, cmdSpec, h1, h2]; rfl
  | toRank9 i =>
    rcases hst.at i with ⟨h1, h2⟩ | ⟨o, so, h1, h2, ho⟩
    · simp only [cmdRun, cmdSpec, h1, h2]; rfl
    cases ho with
    | @bits w s l hw hR =>
      by_cases hw' : w = 64
      · subst hw'
        obtain ⟨r, h3, h4⟩ := rank9_ok c hR (hok _ h2)
        simp only [cmdRun, cmdSpec, h1, h2, h3, Res.ok_bind]
        exact ⟨_, rfl, hst.set h4 i⟩
      · have a1 : cmdRun c st (.toRank9 i) = .panic := by
          simp only [cmdRun, h1]
          split
          · next h => cases h; exact absurd rfl hw'
          · rfl
        have a2 : cmdSpec c ss (.toRank9 i) = none := by
          simp only [cmdSpec, h2]
          split
          · next h => cases h; exact absurd rfl hw'
          · rfl
        rw [a1, a2]; rfl
    | _ => simp only [cmdRun, cmdSpec, h1, h2]; rfl
  | toJacobson i =>
    rcases hst.at i with ⟨h1, h2⟩ | ⟨o, so, h1, h2, ho⟩
    · simp only [cmdRun, cmdSpec, h1, h2]; rfl
    cases ho with
    | @bits w s l hw hR =>
      by_cases hl : 2 ≤ l.length
      · obtain ⟨r, h3, h4⟩ := jacobson_ok c hw hR (hok _ _ h2) hl
        simp only [cmdRun, cmdSpec, h1, h2, h3, Res.ok_bind, if_pos hl]
        exact ⟨_, rfl, hst.set h4 i⟩
      · simp only [cmdRun, cmdSpec, h1, h2, if_neg hl]
        rw [C38_short_vectors_panic hw (bv_law c hw) hR (by omega)]; rfl
    | _ => simp only [cmdRun, cmdSpec, h1, h2]; rfl
  | intoInner i =>
    rcases hst.at i with ⟨h1, h2⟩ | ⟨o, so, h1, h2, ho⟩
    · simp only [cmdRun, cmdSpec, h1, h2]; rfl
    cases ho with
    | buf hw hR =>
      simp only [cmdRun, cmdSpec, h1, h2]
      exact ⟨_, rfl, hst.set (.bits hw hR.1) i⟩
    | rank9 hR _ =>
      simp only [cmdRun, cmdSpec, h1, h2]
      exact ⟨_, rfl, hst.set (.bits isBlk64 hR) i⟩
    | jacobson hw hR _ =>
      simp only [cmdRun, cmdSpec, h1, h2]
      exact ⟨_, rfl, hst.set (.bits hw hR) i⟩
    | _ => simp only [cmdRun, cmdSpec, h1, h2]; rfl
  | rank i p b =>
    rcases hst.at i with ⟨h1, h2⟩ | ⟨o, so, h1, h2, ho⟩
    · simp only [cmdRun, cmdSpec, h1, h2]; rfl
    cases ho with
    | rank9 hR hr =>
      simp only [cmdRun, cmdSpec, h1, h2]
      refine ⟨_, ?_, hst⟩
      exact congrArg (fun x => do let n ← x; Res.ok (Out.num n, st)) (hr.rank p (hok 0 _ (.inl h2)) b)
    | jacobson hw hR hr =>
      simp only [cmdRun, cmdSpec, h1, h2]
      refine ⟨_, ?_, hst⟩
      exact congrArg (fun x => do let n ← x; Res.ok (Out.num n, st)) (hr.rank p (hok _ _ (.inr h2)) b)
    | _ => simp only [cmdRun, cmdSpec, h1, h2]; rfl
  | select i k b =>
    rcases hst.at i with ⟨h1, h2⟩ | ⟨o, so, h1, h2, ho⟩
    · simp only [cmdRun, cmdSpec, h1, h2]; rfl
    cases ho with
    | rank9 hR hr =>
      obtain ⟨x, h3, h4⟩ := (C44_select_partial c hr hok).2.2 b
      simp only [cmdRun, cmdSpec, h1, h2, selectPos_eq h4]
      refine ⟨_, ?_, hst⟩
      exact congrArg (fun x => do let n ← x; Res.ok (Out.optNum n, st)) h3
    | jacobson hw hR hr =>
      obtain ⟨x, h3, h4⟩ := (C44_select_partial c hr hok).2.2 b
      simp only [cmdRun, cmdSpec, h1, h2, selectPos_eq h4]
      refine ⟨_, ?_, hst⟩
      exact congrArg (fun x => do let n ← x; Res.ok (Out.optNum n, st)) h3
    | _ => simp only [cmdRun, cmdSpec, h1, h2]; rfl
  | encode i k v =>
    obtain ⟨hv, hne, hfit⟩ := hok
    rcases hst.at i with ⟨h1, h2⟩ | ⟨o, so, h1, h2, ho⟩
    · simp only [cmdRun, cmdSpec, h1, h2]; rfl
    cases ho with
    | @buf w s f hw hR =>
      have he := C119_encode c k v hv
      cases hk : k.encOut c.debug v with
      | word l =>
        rw [hk] at he
        obtain ⟨s', h3, h4⟩ := buf_writeAll_file (bv_pushVec c hw) (fun h hm => h.mono hm) l hR (hfit _ _ h2 l hk)
        rw [← he (BitBuf.write c (bvBitVecPush c w))] at h3
        simp only [cmdRun, cmdSpec, h1, h2, hk, h3, Res.ok_bind]
        exact ⟨_, rfl, hst.set (.buf hw h4) i⟩
      | invalid =>
        rw [hk] at he
        simp only [cmdRun, cmdSpec, h1, h2, hk, he (BitBuf.write c (bvBitVecPush c w)) s, Res.ok_bind]
        exact ⟨_, rfl, hst.keep h2 (.buf hw hR)⟩
      | panics =>
        rw [hk] at he
        simp only [cmdRun, cmdSpec, h1, h2, hk, he (BitBuf.write c (bvBitVecPush c w)) s]
        rfl
      | hangs => exact absurd hk hne
    | _ => simp only [cmdRun, cmdSpec, h1, h2]; rfl
  | decode i k =>
    rcases hst.at i with ⟨h1, h2⟩ | ⟨o, so, h1, h2, ho⟩
    · simp only [cmdRun, cmdSpec, h1, h2]; rfl
    cases ho with
    | @buf w s f hw hR =>
      have hlen := ((bv_law c hw).fits hR.1).lt hw.pos
      have hy := C106_all c k (f.bits.drop f.pos) (by rw [List.length_drop]; omega) _ _ _ (bv_buf_source c hw f.bits) s
        ⟨f.pos, hR, rfl⟩
      cases hk : k.decOut c (f.bits.drop f.pos) with
      | value v rest =>
        rw [hk] at hy
        obtain ⟨s', h3, h4⟩ := hy
        simp only [cmdRun, cmdSpec, h1, h2, hk, h3, Res.ok_bind]
        exact ⟨_, rfl, hst.set (.buf hw (bufR_rest h4)) i⟩
      | nothing =>
        rw [hk] at hy
        obtain ⟨s', h3, h4⟩ := hy
        simp only [cmdRun, cmdSpec, h1, h2, hk, h3, Res.ok_bind]
        exact ⟨_, rfl, hst.set (.buf hw (bufR_rest h4)) i⟩
      | eof =>
        rw [hk] at hy
        obtain ⟨s', h3, h4⟩ := hy
        simp only [cmdRun, cmdSpec, h1, h2, hk, h3, Res.ok_bind]
        exact ⟨_, rfl, hst.set (.buf hw (bufR_rest h4)) i⟩
      | invalid rest =>
        rw [hk] at hy
        obtain ⟨s', h3, h4⟩ := hy
        simp only [cmdRun, cmdSpec, h1, h2, hk, h3, Res.ok_bind]
        exact ⟨_, rfl, hst.set (.buf hw (bufR_rest h4)) i⟩
      | panics =>
        rw [hk] at hy
        have h3 : (k.code c).decode (BitBuf.read c (bvBitVec c w)) s = .panic := hy
        simp only [cmdRun, cmdSpec, h1, h2, hk, h3]
        rfl
    | _ => simp only [cmdRun, cmdSpec, h1, h2]; rfl
  | eq i j =>
    rcases hst.at i with ⟨h1, h2⟩ | ⟨o, so, h1, h2, ho⟩
    · simp only [cmdRun, cmdSpec, h1, h2]; rfl
    rcases hst.at j with ⟨h1', h2'⟩ | ⟨o', so', h1', h2', ho'⟩
    · cases ho <;> simp only [cmdRun, cmdSpec, h1, h2, h1', h2'] <;> rfl
    cases ho with
    | @bits w s l hw hR =>
      cases ho' with
      | @bits w' s' l' hw' hR' =>
        by_cases e : w = w'
        · subst e
          simp only [cmdRun, cmdSpec, h1, h2, h1', h2', dif_pos, if_pos]
          refine ⟨_, ?_, hst⟩
          have : s = s' ↔ l = l' := ⟨fun h => by subst h; exact hR.bits_of_eq hR', fun h => by subst h; exact hR.eq_of_bits Nat.one_pos hR'⟩
          by_cases el : l = l' <;> simp [this, el]
        · simp only [cmdRun, cmdSpec, h1, h2, h1', h2', dif_neg e, if_neg e]; rfl
      | _ => simp only [cmdRun, cmdSpec, h1, h2, h1', h2']; rfl
    | @ints w k s xs hw hR =>
      cases ho' with
      | @ints w' k' s' xs' hw' hR' =>
        by_cases e : w = w'
        · subst e
          simp only [cmdRun, cmdSpec, h1, h2, h1', h2', dif_pos, if_pos]
          refine ⟨_, ?_, hst⟩
          have := ints_eq hR hR'
          by_cases el : k = k' <;> by_cases ex : xs = xs' <;> simp [this, el, ex]
        · simp only [cmdRun, cmdSpec, h1, h2, h1', h2', dif_neg e, if_neg e]; rfl
      | _ => simp only [cmdRun, cmdSpec, h1, h2, h1', h2']; rfl
    | _ => cases ho' <;> simp only [cmdRun, cmdSpec, h1, h2, h1', h2'] <;> rfl
  | cmp i j =>
    rcases hst.at i with ⟨h1, h2⟩ | ⟨o, so, h1, h2, ho⟩
    · simp only [cmdRun, cmdSpec, h1, h2]; rfl
    rcases hst.at j with ⟨h1', h2'⟩ | ⟨o', so', h1', h2', ho'⟩
    · cases ho <;> simp only [cmdRun, cmdSpec, h1, h2, h1', h2'] <;> rfl
    cases ho with
    | @bits w s l hw hR =>
      cases ho' with
      | @bits w' s' l' hw' hR' =>
        by_cases e : w = w'
        · subst e
          simp only [cmdRun, cmdSpec, h1, h2, h1', h2', dif_pos, if_pos, bits_cmp hw hR hR']
          exact ⟨_, rfl, hst⟩
        · simp only [cmdRun, cmdSpec, h1, h2, h1', h2', dif_neg e, if_neg e]; rfl
      | _ => simp only [cmdRun, cmdSpec, h1, h2, h1', h2']; rfl
    | @ints w k s xs hw hR =>
      cases ho' with
      | @ints w' k' s' xs' hw' hR' =>
        by_cases e : w = w'
        · subst e
          simp only [cmdRun, cmdSpec, h1, h2, h1', h2', dif_pos, if_pos, ints_cmp hw hR hR']
          exact ⟨_, rfl, hst⟩
        · simp only [cmdRun, cmdSpec, h1, h2, h1', h2', dif_neg e, if_neg e]; rfl
      | _ => simp only [cmdRun, cmdSpec, h1, h2, h1', h2']; rfl
    | _ => cases ho' <;> simp only [cmdRun, cmdSpec, h1, h2, h1', h2'] <;> rfl
  | fmt i =>
    rcases hst.at i with ⟨h1, h2⟩ | ⟨o, so, h1, h2, ho⟩
    · simp only [cmdRun, cmdSpec, h1, h2]; rfl
    cases ho with
    | bits hw hR =>
      simp only [cmdRun, cmdSpec, h1, h2, C31_binary c hw (hR.reach hw), Res.ok_bind]
      exact ⟨_, rfl, hst⟩
    | ints hw hR =>
      simp only [cmdRun, cmdSpec, h1, h2, C31_debug c hw (hR.reach hw), Res.ok_bind]
      exact ⟨_, rfl, hst⟩
    | _ => simp only [cmdRun, cmdSpec, h1, h2]; rfl
  | iter i ops =>
    rcases hst.at i with ⟨h1, h2⟩ | ⟨o, so, h1, h2, ho⟩
    · simp only [cmdRun, cmdSpec, h1, h2]; rfl
    cases ho with
    | bits hw hR =>
      obtain ⟨os, it, h3, h4, -⟩ := C29_bit_iter c hw (hR.reach hw) ops
      simp only [cmdRun, cmdSpec, h1, h2, h3, Res.ok_bind, ← h4, List.map_map]
      refine ⟨_, ?_, hst⟩
      congr 4
      funext x
      cases x <;> rfl
    | ints hw hR =>
      obtain ⟨os, it, h3, h4, -⟩ := C29_int_iter c hw (hR.reach hw) ops
      simp only [cmdRun, cmdSpec, h1, h2, h3, Res.ok_bind, ← h4]
      exact ⟨_, rfl, hst⟩
    | _ => simp only [cmdRun, cmdSpec, h1, h2]; rfl
  | view i rs op =>
    rcases hst.at i with ⟨h1, h2⟩ | ⟨o, so, h1, h2, ho⟩
    · simp only [cmdRun, cmdSpec, h1, h2]; rfl
    obtain ⟨h3, h4⟩ := hok _ h2
    by_cases hg : so = .gone
    · subst hg
      cases ho
      simp only [cmdRun, cmdSpec, h1, h2]
      rfl
    rw [view_law c ho hg rs op h1 h3 h4]
    have e : cmdSpec c ss (.view i rs op) = (readSpec so.width so.list rs op).map fun r => (.bits so.width r, ss) := by
      simp only [cmdSpec, h2]
    rw [e]
    cases readSpec so.width so.list rs op with
    | none => rfl
    | some r => exact ⟨_, rfl, hst⟩
  | edit i rs op =>
    rcases hst.at i with ⟨h1, h2⟩ | ⟨o, so, h1, h2, ho⟩
    · simp only [cmdRun, cmdSpec, h1, h2]; rfl
    obtain ⟨h3, h4⟩ := hok _ h2
    cases ho with
    | @bits w s l hw hR =>
      have h5 := writeThrough_eq hw (bv_law c hw) (bv_mut_law c hw).write hR rs (op w) h3 h4
      simp only [cmdRun, cmdSpec, h1, h2, SObj.list, SObj.width]
      cases hs : writeSpec l rs (op w) with
      | none => rw [hs] at h5; simp only [h5]; rfl
      | some l' =>
        rw [hs] at h5
        obtain ⟨d, h6, h7⟩ := h5
        simp only [h6, Res.ok_bind]
        exact ⟨_, rfl, hst.set (.bits hw h7) i⟩
    | @ints w k s xs hw hR =>
      have hl := iv_law c hw
      have h5 := writeThrough_eq (o := ivBitVecMut c w) (R := fun s l => ivR c w s l ∧ s.elementBits = k) (c := c) hw
        ⟨fun h => hl.fits h.1, fun h => hl.bitLen h.1, fun h => hl.getBit h.1, fun h => hl.getBits h.1, fun h => hl.getBits_panic h.1⟩
        (iv_mut_law_width c hw k).write ⟨hR.ivR, hR.eb⟩ rs (op w) h3 h4
      simp only [cmdRun, cmdSpec, h1, h2, SObj.list, SObj.width]
      cases hs : writeSpec (packBits k xs) rs (op w) with
      | none => rw [hs] at h5; simp only [h5]; rfl
      | some l' =>
        rw [hs] at h5
        obtain ⟨⟨e, d⟩, h6, h7, rfl⟩ := h5
        simp only [h6, Res.ok_bind]
        exact ⟨_, rfl, hst.set (.ints hw (hR.ofBits h7.rep)) i⟩
    | @buf w s f hw hR =>
      have hl := buf_law c hw (bv_law c hw) (bv_block c hw)
      have h5 := writeThrough_eq (o := BitBuf.bitVecMut c (bvBitVecMut c w)) (R := fun b l => bvR c w b.data l ∧ b.pos = f.pos) (c := c) (l := f.bits) hw
        ⟨fun h => hl.fits h.1, fun h => hl.bitLen h.1, fun h => hl.getBit h.1, fun h => hl.getBits h.1, fun h => hl.getBits_panic h.1⟩
        (buf_mut_law c hw (bv_law c hw) (bv_block c hw) (bv_mut_law c hw) f.pos).write ⟨hR.1, hR.2.1⟩ rs (op w) h3 h4
      simp only [cmdRun, cmdSpec, h1, h2, SObj.list, SObj.width]
      cases hs : writeSpec f.bits rs (op w) with
      | none => rw [hs] at h5; simp only [h5]; rfl
      | some l' =>
        rw [hs] at h5
        obtain ⟨d, h6, h7, h8⟩ := h5
        simp only [h6, Res.ok_bind]
        refine ⟨_, rfl, hst.set (.buf hw (f := ⟨l', f.pos⟩) ⟨h7, h8, ?_⟩) i⟩
        show f.pos ≤ l'.length
        rw [writeSpec_length h3 hs]
        exact hR.2.2
    | rank9 =>
      simp only [cmdRun, cmdSpec, h1, h2]
      cases writeSpec _ rs (op _) <;> rfl
    | jacobson =>
      simp only [cmdRun, cmdSpec, h1, h2]
      cases writeSpec _ rs (op _) <;> rfl
    | gone =>
      simp only [cmdRun, cmdSpec, h1, h2]
      cases writeSpec _ rs (op _) <;> rfl
  | readInt i W n be =>
    rcases hst.at i with ⟨h1, h2⟩ | ⟨o, so, h1, h2, ho⟩
    · simp only [cmdRun, cmdSpec, h1, h2]; rfl
    cases ho with
    | @buf w s f hw hR =>
      have hW : 1 < W := by rcases hok with h | h | h | h <;> omega
      have hS := bv_buf_source c hw f.bits
      have key : ∃ s', (∃ q, bufR (bvR c w) s' ⟨f.bits, q⟩ ∧ (f.bits.drop f.pos).drop n = f.bits.drop q) ∧
          (if be then Succinct.readIntBe c (BitBuf.read c (bvBitVec c w)) W n
            else Succinct.readInt c (BitBuf.read c (bvBitVec c w)) W n) s =
          .ok (if n ≤ (f.bits.drop f.pos).length then .ok (some (BitVec.ofNat W (bitsVal (if be then ((f.bits.drop f.pos).take n).reverse
              else (f.bits.drop f.pos).take n))))
            else if f.bits.drop f.pos = [] then .ok none else .error .unexpectedEof, s') := by
        cases be with
        | true => exact C53_lawful_be c hS hW (n := n) ⟨f.pos, hR, rfl⟩
        | false => exact C53_lawful c hS hW (n := n) ⟨f.pos, hR, rfl⟩
      obtain ⟨s', h3, h4⟩ := key
      have h5 := bufR_rest h3
      have hp : f.pos ≤ f.bits.length := hR.2.2
      simp only [cmdRun, cmdSpec, h1, h2, h4, Res.ok_bind]
      rw [List.length_drop, List.length_drop] at h5
      by_cases hn : n ≤ (f.bits.drop f.pos).length
      · simp only [if_pos hn, Option.map_some, BitVec.toNat_ofNat]
        refine ⟨_, rfl, hst.set (.buf hw ?_) i⟩
        rw [List.length_drop] at hn
        rwa [show f.bits.length - (f.bits.length - f.pos - n) = f.pos + n by omega] at h5
      · simp only [if_neg hn]
        rw [List.length_drop] at hn
        rw [show f.bits.length - (f.bits.length - f.pos - n) = f.bits.length by omega] at h5
        by_cases he : f.bits.drop f.pos = []
        · simp only [if_pos he]
          exact ⟨_, rfl, hst.set (.buf hw h5) i⟩
        · simp only [if_neg he]
          exact ⟨_, rfl, hst.set (.buf hw h5) i⟩
    | _ => simp only [cmdRun, cmdSpec, h1, h2]; rfl
  | writeInt i n sg be W x =>
    obtain ⟨hW, hbe, hfit⟩ := hok
    rcases hst.at i with ⟨h1, h2⟩ | ⟨o, so, h1, h2, ho⟩
    · simp only [cmdRun, cmdSpec, h1, h2]; rfl
    cases ho with
    | @buf w s f hw hR =>
      have hW' : 1 < W := by rcases hW with h | h | h | h <;> omega
      have hlen : (intBits n sg be x).length = n := by unfold intBits; split <;> simp
      obtain ⟨s', h3, h4⟩ := buf_writeAll_file (bv_pushVec c hw) (fun h hm => h.mono hm) (intBits n sg be x) hR
        (by rw [hlen]; exact hfit _ _ h2)
      rw [hlen] at h4
      have key : (if be then Succinct.writeIntBe c sg (BitBuf.write c (bvBitVecPush c w)) n x
          else Succinct.writeInt c sg (BitBuf.write c (bvBitVecPush c w)) n x) s = .ok (.ok (), s') := by
        rw [← h3]
        cases be with
        | true =>
          obtain ⟨b1, b2, b3⟩ := hbe rfl
          exact congrFun (C52_write_partial c sg _ hW' x b1 b2 b3) s
        | false => exact congrFun (C51_write c sg _ hW' n x) s
      simp only [cmdRun, cmdSpec, h1, h2, key, Res.ok_bind]
      exact ⟨_, rfl, hst.set (.buf hw h4) i⟩
    | _ => simp only [cmdRun, cmdSpec, h1, h2]; rfl

/-- **C117.** Whatever objects there are and whatever a program does with them, in whatever order: every call returns what it
would with plain lists, exactly the same calls panic, and in the end all objects hold the right contents. Calls on one object
never influence another. -/
theorem C117_programs (c : Cfg) (cmds : List Cmd) {st : List Obj} {ss : List SObj} (hst : StR c st ss)
    (hok : progOk c ss cmds) : Refines (StR c) (progRun c st cmds) (progSpec c ss cmds) := by
  induction cmds generalizing st ss with
  | nil => exact ⟨_, rfl, hst⟩
  | cons cmd cmds ih =>
    have h := cmd_refines c hst cmd hok.1
    simp only [progRun, progSpec]
    cases hs : cmdSpec c ss cmd with
    | none =>
      rw [hs] at h
      rw [show cmdRun c st cmd = .panic from h]; rfl
    | some r =>
      rw [hs] at h
      obtain ⟨s1, h1, h2⟩ := h
      have h3 := ih h2 (hok.2 r hs)
      simp only [h1, Res.ok_bind, Option.bind_eq_bind, Option.bind_some]
      cases hp : progSpec c r.2 cmds with
      | none =>
        rw [hp] at h3
        rw [show progRun c s1 cmds = .panic from h3]; rfl
      | some q =>
        rw [hp] at h3
        obtain ⟨s2, h4, h5⟩ := h3
        exact ⟨s2, by rw [h4]; rfl, h5⟩

/-- In particular from the start, when there are no objects. -/
theorem C117_from_start (c : Cfg) (cmds : List Cmd) (hok : progOk c [] cmds) :
    match progSpec c [] cmds with
    | some (outs, ss) => ∃ st, progRun c [] cmds = .ok (outs, st) ∧ StR c st ss
    | none => progRun c [] cmds = .panic := by
  have h := C117_programs c cmds (st := []) (ss := []) ⟨rfl, fun i o so h => by simp at h⟩ hok
  cases hp : progSpec c [] cmds with
  | none => rw [hp] at h; exact h
  | some r => rw [hp] at h; exact h

theorem prog_cons (h1 : cmd.Ok c ss) (h2 : cmdSpec c ss cmd = some (o, ss'))
    (h3 : progOk c ss' cmds ∧ progSpec c ss' cmds = some (os, sf)) :
    progOk c ss (cmd :: cmds) ∧ progSpec c ss (cmd :: cmds) = some (o :: os, sf) := by
  refine ⟨⟨h1, fun r hr => ?_⟩, ?_⟩
  · cases h2.symm.trans hr; exact h3.1
  · simp [progSpec, h2, h3.2]

/-- A vector of three ones and its copy. The first gets a zero appended, becomes an index and answers queries; the copy becomes
a buffer, to which the γ code of 5 is appended and read back, once more from its second bit on, which gives 3 and then an error;
in the end both are vectors again and differ. Encoding 0 would have been a panic. The second program panics, for the vector is
too short. -/
example (c : Cfg) :
    let γ : CodeName := .elias .unary
    let cmds : List Cmd := [.newBits 64 (.withFill 3 true), .clone 0, .onBits 0 (fun _ => .pushBit false), .toRank9 0, .select 0 0 false,
      .rank 0 2 true, .toBuf 1 true, .encode 1 γ 5, .onBuf 1 (.seek 3), .decode 1 γ, .decode 1 γ, .onBuf 1 (.seek 4), .decode 1 γ,
      .decode 1 γ, .intoInner 0, .intoInner 1, .eq 0 1]
    let outs : List Out := [.unit, .unit, .bits 64 .unit, .unit, .optNum (some 3), .num 3, .unit, .unit, .buf .unit,
      .optNum (some 5), .optNum none, .buf .unit, .optNum (some 3), .err .unexpectedEof, .unit, .unit, .flag false]
    (∃ st, progRun c [] cmds = .ok (outs, st) ∧
      StR c st [.bits 64 [true, true, true, false], .bits 64 [true, true, true, false, false, true, true, false]]) ∧
    progRun c [] [.newBits 8 .new, .toJacobson 0] = .panic ∧
    progRun c [] [.newBits 8 .new, .toBuf 0 true, .encode 0 γ 0] = .panic := by
  have e1 : ∀ d, (CodeName.elias .unary).encOut d 5 = .word [false, false, true, true, false] := by
    intro d; rw [CodeName.encOut, CodeName.encOut]; decide
  have hf : ∀ n ≤ 64, Fits c.usz 64 n := by
    intro n h
    have := c.le_pow_usz
    unfold Fits blocksFor
    constructor <;> omega
  intro γ cmds outs
  let F (n : Nat) : List SObj := [.rank9 [true, true, true, false], .file 64 ⟨[true, true, true, false, false, true, true, false], n⟩]
  refine ⟨?_, ?_, ?_⟩
  · have h : progOk c [] cmds ∧ progSpec c [] cmds = some (outs,
        [.bits 64 [true, true, true, false], .bits 64 [true, true, true, false, false, true, true, false]]) := by
      refine prog_cons ⟨by decide, hf 3 (by decide)⟩ rfl ?_
      refine prog_cons trivial rfl ?_
      refine prog_cons (ss' := [.bits 64 [true, true, true, false], _]) ?_ rfl ?_
      · intro w l h; cases h; exact hf 4 (by decide)
      refine prog_cons ?_ rfl ?_
      · intro l h; cases h; rcases c with ⟨_ | _, _ | _, _ | _⟩ <;> decide
      refine prog_cons (o := .optNum (some 3)) (show 0 + 1 < 2 ^ 64 by decide) rfl ?_
      refine prog_cons (o := .num 3) ?_ rfl ?_
      · rintro w l (h | h) <;> cases h; decide
      refine prog_cons trivial rfl ?_
      refine prog_cons (o := .unit) (ss' := F 8) ⟨by decide, ?_, ?_⟩ ?_ ?_
      · rw [e1]; simp
      · intro w f h l hl; cases h; rw [e1] at hl; cases hl; exact hf 8 (by decide)
      · simp only [cmdSpec, List.set, List.getElem?_cons_succ, List.getElem?_cons_zero, γ, e1]; rfl
      refine prog_cons (o := .buf .unit) (ss' := F 3) ?_ rfl ?_
      · intro w f h; cases h; exact show 3 < 2 ^ 64 by decide
      refine prog_cons (o := .optNum (some 5)) (ss' := F 8) trivial rfl ?_
      refine prog_cons (o := .optNum none) (ss' := F 8) trivial rfl ?_
      refine prog_cons (o := .buf .unit) (ss' := F 4) ?_ rfl ?_
      · intro w f h; cases h; exact show 4 < 2 ^ 64 by decide
      refine prog_cons (o := .optNum (some 3)) (ss' := F 7) trivial rfl ?_
      refine prog_cons (o := .err .unexpectedEof) (ss' := F 8) trivial rfl ?_
      refine prog_cons trivial rfl ?_
      refine prog_cons trivial rfl ?_
      refine prog_cons (o := .flag false) trivial rfl ?_
      exact ⟨trivial, rfl⟩
    have := C117_from_start c cmds h.1
    rw [h.2] at this
    exact this
  · refine C117_from_start c [.newBits 8 .new, .toJacobson 0] ⟨⟨by decide, trivial⟩, fun r h => ?_⟩
    cases h
    refine ⟨?_, fun r h => ?_⟩
    · intro w l h; cases h; rcases c with ⟨_ | _, _ | _, _ | _⟩ <;> decide
    · cases h
  · have e0 : γ.encOut c.debug 0 = .panics := by simp only [γ, CodeName.encOut]; rfl
    have h := C117_from_start c [.newBits 8 .new, .toBuf 0 true, .encode 0 γ 0] ⟨⟨by decide, trivial⟩, fun r h => by
      cases h
      refine ⟨trivial, fun r h => ?_⟩
      cases h
      refine ⟨⟨by decide, by rw [e0]; simp, fun w f _ l h => by rw [e0] at h; cases h⟩, fun r h => ?_⟩
      simp [cmdSpec, e0] at h⟩
    have e : progSpec c [] [.newBits 8 .new, .toBuf 0 true, .encode 0 γ 0] = none := by
      simp [progSpec, cmdSpec, e0]
    rw [e] at h
    exact h

/-- Two 4-bit numbers. The low bits of the second are changed through a slice, a window across both is read through a slice of a
slice; the vector is printed, iterated over from both ends, and compared with a copy of which one number was changed. A buffer gets
the five low bits of -3, most significant first, and gives three of them after the first, least significant first; there are not
three more. Writing past the end of a slice panics although the vector goes on. -/
example (c : Cfg) :
    let cmds : List Cmd := [.newInts 8 4 (.withFill 2 5#8), .edit 0 [⟨some 4, none⟩] (fun w => .bits 0 3 1#w),
      .view 0 [⟨some 1, some 7⟩, ⟨some 2, none⟩] (.bits 0 4), .view 0 [⟨some 3, some 3⟩] .len, .fmt 0, .iter 0 [.nextBack, .next, .next], .clone 0,
      .onInts 1 (fun w => .set 0 6#w), .cmp 0 1, .newBits 8 .new, .toBuf 2 true, .writeInt 2 5 true true 8 0xFD#8, .onBuf 2 (.seek 1),
      .readInt 2 16 3 false, .readInt 2 16 3 false, .view 2 [] .len]
    let outs : List Out := [.unit, .unit, .bits 8 (.block 2#8), .bits 8 (.num 0), .text "IntVector { element_bits: 4, elements: { 5, 1, } }",
      .items [some 1, some 5, none], .unit, .ints .unit, .order .lt, .unit, .unit, .unit, .buf .unit, .optNum (some 3),
      .err .unexpectedEof, .bits 8 (.num 5)]
    (∃ st, progRun c [] cmds = .ok (outs, st) ∧
      StR c st [.ints 8 4 [5, 1], .ints 8 4 [6, 1], .file 8 ⟨[true, true, true, false, true], 5⟩]) ∧
    progRun c [] [.newInts 8 4 (.withFill 2 5#8), .edit 0 [⟨some 4, some 6⟩] (fun _ => .bit 2 true)] = .panic := by
  have hf : ∀ n ≤ 64, Fits c.usz 8 n := by
    intro n h
    have := c.le_pow_usz
    unfold Fits blocksFor
    constructor <;> omega
  have h32 := c.le_pow_usz
  intro cmds outs
  let V := SObj.ints 8 4 [5, 1]
  let V' := SObj.ints 8 4 [6, 1]
  let F (n : Nat) : List SObj := [V, V', .file 8 ⟨[true, true, true, false, true], n⟩]
  refine ⟨?_, ?_⟩
  · have h : progOk c [] cmds ∧ progSpec c [] cmds = some (outs, F 5) := by
      refine prog_cons (ss' := [.ints 8 4 [5, 5]]) ⟨by decide, by decide, by decide, hf _ (by decide)⟩ rfl ?_
      refine prog_cons (ss' := [V]) ?_ rfl ?_
      · intro o h; cases h; exact ⟨fun _ => ⟨by decide, trivial⟩, by decide, by decide, by decide⟩
      refine prog_cons (ss' := [V]) ?_ rfl ?_
      · intro o h; cases h; exact ⟨fun _ => ⟨by decide, fun _ => ⟨by decide, trivial⟩⟩, by decide, by decide, by decide⟩
      refine prog_cons (ss' := [V]) ?_ rfl ?_
      · intro o h; cases h; exact ⟨fun _ => ⟨by decide, trivial⟩, trivial⟩
      refine prog_cons (ss' := [V]) trivial ?_ ?_
      · rfl
      refine prog_cons (ss' := [V]) trivial rfl ?_
      refine prog_cons (ss' := [V, V]) trivial rfl ?_
      refine prog_cons (ss' := [V, V']) ?_ rfl ?_
      · intro w k xs h; cases (show some (SObj.ints 8 4 [5, 1]) = _ from h); exact ⟨by decide, by omega⟩
      refine prog_cons (ss' := [V, V']) trivial rfl ?_
      refine prog_cons (ss' := [V, V', .bits 8 []]) ⟨by decide, trivial⟩ rfl ?_
      refine prog_cons (ss' := [V, V', .file 8 ⟨[], 0⟩]) trivial rfl ?_
      refine prog_cons (ss' := F 5) ⟨.inl rfl, fun _ => ⟨by decide, by decide, fun _ => by decide⟩, ?_⟩ rfl ?_
      · intro w f h; cases h; exact hf _ (by decide)
      refine prog_cons (ss' := F 1) ?_ rfl ?_
      · intro w f h; cases h; exact show 1 < 2 ^ 64 by decide
      refine prog_cons (ss' := F 4) (.inr (.inl rfl)) rfl ?_
      refine prog_cons (ss' := F 5) (.inr (.inl rfl)) rfl ?_
      refine prog_cons (ss' := F 5) ?_ rfl ?_
      · intro o h; cases h; exact ⟨trivial, trivial⟩
      exact ⟨trivial, rfl⟩
    have := C117_from_start c cmds h.1
    rw [h.2] at this
    exact this
  · refine C117_from_start c [.newInts 8 4 (.withFill 2 5#8), .edit 0 [⟨some 4, some 6⟩] (fun _ => .bit 2 true)]
      ⟨⟨by decide, by decide, by decide, hf _ (by decide)⟩, fun r h => ?_⟩
    cases h
    refine ⟨?_, fun r h => ?_⟩
    · intro o h; cases h; exact ⟨fun _ => ⟨by decide, trivial⟩, show 2 < 2 ^ 64 by decide⟩
    · cases h

/-! Each theorem of this file that has hypotheses is applied to concrete data in `Verif/Instances/Program.lean`. -/

end Succinct
