import Verif.Props.RandomAccess
import Verif.Props.Program
/-! Property C123: a sequence of encoded values with an index. The programs here are not in the crate; they are what its parts are
made for. Values are encoded to a `BitBuffer`; a `BitVector` with a one where each codeword begins is made into a `Rank9`; `select1`
then finds the beginning of a value, and `rank1` the value to which a bit belongs. -/
namespace Succinct
open Spec

/-- `let mut m = BitVector::with_fill(n, false); for p in ps { m.set_bit(p, true); }` -/
def markStarts (c : Cfg) (n : Nat) (ps : List Nat) : Res (VB 64) := do
  let s ← BV.withFill c 64 n false
  ps.foldlM (fun s p => (bvBitVecMut c 64).setBit s p true) s

/-- Encode values to a buffer and make an index of their beginnings. -/
def buildSeq (c : Cfg) (K : Code) (o : BitVecPushOps w S) (vs : List Nat) :
    SM (BitBuf S) (BinSearchSelect (Rank9 (VB 64))) := do
  let ps ← encodeIndexed K (BitBuf.write c o) vs
  let n ← positionOf
  let m ← SM.lift (markStarts c n ps)
  let r ← SM.lift (Rank9.new c (bvBitVec c 64) m)
  pure (.new r)

/-- a request: a value, or the value to which a bit of the buffer belongs -/
inductive SeqReq where
  | item (i : Nat)
  | bit (p : Nat)

/-- the value number `i`, or `None` if there is none -/
def fetchItem (c : Cfg) (K : Code) (o : BitVecOps w S) (ix : BinSearchSelect (Rank9 (VB 64))) (i : Nat) :
    SM (BitBuf S) (Option Nat) := do
  match ← SM.lift (BinSearchSelect.select1 c (Rank9.ops c (bvBitVec c 64)) ix i) with
  | some p => do
    BitBuf.seek o p
    K.decode (BitBuf.read c o)
  | none => pure none

def fetch (c : Cfg) (K : Code) (o : BitVecOps w S) (ix : BinSearchSelect (Rank9 (VB 64))) : SeqReq → SM (BitBuf S) (Option Nat)
  | .item i => fetchItem c K o ix i
  | .bit p => do
    let n ← SM.lift ((BinSearchSelect.rankOps (Rank9.ops c (bvBitVec c 64))).rank1 ix p)
    let i ← SM.lift (subN c 64 n 1)
    fetchItem c K o ix i

/-- any number of requests -/
def fetchAll (c : Cfg) (K : Code) (o : BitVecOps w S) (ix : BinSearchSelect (Rank9 (VB 64))) :
    List SeqReq → SM (BitBuf S) (List (Option Nat))
  | [] => pure []
  | q :: qs => do
    let v ← fetch c K o ix q
    let vs ← fetchAll c K o ix qs
    pure (v :: vs)

/-- the value whose codeword covers bit `p` of the encoding -/
def coverVal (word : Nat → List Bool) : List Nat → Nat → Option Nat
  | [], _ => none
  | v :: vs, p => if p < (word v).length then some v else coverVal word vs (p - (word v).length)

/-- the right answer -/
def seqAnswer (word : Nat → List Bool) (vs : List Nat) : SeqReq → Option Nat
  | .item i => vs[i]?
  | .bit p => coverVal word vs p

/-- Items have any number but 2^64 - 1, bits are bits of the buffer. -/
def SeqReq.Ok (word : Nat → List Bool) (vs : List Nat) : SeqReq → Prop
  | .item i => i + 1 < 2 ^ 64
  | .bit p => p < (vs.flatMap word).length

/-! ### the marks -/

/-- a one and zeros for each value -/
def marksOf (word : Nat → List Bool) (vs : List Nat) : List Bool :=
  vs.flatMap fun v => true :: List.replicate ((word v).length - 1) false

theorem marksOf_append (word : Nat → List Bool) (us vs : List Nat) : marksOf word (us ++ vs) = marksOf word us ++ marksOf word vs :=
  List.flatMap_append

theorem marksOf_length {word : Nat → List Bool} {vs : List Nat} (h : ∀ v ∈ vs, word v ≠ []) :
    (marksOf word vs).length = (vs.flatMap word).length := by
  induction vs with
  | nil => rfl
  | cons v vs ih =>
    have h1 : 0 < (word v).length := List.length_pos_iff.2 (h v List.mem_cons_self)
    have h2 := ih fun x hx => h x (List.mem_cons_of_mem _ hx)
    rw [marksOf, List.flatMap_cons, List.flatMap_cons, List.length_append, List.length_append, List.length_cons, List.length_replicate]
    rw [marksOf] at h2
    omega

theorem marksOf_count (word : Nat → List Bool) (vs : List Nat) : (marksOf word vs).count true = vs.length := by
  induction vs with
  | nil => rfl
  | cons v vs ih =>
    rw [marksOf, List.flatMap_cons, List.count_append, List.count_cons_self, List.count_replicate, List.length_cons]
    rw [marksOf] at ih
    rw [ih]
    simp
    omega

theorem marks_set {word : Nat → List Bool} (vs : List Nat) (h : ∀ v ∈ vs, word v ≠ []) (pre : List Bool) :
    (startsFrom word pre.length vs).foldl (fun l p => l.set p true) (pre ++ List.replicate (vs.flatMap word).length false) =
      pre ++ marksOf word vs := by
  induction vs generalizing pre with
  | nil => simp [startsFrom, marksOf]
  | cons v vs ih =>
    have h1 : 0 < (word v).length := List.length_pos_iff.2 (h v List.mem_cons_self)
    have e : (pre ++ List.replicate ((v :: vs).flatMap word).length false).set pre.length true =
        (pre ++ true :: List.replicate ((word v).length - 1) false) ++ List.replicate (vs.flatMap word).length false := by
      rw [List.flatMap_cons, List.length_append, List.set_append_right _ _ (Nat.le_refl _), Nat.sub_self,
        show (word v).length + (vs.flatMap word).length = ((word v).length - 1 + (vs.flatMap word).length) + 1 by omega,
        List.replicate_succ, List.set_cons_zero, ← List.replicate_append_replicate]
      simp
    have e2 : pre.length + (word v).length = (pre ++ true :: List.replicate ((word v).length - 1) false).length := by
      simp; omega
    rw [startsFrom, List.foldl_cons, e, e2, ih (fun x hx => h x (List.mem_cons_of_mem _ hx)), marksOf, marksOf, List.flatMap_cons]
    simp

theorem markStarts_ok (c : Cfg) {word : Nat → List Bool} (vs : List Nat) (h : ∀ v ∈ vs, word v ≠ [])
    (hf : Fits c.usz 64 (vs.flatMap word).length) :
    ∃ s, markStarts c (vs.flatMap word).length (startsFrom word 0 vs) = .ok s ∧ bvR c 64 s (marksOf word vs) := by
  obtain ⟨s, h1, h2⟩ := bv_withFill c isBlk64 hf false
  have key : ∀ (ps : List Nat) (s : VB 64) (l : List Bool), bvR c 64 s l → (∀ p ∈ ps, p < l.length) →
      ∃ s', ps.foldlM (fun s p => (bvBitVecMut c 64).setBit s p true) s = .ok s' ∧ bvR c 64 s' (ps.foldl (fun l p => l.set p true) l) := by
    intro ps
    induction ps with
    | nil => intro s l hR _; exact ⟨s, rfl, hR⟩
    | cons p ps ih =>
      intro s l hR hp
      obtain ⟨s1, h3, h4⟩ := (bv_mut_law c isBlk64).setBit hR p true (hp p List.mem_cons_self)
      obtain ⟨s2, h5, h6⟩ := ih s1 _ h4 fun q hq => by rw [List.length_set]; exact hp q (List.mem_cons_of_mem _ hq)
      exact ⟨s2, by rw [List.foldlM_cons, h3, Res.ok_bind, h5], h6⟩
  have hlt : ∀ p ∈ startsFrom word 0 vs, p < (List.replicate (vs.flatMap word).length false).length := by
    intro p hp
    obtain ⟨i, hi⟩ := List.mem_iff_getElem?.1 hp
    rw [startsFrom_get] at hi
    split at hi
    · next hl =>
      injection hi with hi
      rw [List.length_replicate]
      have h3 : vs = vs.take i ++ vs[i] :: vs.drop (i + 1) := by rw [← List.drop_eq_getElem_cons hl, List.take_append_drop]
      have h4 : 0 < (word vs[i]).length := List.length_pos_iff.2 (h _ (List.getElem_mem hl))
      have h5 := congrArg (fun l => (l.flatMap word).length) h3
      simp only [List.flatMap_append, List.flatMap_cons, List.length_append] at h5
      omega
    · cases hi
  obtain ⟨s', h3, h4⟩ := key _ s _ h2 hlt
  refine ⟨s', by rw [markStarts, h1, Res.ok_bind, h3], ?_⟩
  have := marks_set (word := word) vs h []
  rw [List.nil_append, List.nil_append, List.length_nil] at this
  rw [← this]
  exact h4

theorem marks_select {word : Nat → List Bool} {vs : List Nat} (h : ∀ v ∈ vs, word v ≠ []) (i : Nat) :
    IsSelect true (marksOf word vs) i (startsFrom word 0 vs)[i]? := by
  rw [startsFrom_get]
  by_cases hl : i < vs.length
  · rw [if_pos hl, Nat.zero_add, ← marksOf_length fun v hv => h v (List.mem_of_mem_take hv)]
    have h3 : vs = vs.take i ++ vs[i] :: vs.drop (i + 1) := by rw [← List.drop_eq_getElem_cons hl, List.take_append_drop]
    have h4 : marksOf word vs = marksOf word (vs.take i) ++ marksOf word (vs[i] :: vs.drop (i + 1)) := by
      rw [← marksOf_append, ← h3]
    refine ⟨?_, ?_⟩
    · rw [h4, List.getElem?_append_right (Nat.le_refl _), Nat.sub_self]
      rfl
    · rw [occ, h4, List.take_left, marksOf_count, List.length_take]
      omega
  · rw [if_neg hl]
    show (marksOf word vs).count true ≤ i
    rw [marksOf_count]
    omega

theorem marks_rank {word : Nat → List Bool} {us ts : List Nat} {v p : Nat} (h : ∀ x ∈ us ++ v :: ts, word x ≠ [])
    (h1 : (us.flatMap word).length ≤ p) (h2 : p < (us.flatMap word).length + (word v).length) :
    occ true (marksOf word (us ++ v :: ts)) (p + 1) = us.length + 1 := by
  have hu : (marksOf word us).length = (us.flatMap word).length := marksOf_length fun x hx => h x (List.mem_append_left _ hx)
  obtain ⟨q, rfl⟩ : ∃ q, p = (us.flatMap word).length + q := ⟨p - (us.flatMap word).length, by omega⟩
  rw [marksOf_append, occ, ← hu, Nat.add_assoc, List.take_length_add_append, List.count_append, marksOf_count, marksOf,
    List.flatMap_cons, List.cons_append, List.take_succ_cons, List.count_cons_self,
    List.take_append_of_le_length (by rw [List.length_replicate]; omega), List.take_replicate, List.count_replicate]
  simp

theorem cover {word : Nat → List Bool} {vs : List Nat} {p : Nat} (h : p < (vs.flatMap word).length) :
    ∃ us v ts, vs = us ++ v :: ts ∧ (us.flatMap word).length ≤ p ∧ p < (us.flatMap word).length + (word v).length ∧
      coverVal word vs p = some v := by
  induction vs generalizing p with
  | nil => simp at h
  | cons v vs ih =>
    by_cases hp : p < (word v).length
    · exact ⟨[], v, vs, rfl, by simp, by simpa using hp, by rw [coverVal, if_pos hp]⟩
    · rw [List.flatMap_cons, List.length_append] at h
      obtain ⟨us, x, ts, h1, h2, h3, h4⟩ := ih (p := p - (word v).length) (by omega)
      refine ⟨v :: us, x, ts, by rw [h1]; rfl, ?_, ?_, by rw [coverVal, if_neg hp, h4]⟩ <;>
        rw [List.flatMap_cons, List.length_append] <;> omega

/-- No codeword is empty. -/
theorem Implements.ne_nil {K : Code} {D : Nat → Prop} {word : Nat → List Bool} (hi : Implements K D word) (v : Nat) (hv : D v) :
    word v ≠ [] := by
  intro h
  have h1 := hi.decodes v hv dequeRead [] [] (by rw [h]; exact .nil _)
  have h2 := hi.ends dequeRead [] (by intro b s hb; cases hb)
  rw [h1] at h2
  cases h2

theorem inMemory_fits64 (c : Cfg) (h : InMemory c.usz n) : Fits c.usz 64 n := by
  unfold InMemory at h
  unfold Fits blocksFor
  rcases c with ⟨_, _ | _, _⟩ <;> simp [Cfg.usz] at h ⊢ <;> omega

/-- **C123.** With every code and over every lawful vector: encode any list of values to a new buffer and index their beginnings.
Then any number of requests in any order are answered correctly: by number, with the value or `None` if there are not as many; by a
bit of the buffer, with the value whose codeword covers the bit. -/
theorem C123_sequence (c : Cfg) (f : Bool) {K : Code} {D : Nat → Prop} {word : Nat → List Bool} (h : CodeOf c f K D word)
    {o : BitVecPushOps w S} {Fit : Nat → Prop} {R : S → List Bool → Prop} (hv : PushVec c w o R Fit)
    (hm : ∀ {m n}, Fit n → m ≤ n → Fit m) {s : BitBuf S} (hs : bufR R s ⟨[], 0⟩)
    (vs : List Nat) (hvs : ∀ v ∈ vs, D v) (hf : Fit (vs.flatMap word).length) (hmem : InMemory c.usz (vs.flatMap word).length) :
    ∃ ix s1, buildSeq c K o vs s = .ok (.ok ix, s1) ∧ ∀ qs, (∀ q ∈ qs, q.Ok word vs) →
      ∃ s2, fetchAll c K o.toBitVecOps ix qs s1 = .ok (.ok (qs.map (seqAnswer word vs)), s2) := by
  have hi := C62_all c f h
  have hne : ∀ v ∈ vs, word v ≠ [] := fun v hx => hi.ne_nil v (hvs v hx)
  obtain ⟨s1, h1, h2⟩ := encodeIndexed_ok hi hv hm vs hvs hs (by simpa using hf)
  rw [List.nil_append] at h2
  have h2p : s1.pos = (vs.flatMap word).length := h2.2.1
  obtain ⟨m, h3, h4⟩ := markStarts_ok c vs hne (inMemory_fits64 c hmem)
  obtain ⟨r, h5, h6⟩ := rank9_ok c h4 (by rw [marksOf_length hne]; exact hmem)
  have hr : RankLaw (Rank9.ops c (bvBitVec c 64)) r (marksOf word vs) := by
    cases h6 with
    | rank9 _ hr => exact hr
  refine ⟨.new r, s1, ?_, fun qs hqs => ?_⟩
  · rw [buildSeq, SM.bind_run_ok h1, SM.bind_run_ok (show positionOf s1 = .ok (.ok s1.pos, s1) from rfl), h2p, List.length_nil, h3,
      SM.lift_ok_bind, h5, SM.lift_ok_bind]
    rfl
  have hitem : ∀ (i : Nat) (s : BitBuf S) (p : Nat), i + 1 < 2 ^ 64 → bufR R s ⟨vs.flatMap word, p⟩ →
      ∃ s' p', fetchItem c K o.toBitVecOps (.new r) i s = .ok (.ok vs[i]?, s') ∧ bufR R s' ⟨vs.flatMap word, p'⟩ := by
    intro i s p hil hb
    obtain ⟨x, g1, g2⟩ := (C44_select_partial c hr hil).1
    have gx : x = (startsFrom word 0 vs)[i]? := (selectPos_eq g2).symm.trans (selectPos_eq (marks_select hne i))
    rw [fetchItem, g1, SM.lift_ok_bind]
    by_cases hl : i < vs.length
    · obtain ⟨s', p', g3, g4⟩ := lookup_ok (l := []) (r := []) hi hv vs hvs (s := s) (p := p) (by simpa using hb) hl
      rw [lookup, List.length_nil, ← gx] at g3
      have gs : x = some (0 + ((vs.take i).flatMap word).length) := by rw [gx, startsFrom_get, if_pos hl]
      subst gs
      rw [expectR_some, SM.lift_ok_bind] at g3
      exact ⟨s', p', g3, by simpa using g4⟩
    · rw [startsFrom_get, if_neg hl] at gx
      subst gx
      rw [List.getElem?_eq_none (by omega)]
      exact ⟨s, p, rfl, hb⟩
  have hone : ∀ (q : SeqReq) (s : BitBuf S) (p : Nat), q.Ok word vs → bufR R s ⟨vs.flatMap word, p⟩ →
      ∃ s' p', fetch c K o.toBitVecOps (.new r) q s = .ok (.ok (seqAnswer word vs q), s') ∧ bufR R s' ⟨vs.flatMap word, p'⟩ := by
    intro q s p hq hb
    cases q with
    | item i =>
      obtain ⟨s', p', g1, g2⟩ := hitem i s p hq hb
      exact ⟨s', p', g1, g2⟩
    | bit n =>
      obtain ⟨us, v, ts, g1, g2, g3, g0⟩ := cover hq
      have hrank : (BinSearchSelect.rankOps (Rank9.ops c (bvBitVec c 64))).rank1 (.new r) n = .ok (us.length + 1) := by
        have g4 := hr.rank1 n (by rw [marksOf_length hne]; exact hq)
        have g5 : ones (marksOf word vs) (n + 1) = us.length + 1 := by
          rw [g1]
          exact marks_rank (by rw [← g1]; exact hne) g2 g3
        rw [g5] at g4
        exact g4
      have hsmall : us.length + 1 < 2 ^ 64 := by
        have g6 := hr.small
        have g7 := marksOf_count word vs
        have g8 := List.count_le_length (a := true) (l := marksOf word vs)
        have g9 := congrArg List.length g1
        rw [List.length_append, List.length_cons] at g9
        omega
      have hsub : subN c 64 (us.length + 1) 1 = .ok us.length := by
        rw [subN, if_pos (by omega)]; rfl
      obtain ⟨s', p', g4, g5⟩ := hitem us.length s p hsmall hb
      refine ⟨s', p', ?_, g5⟩
      rw [fetch, hrank, SM.lift_ok_bind, hsub, SM.lift_ok_bind, g4, seqAnswer, g0, g1]
      simp
  have hall : ∀ (qs : List SeqReq) (s : BitBuf S) (p : Nat), (∀ q ∈ qs, q.Ok word vs) → bufR R s ⟨vs.flatMap word, p⟩ →
      ∃ s2, fetchAll c K o.toBitVecOps (.new r) qs s = .ok (.ok (qs.map (seqAnswer word vs)), s2) := by
    intro qs
    induction qs with
    | nil => intro s p _ _; exact ⟨s, rfl⟩
    | cons q qs ih =>
      intro s p hq hb
      obtain ⟨s1, p1, g1, g3⟩ := hone q s p (hq q List.mem_cons_self) hb
      obtain ⟨s2, g4⟩ := ih s1 p1 (fun x hx => hq x (List.mem_cons_of_mem _ hx)) g3
      exact ⟨s2, by rw [fetchAll, SM.bind_run_ok g1, SM.bind_run_ok g4]; rfl⟩
  exact hall qs s1 _ hqs h2

/-- The γ codes of 5, 1 and 3 take bits 0 to 4, 5, and 6 to 8. -/
example (c : Cfg) : ∃ ix s1, buildSeq c (gamma c) (bvBitVecPush c 64) [5, 1, 3] ⟨⟨0, []⟩, 0⟩ = .ok (.ok ix, s1) ∧
    ∃ s2, fetchAll c (gamma c) (bvBitVec c 64) ix [.item 2, .bit 4, .bit 5, .item 3, .item 0] s1 =
      .ok (.ok [some 3, some 5, some 1, none, some 5], s2) := by
  have hw : [5, 1, 3].flatMap gammaWord = [false, false, true, true, false, true, false, true, true] := by decide
  have h32 := c.le_pow_usz
  obtain ⟨s0, h0, h1⟩ := bvInit_ok c isBlk64 (.new : BvInit 64) trivial
  have e0 : s0 = ⟨0, []⟩ := by
    have : bvInit c (.new : BvInit 64) = .ok ⟨0, []⟩ := by rcases c with ⟨_ | _, _ | _, _ | _⟩ <;> rfl
    rw [this] at h0; cases h0; rfl
  subst e0
  obtain ⟨ix, s1, h2, h3⟩ := C123_sequence c false (C62_gamma_delta c false).1 (bv_pushVec c isBlk64) (fun h hm => h.mono hm)
    (s := ⟨⟨0, []⟩, 0⟩) ⟨h1, rfl, Nat.le_refl _⟩ [5, 1, 3] (by simp [Pos64])
    (by rw [hw]; unfold Fits blocksFor; simp only [List.length_cons, List.length_nil]; constructor <;> omega)
    (by rw [hw]; rcases c with ⟨_ | _, _ | _, _ | _⟩ <;> decide)
  obtain ⟨s2, h4⟩ := h3 [.item 2, .bit 4, .bit 5, .item 3, .item 0] (by
    intro q hq
    simp only [List.mem_cons, List.not_mem_nil, or_false] at hq
    rcases hq with rfl | rfl | rfl | rfl | rfl <;> simp [SeqReq.Ok, hw])
  refine ⟨ix, s1, h2, s2, ?_⟩
  rw [show (bvBitVec c 64) = (bvBitVecPush c 64).toBitVecOps from rfl, h4]
  rfl

/-! Each theorem of this file that has hypotheses is applied to concrete data in `Verif/Instances/Sequence.lean`. -/

end Succinct
