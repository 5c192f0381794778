import Verif.Lemmas.Iter
import Verif.Props.IntVector
/-! Properties C29–C31 (iterators and formatting). -/
namespace Succinct
open Spec

theorem bitItem_eq (x : BitVec w) : bitItem x = decide (x.toNat ≠ 0) := by
  have hx0 : x = 0 ↔ x.toNat = 0 := by
    rw [← BitVec.toNat_inj]
    show x.toNat = 0 % 2 ^ w ↔ _
    rw [Nat.zero_mod]
  unfold bitItem
  rw [Bool.eq_iff_iff, bne_iff_ne, decide_eq_true_iff, ne_eq, ne_eq, hx0]

/-- C29 for `IntVector`: under any sequence of `next`, `next_back` and `nth` the iterator of a reachable
vector returns what a double-ended queue of the elements returns. -/
theorem C29_int_iter (c : Cfg) (h : IsBlk w) {s : IV w} (hr : IvReach c w k s xs) (ops : List ItOp) :
    ∃ os it, itRun c s.iter ops = .ok (os, it) ∧
      os.map (Option.map BitVec.toNat) = (dequeRun xs ops).1 ∧
      (VIter.last c it >>= fun o => Res.ok (o.map BitVec.toNat)) = .ok (dequeRun xs ops).2.getLast? := by
  obtain ⟨h1, h2, -⟩ := iv_iter_base (hr.rep h)
  obtain ⟨os, it, g1, g2, g3, g4, -⟩ := h1.run h ops
  rw [h2] at g2 g4
  refine ⟨os, it, g1, g2, ?_⟩
  obtain ⟨o, it', e1, e2, -⟩ := g3.nextBack_eq h
  unfold VIter.last
  rw [e1, Res.ok_bind]
  show Res.ok (o.map BitVec.toNat) = _
  rw [e2, g4]

/-- C29 for `BitVector`: items are `bit != 0`. -/
theorem C29_bit_iter (c : Cfg) (h : IsBlk w) {s : VB w} (hr : BvReach c w s bits) (ops : List ItOp) :
    ∃ os it, itRun c (BV.iter s) ops = .ok (os, it) ∧
      os.map (Option.map bitItem) = (dequeRun bits ops).1 ∧
      (VIter.last c it >>= fun o => Res.ok (o.map bitItem)) = .ok (dequeRun bits ops).2.getLast? := by
  obtain ⟨h1, h2, -⟩ := bv_iter_base h (hr.rep h)
  obtain ⟨os, it, g1, g2, g3, g4, -⟩ := h1.run h ops
  rw [h2, dequeRun_map] at g2 g4
  have hbit : ∀ (o : Option (BitVec w)) (b : Option Bool), o.map BitVec.toNat = b.map Bool.toNat →
      o.map bitItem = b := by
    intro o b hob
    cases o with
    | none => cases b with
      | none => rfl
      | some b => simp at hob
    | some x => cases b with
      | none => simp at hob
      | some b =>
        have hx : x.toNat = b.toNat := by simpa using hob
        rw [Option.map_some, bitItem_eq, hx]
        cases b <;> rfl
  refine ⟨os, it, g1, ?_, ?_⟩
  · apply List.ext_getElem?
    intro i
    have := congrArg (·[i]?) g2
    simp only [List.getElem?_map] at this ⊢
    rcases h1 : os[i]? with _ | o <;> rcases h2 : (dequeRun bits ops).1[i]? with _ | b <;> rw [h1, h2] at this
    · rfl
    · simp at this
    · simp at this
    · simp only [Option.map_some, Option.some.injEq] at this ⊢
      exact hbit o b this
  · obtain ⟨o, it', e1, e2, -⟩ := g3.nextBack_eq h
    unfold VIter.last
    rw [e1, Res.ok_bind]
    show Res.ok (o.map bitItem) = _
    rw [g4] at e2
    rw [hbit o ((dequeRun bits ops).2.getLast?) (by rw [e2, List.getLast?_map])]

/-- Collecting with `next` alone gives every element once, in order, then `None` forever. -/
theorem C29_collect (c : Cfg) (h : IsBlk w) {s : IV w} (hr : IvReach c w k s xs) (m : Nat) :
    ∃ os it, itRun c s.iter (List.replicate (xs.length + m) .next) = .ok (os, it) ∧
      os.map (Option.map BitVec.toNat) = xs.map some ++ List.replicate m none := by
  obtain ⟨os, it, h1, h2, -⟩ := C29_int_iter c h hr (List.replicate (xs.length + m) .next)
  refine ⟨os, it, h1, h2.trans ?_⟩
  clear h1 h2 hr
  induction xs with
  | nil =>
    simp only [List.length_nil, Nat.zero_add, List.map_nil, List.nil_append]
    induction m with
    | zero => rfl
    | succ m ih => rw [List.replicate_succ]; simp only [dequeRun, deque, List.head?_nil, List.tail_nil, ih]; rfl
  | cons x xs ih =>
    rw [show (x :: xs).length + m = (xs.length + m) + 1 by simp; omega, List.replicate_succ]
    simp only [dequeRun, deque, List.head?_cons, List.tail_cons, ih]; rfl

example : dequeRun [10, 11, 12, 13, 14] [.next, .nextBack, .nth 1, .next, .nextBack] =
    ([some 10, some 14, some 12, some 13, none], []) := by decide

/-- C30, partial: `len`, `count` and `size_hint` are exact at every point of any iteration in which `nth`
never skips past the end, provided the count is a `usize`. Missing: after `nth(n)` with `n` larger than
the number of elements left they panic or are wrong (`C30_nth_past_end`), and on 32-bit targets
`count` is truncated (`C30_count_truncated`). -/
theorem C30_exact_size_partial (c : Cfg) (h : IsBlk w) {s : IV w} (hr : IvReach c w k s xs) (ops : List ItOp)
    (hn : nthInRange xs ops) (hu : xs.length < 2 ^ c.usz) :
    ∃ os it, itRun c s.iter ops = .ok (os, it) ∧
      it.len c = .ok (dequeRun xs ops).2.length ∧ it.count c = .ok (dequeRun xs ops).2.length ∧
      it.sizeHint c = .ok ((dequeRun xs ops).2.length, some (dequeRun xs ops).2.length) := by
  obtain ⟨h1, h2, h3⟩ := iv_iter_base (hr.rep h)
  obtain ⟨os, it, g1, g2, g3, g4, g5⟩ := h1.run h ops
  rw [h2] at g4 g5
  have hle := g5 hn h3
  have hlen : (ItBase.left it xs).length < 2 ^ c.usz := by
    have : (ItBase.left it xs).length ≤ xs.length := by
      unfold ItBase.left; rw [List.length_drop, List.length_take]; omega
    omega
  have e1 := g3.len_ok hle hlen
  have e2 := g3.sizeHint_ok hle hlen
  rw [g4] at e1 e2
  exact ⟨os, it, g1, e1, e1, e2⟩

/-- The same for `BitVector`. -/
theorem C30_exact_size_bits_partial (c : Cfg) (h : IsBlk w) {s : VB w} (hr : BvReach c w s bits) (ops : List ItOp)
    (hn : nthInRange bits ops) (hu : bits.length < 2 ^ c.usz) :
    ∃ os it, itRun c (BV.iter s) ops = .ok (os, it) ∧
      it.len c = .ok (dequeRun bits ops).2.length ∧ it.count c = .ok (dequeRun bits ops).2.length ∧
      it.sizeHint c = .ok ((dequeRun bits ops).2.length, some (dequeRun bits ops).2.length) := by
  obtain ⟨h1, h2, h3⟩ := bv_iter_base h (hr.rep h)
  obtain ⟨os, it, g1, g2, g3, g4, g5⟩ := h1.run h ops
  rw [h2] at g4 g5
  have hn' : ∀ (ops : List ItOp) (bits : List Bool), nthInRange bits ops → nthInRange (bits.map Bool.toNat) ops := by
    intro ops
    induction ops with
    | nil => exact fun _ => id
    | cons op ops ih =>
      intro bits hb
      refine ⟨fun n hn => by rw [List.length_map]; exact hb.1 n hn, ?_⟩
      rw [deque_map]
      exact ih _ hb.2
  have hle := g5 (hn' ops bits hn) h3
  have hlen : (ItBase.left it (bits.map Bool.toNat)).length < 2 ^ c.usz := by
    have : (ItBase.left it (bits.map Bool.toNat)).length ≤ bits.length := by
      unfold ItBase.left; rw [List.length_drop, List.length_take, List.length_map]; omega
    omega
  have e1 := g3.len_ok hle hlen
  have e2 := g3.sizeHint_ok hle hlen
  rw [g4, dequeRun_map, List.length_map] at e1 e2
  exact ⟨os, it, g1, e1, e1, e2⟩

example : nthInRange [1, 2, 3, 4] [.next, .nth 1, .nextBack, .nth 0] := by
  simp [nthInRange, deque]

/-- What `len` and `count` return for positions `lo` and `hi`: the difference, in `u64` arithmetic, cast to
`usize`. -/
def lenAt (c : Cfg) (p : Nat × Nat) : Res Nat :=
  if p.1 ≤ p.2 then .ok ((p.2 - p.1) % 2 ^ c.usz)
  else if c.debug then .panic else .ok ((2 ^ 64 + p.2 - p.1) % 2 ^ c.usz)

/-- What `size_hint` returns for positions `lo` and `hi`. -/
def sizeHintAt (c : Cfg) (p : Nat × Nat) : Res (Nat × Option Nat) :=
  if p.1 ≤ p.2 then .ok (if p.2 - p.1 < 2 ^ c.usz then (p.2 - p.1, some (p.2 - p.1)) else (0, none))
  else if c.debug then .panic
  else .ok (if 2 ^ 64 + p.2 - p.1 < 2 ^ c.usz then (2 ^ 64 + p.2 - p.1, some (2 ^ 64 + p.2 - p.1)) else (0, none))

theorem ItBase.len_exact (h : ItBase c w k it all) (hb : IsBlk w) :
    it.len c = lenAt c (it.start, it.limit) ∧ it.sizeHint c = sizeHintAt c (it.start, it.limit) := by
  have h1 := h.start
  have h2 := h.limit
  have h3 := h.len_lt hb
  have h4 : it.len c = lenAt c (it.start, it.limit) := by
    unfold VIter.len lenAt asUsize
    by_cases hs : it.start ≤ it.limit
    · rw [subN_ok hs, if_pos hs]; rfl
    · rw [if_neg hs]
      unfold subN overflow
      rw [if_neg hs]
      cases c.debug
      · rw [if_neg (by simp), if_neg (by simp), Res.ok_bind, Nat.mod_eq_of_lt (a := it.limit + 2 ^ 64 - it.start) (by omega),
          Nat.add_comm it.limit]
      · rfl
  refine ⟨h4, ?_⟩
  unfold VIter.sizeHint
  split
  · next hp =>
    have hu : c.usz = 32 := by rw [Cfg.usz, hp]
    unfold sizeHintAt
    by_cases hs : it.start ≤ it.limit
    · rw [subN_ok hs, if_pos hs, Res.ok_bind, toUsize]
      by_cases hf : it.limit - it.start < 2 ^ c.usz
      · rw [if_pos hf, if_pos hf]
      · rw [if_neg hf, if_neg hf]
    · rw [if_neg hs]
      unfold subN overflow
      rw [if_neg hs]
      cases c.debug
      · rw [if_neg (by simp), if_neg (by simp), Res.ok_bind, Nat.mod_eq_of_lt (a := it.limit + 2 ^ 64 - it.start) (by omega),
          Nat.add_comm it.limit, toUsize]
        by_cases hf : 2 ^ 64 + it.limit - it.start < 2 ^ c.usz
        · rw [if_pos hf, if_pos hf]
        · rw [if_neg hf, if_neg hf]
      · rfl
  · next hp =>
    have hu : c.usz = 64 := by rw [Cfg.usz, hp]
    rw [h4]
    unfold lenAt sizeHintAt
    rw [hu]
    simp only
    split
    · rw [if_pos (by omega), Nat.mod_eq_of_lt (by omega)]; rfl
    · split
      · rfl
      · rw [if_pos (by omega), Nat.mod_eq_of_lt (by omega)]; rfl

/-- C30, exactly: after any sequence of calls, however far `nth` skips, `len`, `count` and `size_hint` are
determined by the two positions of the iterator as `lenAt` and `sizeHintAt` say. In particular they are
wrong, or panic, in exactly the cases named in `C30_exact_size_partial`: the positions have crossed, or the
number of elements left is not a `usize` (and then `size_hint` is still right). -/
theorem C30_exact (c : Cfg) (h : IsBlk w) {s : IV w} (hr : IvReach c w k s xs) (ops : List ItOp) :
    ∃ os it, itRun c s.iter ops = .ok (os, it) ∧
      it.len c = lenAt c (ops.foldl cursor (0, xs.length)) ∧ it.count c = lenAt c (ops.foldl cursor (0, xs.length)) ∧
      it.sizeHint c = sizeHintAt c (ops.foldl cursor (0, xs.length)) := by
  obtain ⟨h1, -, -⟩ := iv_iter_base (hr.rep h)
  obtain ⟨os, it, g1, -, g3, -⟩ := h1.run h ops
  have e := h1.run_cursor h ops g1
  rw [show s.iter.start = 0 from rfl, show s.iter.limit = xs.length from (hr.rep h).len] at e
  obtain ⟨e1, e2⟩ := g3.len_exact h
  rw [e] at e1 e2
  exact ⟨os, it, g1, e1, e1, e2⟩

/-- The same for `BitVector`. -/
theorem C30_exact_bits (c : Cfg) (h : IsBlk w) {s : VB w} (hr : BvReach c w s bits) (ops : List ItOp) :
    ∃ os it, itRun c (BV.iter s) ops = .ok (os, it) ∧
      it.len c = lenAt c (ops.foldl cursor (0, bits.length)) ∧ it.count c = lenAt c (ops.foldl cursor (0, bits.length)) ∧
      it.sizeHint c = sizeHintAt c (ops.foldl cursor (0, bits.length)) := by
  obtain ⟨h1, -, -⟩ := bv_iter_base h (hr.rep h)
  obtain ⟨os, it, g1, -, g3, -⟩ := h1.run h ops
  have e := h1.run_cursor h ops g1
  have hl : s.len = bits.length := by simpa using (hr.rep h).len
  rw [show (BV.iter s).start = 0 from rfl, show (BV.iter s).limit = s.len from rfl, hl] at e
  obtain ⟨e1, e2⟩ := g3.len_exact h
  rw [e] at e1 e2
  exact ⟨os, it, g1, e1, e1, e2⟩

example : lenAt ⟨false, .p64, false⟩ ([ItOp.next, .nextBack, .nth 5].foldl cursor (0, 5)) = .ok (2 ^ 64 - 2) ∧
    lenAt ⟨true, .p64, true⟩ ([ItOp.next, .nextBack, .nth 1].foldl cursor (0, 5)) = .ok 1 := by decide

/-- C30 counterexample: after `nth(5)` on a 3-element iterator, `len()` panics with overflow checks and
returns 2^64 - 2 without. -/
theorem C30_nth_past_end :
    let s : IV 8 := ⟨4, ⟨3, [0x21#8, 0x03#8]⟩⟩
    (∃ it, itRun ⟨true, .p64, true⟩ s.iter [.nth 5] = .ok ([none], it) ∧ it.len ⟨true, .p64, true⟩ = .panic ∧
      it.sizeHint ⟨true, .p64, true⟩ = .panic) ∧
    (∃ it, itRun ⟨false, .p64, false⟩ s.iter [.nth 5] = .ok ([none], it) ∧ it.len ⟨false, .p64, false⟩ = .ok (2 ^ 64 - 2)) :=
  ⟨⟨⟨5, 3, 4, ⟨3, [0x21#8, 0x03#8]⟩⟩, by decide⟩, ⟨⟨5, 3, 4, ⟨3, [0x21#8, 0x03#8]⟩⟩, by decide⟩⟩

/-- C30 counterexample: on a 32-bit target a `BitVector` of 2^32 bits (512 MiB) has `iter().count() = 0`
(and `size_hint() = (0, None)`). -/
theorem C30_count_truncated (d a : Bool) : ∃ s : VB 8, BV.withFill ⟨d, .p32, a⟩ 8 (2 ^ 32) true = .ok s ∧
    BvReach ⟨d, .p32, a⟩ 8 s (List.replicate (2 ^ 32) true) ∧
    (BV.iter s).count ⟨d, .p32, a⟩ = .ok 0 ∧ (BV.iter s).sizeHint ⟨d, .p32, a⟩ = .ok (0, none) := by
  have hb : IsBlk 8 := isBlk8
  obtain ⟨s, hs, hr⟩ := (C17_fill (w := 8) ⟨d, .p32, a⟩ hb).1 (2 ^ 32) true (by cases d <;> cases a <;> decide)
  have hl : s.len = 2 ^ 32 := by
    have := (hr.rep hb).len
    rwa [Nat.mul_one, List.length_replicate] at this
  refine ⟨s, hs, hr, ?_, ?_⟩
  · show (do let n ← subN ⟨d, .p32, a⟩ 64 s.len 0; Res.ok (asUsize ⟨d, .p32, a⟩ n)) = _
    rw [hl]
    cases d <;> cases a <;> decide
  · show (do let n ← subN ⟨d, .p32, a⟩ 64 s.len 0; match toUsize ⟨d, .p32, a⟩ n with
      | some len => Res.ok (len, some len)
      | none => .ok (0, none)) = _
    rw [hl]
    cases d <;> cases a <;> decide

theorem iv_fmtDebug (c : Cfg) (h : IsBlk w) {s : IV w} (hR : IR c w k s xs) :
    IV.fmtDebug c s = .ok ("IntVector { element_bits: " ++ Nat.repr k ++ ", elements: { " ++
      String.join (xs.map fun x => Nat.repr x ++ ", ") ++ "} }") := by
  obtain ⟨h1, h2, -⟩ := iv_iter_base hR
  unfold IV.fmtDebug
  simp only
  rw [h1.forEach h (fun out n => out ++ (Nat.repr n ++ ", ")) _ _ (fun a x => rfl), h2, hR.eb, Res.ok_bind]
  have key : ∀ (xs : List Nat) (acc : String),
      xs.foldl (fun out n => out ++ (Nat.repr n ++ ", ")) acc = acc ++ String.join (xs.map fun x => Nat.repr x ++ ", ") := by
    intro xs
    induction xs with
    | nil => intro acc; simp
    | cons x xs ih => intro acc; rw [List.foldl_cons, ih]; simp [String.append_assoc]
  rw [key]

/-- C31. Formatting. -/
theorem C31_binary (c : Cfg) (h : IsBlk w) {s : VB w} (hr : BvReach c w s bits) :
    BV.fmtBinary c s = .ok (String.ofList (bits.map fun b => if b then '1' else '0')) := by
  obtain ⟨h1, h2, -⟩ := bv_iter_base h (hr.rep h)
  unfold BV.fmtBinary
  rw [h1.forEach h (fun out n => out ++ if n = 0 then "0" else "1") "" _ (fun a x => ?_), h2]
  · have key : ∀ (bits : List Bool) (acc : String),
        (bits.map Bool.toNat).foldl (fun out n => out ++ if n = 0 then "0" else "1") acc =
          acc ++ String.ofList (bits.map fun b => if b then '1' else '0') := by
      intro bits
      induction bits with
      | nil => intro acc; simp
      | cons b bits ih =>
        intro acc
        rw [List.map_cons, List.foldl_cons, ih, List.map_cons]
        cases b <;> simp [String.append_assoc, String.ofList_cons] <;> rfl
    rw [key]; simp
  · rw [bitItem_eq]
    by_cases hx : x.toNat = 0 <;> simp [hx]

theorem C31_debug (c : Cfg) (h : IsBlk w) {s : IV w} (hr : IvReach c w k s xs) :
    IV.fmtDebug c s = .ok ("IntVector { element_bits: " ++ Nat.repr k ++ ", elements: { " ++
      String.join (xs.map fun x => Nat.repr x ++ ", ") ++ "} }") := iv_fmtDebug c h (hr.rep h)

/-! Each theorem of this file that has hypotheses is applied to concrete data in `Verif/Instances/Iter.lean`. -/

end Succinct
