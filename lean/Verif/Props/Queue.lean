import Verif.Props.IntVecTrait
/-! Property C186: a queue in an integer vector whose elements are used in a circle. The programs here are not in the crate; they call the methods
of `IntVec` and `IntVecMut` and `IntVector::with_fill`. -/
namespace Succinct
open Spec

/-- What a user does: puts a number at the end, or takes the first. -/
inductive RingOp where
  | push (x : Nat)
  | pop
deriving DecidableEq

/-- What the user gets: whether there was room, or the first number if there was one. -/
inductive RingAns where
  | room (b : Bool)
  | first (x : Option Nat)
deriving DecidableEq

/-- The answers a user is to get of a queue with room for `n` numbers, with these in it at first. -/
def Spec.ringAns (n : Nat) : List RingOp → List Nat → List RingAns
  | [], _ => []
  | .push x :: ops, q => if q.length < n then .room true :: ringAns n ops (q ++ [x]) else .room false :: ringAns n ops q
  | .pop :: ops, q => .first q.head? :: ringAns n ops q.tail

/-- The vector, the place of the first number, and how many there are. -/
structure Ring (S : Type) where
  vec : S
  head : Nat
  count : Nat
deriving DecidableEq

section
variable {w : Nat} {S : Type} (c : Cfg) (o : IntVecMutOps w S)

/-- `let n = v.len(); if count < n { let room = n - count;
let p = if head < room { head + count } else { head - room }; v.set(p, x); count += 1; true } else { false }` -/
def Ring.push (q : Ring S) (x : BitVec w) : Res (Bool × Ring S) := do
  let n ← o.len q.vec
  if q.count < n then do
    let room ← subN c 64 n q.count
    let k ← addN c 64 q.count 1
    if q.head < room then do
      let p ← addN c 64 q.head q.count
      let v ← o.set q.vec p x
      .ok (true, ⟨v, q.head, k⟩)
    else do
      let p ← subN c 64 q.head room
      let v ← o.set q.vec p x
      .ok (true, ⟨v, q.head, k⟩)
  else .ok (false, q)

/-- `if count > 0 { let x = v.get(head); head += 1; if head == v.len() { head = 0 } count -= 1; Some(x) } else { None }` -/
def Ring.pop (q : Ring S) : Res (Option (BitVec w) × Ring S) :=
  if 0 < q.count then do
    let x ← o.get q.vec q.head
    let h ← addN c 64 q.head 1
    let n ← o.len q.vec
    let k ← subN c 64 q.count 1
    .ok (some x, ⟨q.vec, if h = n then 0 else h, k⟩)
  else .ok (none, q)

/-- The calls of a user, and the answers. -/
def Ring.run : List RingOp → Ring S → Res (List RingAns × Ring S)
  | [], q => .ok ([], q)
  | .push x :: ops, q => do
    let (b, q) ← q.push c o (BitVec.ofNat w x)
    let (as, q) ← Ring.run ops q
    .ok (.room b :: as, q)
  | .pop :: ops, q => do
    let (x, q) ← q.pop c o
    let (as, q) ← Ring.run ops q
    .ok (.first (x.map BitVec.toNat) :: as, q)
end

/-- The place `i` after `head` in a circle of `n`. -/
def Spec.around (n head i : Nat) : Nat := if head + i < n then head + i else head + i - n

/-- The elements `xs` hold these numbers, from place `head` on around. -/
structure Spec.HoldsRing (xs : List Nat) (head : Nat) (ns : List Nat) : Prop where
  le : ns.length ≤ xs.length
  place : 0 < xs.length → head < xs.length
  num : ∀ i, i < ns.length → xs[around xs.length head i]? = ns[i]?

variable {w k : Nat} {S : Type} {c : Cfg} {o : IntVecMutOps w S} {R : S → List Nat → Prop}

/-- C186: a number is put at the end exactly if there is room. -/
theorem C186_push (h : IntVecLaw o k R) {q : Ring S} {xs ns : List Nat} (r : R q.vec xs) (hq : HoldsRing xs q.head ns) (hc : q.count = ns.length)
    {x : BitVec w} (hx : x.toNat < 2 ^ k) :
    ∃ q' xs', q.push c o x = .ok (decide (ns.length < xs.length), q') ∧ R q'.vec xs' ∧ xs'.length = xs.length ∧
      HoldsRing xs' q'.head (if ns.length < xs.length then ns ++ [x.toNat] else ns) ∧
      q'.count = (if ns.length < xs.length then ns ++ [x.toNat] else ns).length := by
  have h64 := h.addressable r
  rw [Ring.push, h.len r, Res.ok_bind, hc]
  by_cases room : ns.length < xs.length
  · have hh := hq.place (by omega)
    have done : ∀ p, p = around xs.length q.head ns.length → ∃ v, o.set q.vec p x = .ok v ∧ R v (xs.set p x.toNat) ∧
        HoldsRing (xs.set p x.toNat) q.head (ns ++ [x.toNat]) := by
      intro p hp
      have hlt : p < xs.length := by rw [hp, around]; split <;> omega
      obtain ⟨v, e, rv⟩ := h.set r p x hlt hx
      refine ⟨v, e, rv, ⟨by simp; omega, by simpa using hq.place, fun i hi => ?_⟩⟩
      rw [List.length_append, List.length_singleton] at hi
      rw [List.length_set, List.getElem?_set]
      by_cases hi' : i < ns.length
      · have : p ≠ around xs.length q.head i := by
          rw [hp, around, around]
          split <;> split <;> omega
        rw [if_neg this, List.getElem?_append_left hi']
        exact hq.num i hi'
      · obtain rfl : i = ns.length := by omega
        rw [if_pos hp, if_pos hlt, List.getElem?_append_right (Nat.le_refl _), Nat.sub_self]
        rfl
    rw [if_pos room, subN_ok (by omega), Res.ok_bind, addN_ok (by omega), Res.ok_bind, decide_eq_true room, if_pos room]
    by_cases a : q.head < xs.length - ns.length
    · obtain ⟨v, e, rv, hv⟩ := done (q.head + ns.length) (by rw [around, if_pos (by omega)])
      rw [if_pos a, addN_ok (by omega), Res.ok_bind, e, Res.ok_bind]
      exact ⟨_, _, rfl, rv, by simp, hv, by simp⟩
    · obtain ⟨v, e, rv, hv⟩ := done (q.head - (xs.length - ns.length)) (by rw [around, if_neg (by omega)]; omega)
      rw [if_neg a, subN_ok (by omega), Res.ok_bind, e, Res.ok_bind]
      exact ⟨_, _, rfl, rv, by simp, hv, by simp⟩
  · rw [if_neg room, if_neg room, decide_eq_false room]
    exact ⟨q, xs, rfl, r, rfl, hq, hc⟩

/-- C186: the first number is taken, if there is one. -/
theorem C186_pop (h : IntVecLaw o k R) {q : Ring S} {xs ns : List Nat} (r : R q.vec xs) (hq : HoldsRing xs q.head ns) (hc : q.count = ns.length) :
    ∃ x q', q.pop c o = .ok (x, q') ∧ x.map BitVec.toNat = ns.head? ∧ q'.vec = q.vec ∧ HoldsRing xs q'.head ns.tail ∧ q'.count = ns.tail.length := by
  have h64 := h.addressable r
  rw [Ring.pop, hc]
  cases ns with
  | nil => exact ⟨none, q, rfl, rfl, rfl, hq, hc⟩
  | cons a ns =>
    have hle := hq.le
    rw [List.length_cons] at hle
    have hh := hq.place (by omega)
    obtain ⟨x, e, u⟩ := h.get r q.head hh
    have h0 := hq.num 0 (by simp)
    rw [around, Nat.add_zero, if_pos hh, List.getElem?_eq_getElem hh, ← u, List.getElem?_cons_zero, Option.some.injEq] at h0
    rw [List.length_cons, if_pos (by omega), e, Res.ok_bind, addN_ok (by omega), Res.ok_bind, h.len r, Res.ok_bind, subN_ok (by omega), Res.ok_bind]
    refine ⟨some x, _, rfl, by simp [h0], rfl, ⟨by simp; omega, fun _ => ?_, fun i hi => ?_⟩, by simp⟩
    · show (if q.head + 1 = xs.length then 0 else q.head + 1) < xs.length
      split <;> omega
    · have := hq.num (i + 1) (by simpa using hi)
      rw [List.getElem?_cons_succ] at this
      rw [List.tail_cons] at hi ⊢
      rw [← this]
      show xs[around xs.length (if q.head + 1 = xs.length then 0 else q.head + 1) i]? = _
      congr 1
      rw [around, around]
      split <;> split <;> split <;> omega

/-- The numbers can be kept. -/
def RingOp.Below (k : Nat) : RingOp → Prop
  | .push x => x < 2 ^ k
  | .pop => True

/-- C186: every sequence of calls gets the answers of a queue. -/
theorem C186_calls (h : IntVecLaw o k R) (hk : k ≤ w) (ops : List RingOp) (hops : ∀ op ∈ ops, op.Below k) {q : Ring S} {xs ns : List Nat} (r : R q.vec xs)
    (hq : HoldsRing xs q.head ns) (hc : q.count = ns.length) :
    ∃ q', Ring.run c o ops q = .ok (ringAns xs.length ops ns, q') := by
  induction ops generalizing q xs ns with
  | nil => exact ⟨q, rfl⟩
  | cons op ops ih =>
    have hops' := fun op h => hops op (List.mem_cons_of_mem _ h)
    cases op with
    | push x =>
      have hx : x < 2 ^ k := hops (.push x) (by simp)
      have hx' : (BitVec.ofNat w x).toNat = x := by
        rw [BitVec.toNat_ofNat, Nat.mod_eq_of_lt (Nat.lt_of_lt_of_le hx (Nat.pow_le_pow_right (by decide) hk))]
      obtain ⟨q1, xs1, e1, r1, l1, h1, c1⟩ := C186_push (c := c) h r hq hc (x := BitVec.ofNat w x) (by rwa [hx'])
      obtain ⟨q', e'⟩ := ih hops' r1 h1 c1
      refine ⟨q', ?_⟩
      rw [Ring.run, e1]
      show (Ring.run c o ops q1).bind _ = _
      rw [e', l1, hx', ringAns]
      by_cases room : ns.length < xs.length
      · rw [if_pos room, if_pos room, decide_eq_true room]
        rfl
      · rw [if_neg room, if_neg room, decide_eq_false room]
        rfl
    | pop =>
      obtain ⟨x, q1, e1, hx, v1, h1, c1⟩ := C186_pop (c := c) h r hq hc
      obtain ⟨q', e'⟩ := ih hops' (v1 ▸ r) h1 c1
      refine ⟨q', ?_⟩
      rw [Ring.run, e1]
      show (Ring.run c o ops q1).bind _ = _
      rw [e', ringAns, ← hx]
      rfl

/-- C186: a new `IntVector` serves as an empty queue. -/
theorem C186_new (c : Cfg) (hw : IsBlk w) (h1 : 1 ≤ k) (hk : k ≤ w) {n : Nat} (hf : Fits c.usz w (n * k)) (ops : List RingOp)
    (hops : ∀ op ∈ ops, op.Below k) :
    ∃ v q', IV.withFill c k n (0 : BitVec w) = .ok v ∧ Ring.run c (ivIntVec c w) ops ⟨v, 0, 0⟩ = .ok (ringAns n ops [], q') := by
  obtain ⟨v, e, hv⟩ := ivInit_ok c hw h1 hk (.withFill n 0) hf
  have hv : IR c w k v (List.replicate n 0) := by simpa [IvInit.elems] using hv
  obtain ⟨q', e'⟩ := C186_calls (c := c) (C166_int_vector c hw k) hk ops hops (q := ⟨v, 0, 0⟩) (ns := []) (hv.reach hw)
    ⟨Nat.zero_le _, id, fun i hi => by simp at hi⟩ rfl
  exact ⟨v, q', e, by rwa [List.length_replicate] at e'⟩

/-! Each theorem of this file that has hypotheses is applied to concrete data in `Verif/Instances/Queue.lean`. -/

end Succinct
