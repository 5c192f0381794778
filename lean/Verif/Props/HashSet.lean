import Verif.Props.IntVecTrait
import Verif.Lemmas.Slice
/-! Property C178: a set kept by a hash function in a bit vector and an integer vector. The programs here are not in the crate; they call the
methods of `BitVec`, `BitVecMut`, `IntVec` and `IntVecMut`. -/
namespace Succinct
open Spec

/-- What a user does: puts a number into the set, or asks whether it is in it. -/
inductive HashOp where
  | insert (x : Nat)
  | has (x : Nat)

def HashOp.key : HashOp → Nat
  | .insert x => x
  | .has x => x

/-- What a user is to be answered, with room for `n` numbers and these in the set at first: whether the number is new, unless there is no room;
whether it is there. -/
def Spec.hashAnswers (n : Nat) : List HashOp → List Nat → List (Option Bool)
  | [], _ => []
  | .insert x :: ops, l =>
    if x ∈ l then some false :: hashAnswers n ops l
    else if l.length < n then some true :: hashAnswers n ops (x :: l)
    else none :: hashAnswers n ops l
  | .has x :: ops, l => some (decide (x ∈ l)) :: hashAnswers n ops l

section
variable {u w : Nat} {T S : Type} (c : Cfg) (ob : BitVecMutOps u T) (o : IntVecMutOps w S) (hash : BitVec w → Nat)

/-- `while j < n { if !used.get_bit(p) { return Some((p, false)) } if keys.get(p) == x { return Some((p, true)) } p += 1; if p == n { p = 0 } j += 1 } None` -/
def hashProbe (n : Nat) (t : T) (s : S) (x : BitVec w) (p j : Nat) : Res (Option (Nat × Bool)) :=
  if j < n then do
    let b ← ob.getBit t p
    if b then do
      let y ← o.get s p
      if y = x then .ok (some (p, true))
      else do
        let p ← addN c 64 p 1
        let j ← addN c 64 j 1
        hashProbe n t s x (if p = n then 0 else p) j
    else .ok (some (p, false))
  else .ok none
partial_fixpoint

/-- Beginning at `hash(x) % keys.len()`. -/
def hashFind (t : T) (s : S) (x : BitVec w) : Res (Option (Nat × Bool)) := do
  let n ← o.len s
  let p ← remN (hash x) n
  hashProbe c ob o n t s x p 0

/-- `match find(x) { None => None, Some((_, true)) => Some(false), Some((p, false)) => { used.set_bit(p, true); keys.set(p, x); Some(true) } }` -/
def hashInsert (st : T × S) (x : BitVec w) : Res (Option Bool × T × S) := do
  let r ← hashFind c ob o hash st.1 st.2 x
  match r with
  | none => .ok (none, st)
  | some (_, true) => .ok (some false, st)
  | some (p, false) => do
    let t ← ob.setBit st.1 p true
    let s ← o.set st.2 p x
    .ok (some true, t, s)

/-- `match find(x) { Some((_, true)) => true, _ => false }` -/
def hashHas (st : T × S) (x : BitVec w) : Res Bool := do
  let r ← hashFind c ob o hash st.1 st.2 x
  .ok (match r with | some (_, true) => true | _ => false)

/-- The calls of a user, and the answers. -/
def hashRun : List HashOp → T × S → Res (List (Option Bool) × T × S)
  | [], st => .ok ([], st)
  | .insert x :: ops, st => do
    let (a, st) ← hashInsert c ob o hash st (BitVec.ofNat w x)
    let (as, st) ← hashRun ops st
    .ok (a :: as, st)
  | .has x :: ops, st => do
    let a ← hashHas c ob o hash st (BitVec.ofNat w x)
    let (as, st) ← hashRun ops st
    .ok (some a :: as, st)
end

/-- The places whose bit is set hold the numbers of `l`, each once; from the first place of a number on, up to where it is, every place is used by
another number. -/
structure HoldsSet (hash : Nat → Nat) (n : Nat) (bs : List Bool) (ks l : List Nat) : Prop where
  bits : bs.length = n
  keys : ks.length = n
  count : bs.count true = l.length
  mem : ∀ x, x ∈ l ↔ ∃ q : Nat, bs[q]? = some true ∧ ks[q]? = some x
  path : ∀ (q : Nat) x, bs[q]? = some true → ks[q]? = some x → ∃ j < n, q = (hash x + j) % n ∧
    ∀ i < j, bs[(hash x + i) % n]? = some true ∧ ks[(hash x + i) % n]? ≠ some x

theorem next_place {n h j p : Nat} (hn : 0 < n) (hp : p = (h + j) % n) : (if p + 1 = n then 0 else p + 1) = (h + (j + 1)) % n := by
  have : p < n := hp ▸ Nat.mod_lt _ hn
  rw [← Nat.add_assoc, Nat.add_mod (h + j) 1 n, ← hp]
  by_cases e : p + 1 = n
  · rw [if_pos e]
    rcases Nat.lt_or_ge 1 n with h1 | h1
    · rw [Nat.mod_eq_of_lt h1, e, Nat.mod_self]
    · obtain rfl : n = 1 := by omega
      rw [Nat.mod_one]
  · rw [if_neg e, Nat.mod_eq_of_lt (by omega : 1 < n), Nat.mod_eq_of_lt (by omega)]

theorem count_true_set {bs : List Bool} {p : Nat} (hp : p < bs.length) (h : bs[p]? = some false) : (bs.set p true).count true = bs.count true + 1 := by
  rw [List.getElem?_eq_getElem hp, Option.some.injEq] at h
  rw [List.count_set hp, h]
  simp

variable {u w k : Nat} {T S : Type} {c : Cfg} {ob : BitVecMutOps u T} {o : IntVecMutOps w S} {Rb : T → List Bool → Prop} {R : S → List Nat → Prop}

/-- What looking for `x` can find. -/
def Found (hash : Nat → Nat) (n : Nat) (bs : List Bool) (ks : List Nat) (x : Nat) : Option (Nat × Bool) → Prop
  | none => ∀ i < n, bs[(hash x + i) % n]? = some true ∧ ks[(hash x + i) % n]? ≠ some x
  | some (p, true) => bs[p]? = some true ∧ ks[p]? = some x
  | some (p, false) => bs[p]? = some false ∧ ∃ j < n, p = (hash x + j) % n ∧
      ∀ i < j, bs[(hash x + i) % n]? = some true ∧ ks[(hash x + i) % n]? ≠ some x

theorem hashProbe_ok (hb : BVLaw c ob.toBitVecOps Rb) (h : IntVecLaw o k R) {t : T} {s : S} {bs : List Bool} {ks : List Nat} (ht : Rb t bs) (hs : R s ks)
    {n : Nat} (hn : 0 < n) (hbl : bs.length = n) (hkl : ks.length = n) (hash : Nat → Nat) (x : BitVec w) {p j : Nat} (hp : p = (hash x.toNat + j) % n)
    (hi : ∀ i < j, bs[(hash x.toNat + i) % n]? = some true ∧ ks[(hash x.toNat + i) % n]? ≠ some x.toNat) (hj : j ≤ n) :
    ∃ r, hashProbe c ob o n t s x p j = .ok r ∧ Found hash n bs ks x.toNat r := by
  have ha := h.addressable hs
  generalize hm : n - j = m
  induction m generalizing p j with
  | zero =>
    obtain rfl : j = n := by omega
    refine ⟨none, ?_, hi⟩
    rw [hashProbe, if_neg (by omega)]
  | succ m ih =>
    have hpn : p < n := hp ▸ Nat.mod_lt _ hn
    have e1 : ob.getBit t p = .ok bs[p] := by
      rw [hb.getBit ht p (by omega), List.getElem?_eq_getElem (by omega)]
      rfl
    rw [hashProbe, if_pos (by omega), e1, Res.ok_bind]
    by_cases hbp : bs[p] = true
    · obtain ⟨y, e2, hy⟩ := h.get hs p (by omega)
      rw [if_pos hbp, e2, Res.ok_bind]
      by_cases hyx : y = x
      · rw [if_pos hyx]
        refine ⟨_, rfl, ?_, ?_⟩
        · rw [List.getElem?_eq_getElem (by omega), hbp]
        · rw [List.getElem?_eq_getElem (by omega), ← hy, hyx]
      · rw [if_neg hyx, addN_ok (by omega), Res.ok_bind, addN_ok (by omega), Res.ok_bind, next_place hn hp]
        refine ih rfl (fun i hij => ?_) (by omega) (by omega)
        rcases Nat.lt_or_ge i j with q | q
        · exact hi i q
        · obtain rfl : i = j := by omega
          rw [← hp, List.getElem?_eq_getElem (by omega), List.getElem?_eq_getElem (by omega), hbp, ← hy]
          exact ⟨rfl, fun e => hyx (BitVec.eq_of_toNat_eq (Option.some.inj e))⟩
    · rw [if_neg hbp]
      refine ⟨_, rfl, ?_, j, by omega, hp, hi⟩
      rw [List.getElem?_eq_getElem (by omega)]
      simpa using hbp

theorem Found.mem {hash : Nat → Nat} {n : Nat} {bs : List Bool} {ks l : List Nat} (hH : HoldsSet hash n bs ks l) {x : Nat} {r : Option (Nat × Bool)}
    (h : Found hash n bs ks x r) : x ∈ l ↔ ∃ p, r = some (p, true) := by
  rw [hH.mem]
  rcases r with _ | ⟨p, _ | _⟩
  · simp only [reduceCtorEq, exists_false, iff_false]
    rintro ⟨q, h1, h2⟩
    obtain ⟨j, hj, rfl, -⟩ := hH.path q x h1 h2
    exact (h j hj).2 h2
  · simp only [Option.some.injEq, Prod.mk.injEq, Bool.false_eq_true, and_false, exists_false, iff_false]
    obtain ⟨h1, j, hj, rfl, h3⟩ := h
    rintro ⟨q, h4, h5⟩
    obtain ⟨i, hi, rfl, h6⟩ := hH.path q x h4 h5
    rcases Nat.lt_trichotomy i j with a | a | a
    · exact (h3 i a).2 h5
    · rw [a, h1] at h4
      cases h4
    · have := (h6 j a).1
      rw [h1] at this
      cases this
  · exact ⟨fun _ => ⟨p, rfl⟩, fun _ => ⟨p, h⟩⟩

theorem Found.full {hash : Nat → Nat} {n : Nat} {bs : List Bool} {ks l : List Nat} (hH : HoldsSet hash n bs ks l) {x : Nat}
    (h : Found hash n bs ks x none) : l.length = n := by
  rw [← hH.count, ← hH.bits, List.count_eq_length]
  intro b hb
  obtain ⟨q, hq, rfl⟩ := List.mem_iff_getElem.1 hb
  have hqn : q < n := hH.bits ▸ hq
  -- the place is reached after (q - hash x) mod n steps
  have hh := Nat.mod_lt (hash x) (show 0 < n by omega)
  have hd := Nat.mod_add_div (hash x) n
  have e : (hash x + (q + n - hash x % n) % n) % n = q := by
    rw [Nat.add_mod_mod, show hash x + (q + n - hash x % n) = q + n * (hash x / n + 1) by rw [Nat.mul_add, Nat.mul_one]; omega, Nat.add_mul_mod_self_left,
      Nat.mod_eq_of_lt hqn]
  have := (h ((q + n - hash x % n) % n) (Nat.mod_lt _ (by omega))).1
  rw [e, List.getElem?_eq_getElem hq, Option.some.injEq] at this
  exact this.symm

theorem Found.free {hash : Nat → Nat} {n : Nat} {bs : List Bool} {ks l : List Nat} (hH : HoldsSet hash n bs ks l) {x p : Nat}
    (h : Found hash n bs ks x (some (p, false))) : p < n ∧ l.length < n ∧ HoldsSet hash n (bs.set p true) (ks.set p x) (x :: l) := by
  obtain ⟨h1, j, hj, rfl, h3⟩ := h
  generalize hp : (hash x + j) % n = p at *
  have hpb : p < bs.length := by
    rcases Nat.lt_or_ge p bs.length with a | a
    · exact a
    · rw [List.getElem?_eq_none a] at h1
      cases h1
  have hpk : p < ks.length := by rw [hH.keys, ← hH.bits]; exact hpb
  have hc := count_true_set hpb h1
  have hle : (bs.set p true).count true ≤ (bs.set p true).length := List.count_le_length
  rw [List.length_set, hH.bits, hc, hH.count] at hle
  have hne : ∀ q : Nat, bs[q]? = some true → p ≠ q := by
    rintro q a rfl
    rw [h1] at a
    cases a
  refine ⟨hH.bits ▸ hpb, hle, by simp [hH.bits], by simp [hH.keys], by rw [hc, hH.count]; rfl, fun y => ?_, fun q y hq hy => ?_⟩
  · rw [List.mem_cons, hH.mem]
    constructor
    · rintro (rfl | ⟨q, a, b⟩)
      · exact ⟨p, by simp [hpb], by simp [hpk]⟩
      · exact ⟨q, by rw [List.getElem?_set_ne (hne q a), a], by rw [List.getElem?_set_ne (hne q a), b]⟩
    · rintro ⟨q, a, b⟩
      by_cases e : p = q
      · subst e
        left
        simpa [hpk] using b.symm
      · rw [List.getElem?_set_ne e] at a b
        exact .inr ⟨q, a, b⟩
  · by_cases e : p = q
    · subst e
      obtain rfl : x = y := by simpa [hpk] using hy
      refine ⟨j, hj, hp.symm, fun i hi => ?_⟩
      have := h3 i hi
      rw [List.getElem?_set_ne (hne _ this.1), List.getElem?_set_ne (hne _ this.1)]
      exact this
    · rw [List.getElem?_set_ne e] at hq hy
      obtain ⟨i, hi, e1, h4⟩ := hH.path q y hq hy
      refine ⟨i, hi, e1, fun m hm => ?_⟩
      have := h4 m hm
      rw [List.getElem?_set_ne (hne _ this.1), List.getElem?_set_ne (hne _ this.1)]
      exact this

theorem hashFind_ok (hb : BVLaw c ob.toBitVecOps Rb) (h : IntVecLaw o k R) {t : T} {s : S} {bs : List Bool} {ks l : List Nat} (ht : Rb t bs) (hs : R s ks)
    {hash : BitVec w → Nat} {n : Nat} (hn : 0 < n) (hH : HoldsSet (fun x => hash (BitVec.ofNat w x)) n bs ks l) (x : BitVec w) :
    ∃ r, hashFind c ob o hash t s x = .ok r ∧ Found (fun x => hash (BitVec.ofNat w x)) n bs ks x.toNat r := by
  have hx : BitVec.ofNat w x.toNat = x := by simp
  obtain ⟨r, e, hr⟩ := hashProbe_ok hb h ht hs hn hH.bits hH.keys (fun x => hash (BitVec.ofNat w x)) x (p := hash x % n) (j := 0)
    (by rw [hx]; rfl) (fun i hi => by omega) (Nat.zero_le _)
  refine ⟨r, ?_, hr⟩
  rw [hashFind, h.len hs, Res.ok_bind, hH.keys, remN_ok hn, Res.ok_bind, e]

/-- C178: asking whether a number is in the set. -/
theorem C178_has (hb : BVLaw c ob.toBitVecOps Rb) (h : IntVecLaw o k R) {t : T} {s : S} {bs : List Bool} {ks l : List Nat} (ht : Rb t bs) (hs : R s ks)
    {hash : BitVec w → Nat} {n : Nat} (hn : 0 < n) (hH : HoldsSet (fun x => hash (BitVec.ofNat w x)) n bs ks l) (x : BitVec w) :
    hashHas c ob o hash (t, s) x = .ok (decide (x.toNat ∈ l)) := by
  obtain ⟨r, e, hr⟩ := hashFind_ok hb h ht hs hn hH x
  rw [hashHas, e, Res.ok_bind]
  have := hr.mem hH
  rcases r with _ | ⟨p, _ | _⟩ <;> simp_all

/-- C178: putting a number into the set. -/
theorem C178_insert (hb : BVLaw c ob.toBitVecOps Rb) (hbw : BVWriteLaw ob Rb) (h : IntVecLaw o k R) {t : T} {s : S} {bs : List Bool} {ks l : List Nat}
    (ht : Rb t bs) (hs : R s ks) {hash : BitVec w → Nat} {n : Nat} (hn : 0 < n) (hH : HoldsSet (fun x => hash (BitVec.ofNat w x)) n bs ks l)
    (x : BitVec w) (hx : x.toNat < 2 ^ k) :
    ∃ t' s' bs' ks', hashInsert c ob o hash (t, s) x =
        .ok (if x.toNat ∈ l then some false else if l.length < n then some true else none, t', s') ∧ Rb t' bs' ∧ R s' ks' ∧
      HoldsSet (fun x => hash (BitVec.ofNat w x)) n bs' ks' (if x.toNat ∈ l then l else if l.length < n then x.toNat :: l else l) := by
  obtain ⟨r, e, hr⟩ := hashFind_ok hb h ht hs hn hH x
  have hm := hr.mem hH
  rw [hashInsert, e, Res.ok_bind]
  rcases r with _ | ⟨p, _ | _⟩
  · have hf := hr.full hH
    have : x.toNat ∉ l := by simpa using hm
    rw [if_neg this, if_neg (by omega), if_neg this, if_neg (by omega)]
    exact ⟨t, s, bs, ks, rfl, ht, hs, hH⟩
  · obtain ⟨h1, h2, h3⟩ := hr.free hH
    have : x.toNat ∉ l := by simpa using hm
    obtain ⟨t', e1, r1⟩ := hbw.setBit ht p true (by rw [hH.bits]; exact h1)
    obtain ⟨s', e2, r2⟩ := h.set hs p x (by rw [hH.keys]; exact h1) hx
    rw [if_neg this, if_pos h2, if_neg this, if_pos h2]
    refine ⟨t', s', _, _, ?_, r1, r2, h3⟩
    simp only [e1, Res.ok_bind, e2]
  · have : x.toNat ∈ l := hm.2 ⟨p, rfl⟩
    rw [if_pos this, if_pos this]
    exact ⟨t, s, bs, ks, rfl, ht, hs, hH⟩

/-- C178: every sequence of calls. -/
theorem C178_calls (hb : BVLaw c ob.toBitVecOps Rb) (hbw : BVWriteLaw ob Rb) (h : IntVecLaw o k R) (hk : k ≤ w) {hash : BitVec w → Nat} {n : Nat}
    (hn : 0 < n) : ∀ (ops : List HashOp) {t : T} {s : S} {bs : List Bool} {ks l : List Nat}, Rb t bs → R s ks →
    HoldsSet (fun x => hash (BitVec.ofNat w x)) n bs ks l → (∀ op ∈ ops, op.key < 2 ^ k) →
    ∃ st, hashRun c ob o hash ops (t, s) = .ok (hashAnswers n ops l, st)
  | [], t, s, _, _, _, _, _, _, _ => ⟨(t, s), rfl⟩
  | .insert x :: ops, t, s, bs, ks, l, ht, hs, hH, ho => by
    have hx : x < 2 ^ k := ho (.insert x) (by simp)
    have hp := Nat.pow_le_pow_right (n := 2) (by omega) hk
    have hv : (BitVec.ofNat w x).toNat = x := by rw [BitVec.toNat_ofNat, Nat.mod_eq_of_lt (by omega)]
    obtain ⟨t', s', bs', ks', e1, r1, r2, r3⟩ := C178_insert hb hbw h ht hs hn hH (BitVec.ofNat w x) (by rw [hv]; exact hx)
    obtain ⟨st, e2⟩ := C178_calls hb hbw h hk hn ops r1 r2 r3 (fun op hop => ho op (List.mem_cons_of_mem _ hop))
    rw [hv] at e1 e2
    refine ⟨st, ?_⟩
    rw [hashRun, e1, Res.ok_bind]
    show (hashRun c ob o hash ops (t', s')).bind _ = _
    rw [e2, hashAnswers]
    split
    · rfl
    · split <;> rfl
  | .has x :: ops, t, s, bs, ks, l, ht, hs, hH, ho => by
    have hx : x < 2 ^ k := ho (.has x) (by simp)
    have hp := Nat.pow_le_pow_right (n := 2) (by omega) hk
    have hv : (BitVec.ofNat w x).toNat = x := by rw [BitVec.toNat_ofNat, Nat.mod_eq_of_lt (by omega)]
    have e1 := C178_has hb h ht hs hn hH (BitVec.ofNat w x)
    obtain ⟨st, e2⟩ := C178_calls hb hbw h hk hn ops ht hs hH (fun op hop => ho op (List.mem_cons_of_mem _ hop))
    rw [hv] at e1
    refine ⟨st, ?_⟩
    rw [hashRun, e1, Res.ok_bind, e2, hashAnswers]
    rfl

/-- Without a bit set, the set is empty. -/
theorem holdsSet_new (hash : Nat → Nat) {n : Nat} {ks : List Nat} (hk : ks.length = n) : HoldsSet hash n (List.replicate n false) ks [] where
  bits := by simp
  keys := hk
  count := by simp [List.count_replicate]
  mem x := by simp [List.getElem?_replicate]
  path q x h := by simp [List.getElem?_replicate] at h

/-- C178: a new set in a `BitVector` and an `IntVector`, whatever the elements of the latter. -/
theorem C178_new (c : Cfg) (hu : IsBlk u) (hw : IsBlk w) (h1 : 1 ≤ k) (hk : k ≤ w) {n : Nat} (hn : 0 < n) (hf : Fits c.usz w (n * k)) (hf' : Fits c.usz u n)
    (fill : BitVec w) (hash : BitVec w → Nat) (ops : List HashOp) (ho : ∀ op ∈ ops, op.key < 2 ^ k) :
    ∃ t s st, BV.withFill c u n false = .ok t ∧ IV.withFill c k n fill = .ok s ∧
      hashRun c (bvBitVecMut c u) (ivIntVec c w) hash ops (t, s) = .ok (hashAnswers n ops [], st) := by
  obtain ⟨t, e1, r1⟩ := (C17_fill c hu).1 n false hf'
  obtain ⟨s, e2, r2⟩ := ivInit_ok c hw h1 hk (.withFill n fill) hf
  obtain ⟨st, e3⟩ := C178_calls (ob := bvBitVecMut c u) (bv_law c hu) (bv_mut_law c hu).write (C166_int_vector c hw k) hk hn ops (r1.rep hu) (r2.reach hw)
    (holdsSet_new (fun x => hash (BitVec.ofNat w x)) (by simp [IvInit.elems])) ho
  exact ⟨t, s, st, e1, e2, e3⟩

/-! Each theorem of this file that has hypotheses is applied to concrete data in `Verif/Instances/HashSet.lean`. -/

end Succinct
