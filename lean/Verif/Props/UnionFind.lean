import Verif.Props.IntVecTrait
/-! Property C174: classes of numbers that are joined one pair at a time, in an integer vector. The programs here are not in the crate; they
call the methods of `IntVec` and `IntVecMut`. -/
namespace Succinct
open Spec

/-- What it means that a chain of the pairs leads from one number to another. -/
inductive Spec.Connected (ps : List (Nat × Nat)) : Nat → Nat → Prop where
  | pair {x y : Nat} : (x, y) ∈ ps → Connected ps x y
  | refl (x : Nat) : Connected ps x x
  | symm {x y : Nat} : Connected ps x y → Connected ps y x
  | trans {x y z : Nat} : Connected ps x y → Connected ps y z → Connected ps x z

/-- `r` is the least of the numbers below `n` that are connected with `x`. -/
def Spec.LeastOf (n : Nat) (ps : List (Nat × Nat)) (x r : Nat) : Prop := r < n ∧ Connected ps x r ∧ ∀ y < n, Connected ps x y → r ≤ y

/-- What a user does with the classes: joins those of two numbers, or asks for the least number of a class. -/
inductive UnionOp where
  | join (x y : Nat)
  | find (x : Nat)

/-- The answers are right for the pairs joined before. -/
def Spec.Answers (n : Nat) : List (Nat × Nat) → List UnionOp → List Nat → Prop
  | _, [], rs => rs = []
  | ps, .join x y :: ops, rs => Answers n ((x, y) :: ps) ops rs
  | ps, .find x :: ops, rs => ∃ r rest, rs = r :: rest ∧ LeastOf n ps x r ∧ Answers n ps ops rest

section
variable {w : Nat} {S : Type} (c : Cfg) (o : IntVecMutOps w S)

/-- `for i in 0 .. v.len() { v.set(i, i) }` -/
def ufInit (s : S) : Res S := do
  let n ← o.len s
  forRange 0 n s fun i s => o.set s i (BitVec.ofNat w i)

/-- `loop { let p = v.get(x); if p == x { return x } let g = v.get(p); v.set(x, g); x = g }` -/
def ufFind (s : S) (x : Nat) : Res (Nat × S) := do
  let p ← o.get s x
  if p.toNat = x then .ok (x, s)
  else do
    let g ← o.get s p.toNat
    let s ← o.set s x g
    ufFind s g.toNat
partial_fixpoint

/-- `let a = find(x); let b = find(y); if a < b { v.set(b, a) } else if b < a { v.set(a, b) }` -/
def ufJoin (s : S) (x y : Nat) : Res S := do
  let (a, s) ← ufFind o s x
  let (b, s) ← ufFind o s y
  if a < b then o.set s b (BitVec.ofNat w a)
  else if b < a then o.set s a (BitVec.ofNat w b)
  else .ok s

/-- The calls of a user, and what the finds return. -/
def ufRun : List UnionOp → S → Res (List Nat × S)
  | [], s => .ok ([], s)
  | .join x y :: ops, s => do
    let s ← ufJoin o s x y
    ufRun ops s
  | .find x :: ops, s => do
    let (r, s) ← ufFind o s x
    let (rs, s) ← ufRun ops s
    .ok (r :: rs, s)

/-- `let mut k = 0; for i in 0 .. v.len() { if v.get(i) == i { k += 1 } }` -/
def ufCount (s : S) : Res Nat := do
  let n ← o.len s
  forRange 0 n 0 fun i k => do
    let p ← o.get s i
    if p.toNat = i then addN c 64 k 1 else .ok k
end

/-- The elements keep the classes of the pairs: each leads to a connected number that is not greater, and of connected numbers at most one
leads to itself. -/
structure KeepsClasses (ps : List (Nat × Nat)) (xs : List Nat) : Prop where
  le : ∀ i (h : i < xs.length), xs[i] ≤ i
  conn : ∀ i (h : i < xs.length), Connected ps i xs[i]
  one : ∀ i j (hi : i < xs.length) (hj : j < xs.length), xs[i] = i → xs[j] = j → Connected ps i j → i = j

theorem Spec.Connected.mono {ps qs : List (Nat × Nat)} (h : ∀ p ∈ ps, p ∈ qs) {x y : Nat} (hc : Connected ps x y) : Connected qs x y := by
  induction hc with
  | pair h1 => exact .pair (h _ h1)
  | refl x => exact .refl x
  | symm _ ih => exact .symm ih
  | trans _ _ i1 i2 => exact .trans i1 i2

/-- A chain of pairs either does without the first pair or goes through it once. -/
theorem Spec.Connected.cons {ps : List (Nat × Nat)} {x y u v : Nat} (h : Connected ((x, y) :: ps) u v) :
    Connected ps u v ∨ (Connected ps u x ∧ Connected ps y v) ∨ (Connected ps u y ∧ Connected ps x v) := by
  induction h with
  | @pair a b h1 =>
    rcases List.mem_cons.1 h1 with h1 | h1
    · cases h1
      exact .inr (.inl ⟨.refl _, .refl _⟩)
    · exact .inl (.pair h1)
  | refl a => exact .inl (.refl a)
  | symm _ ih =>
    rcases ih with h1 | ⟨h1, h2⟩ | ⟨h1, h2⟩
    · exact .inl h1.symm
    · exact .inr (.inr ⟨h2.symm, h1.symm⟩)
    · exact .inr (.inl ⟨h2.symm, h1.symm⟩)
  | trans _ _ i1 i2 =>
    rcases i1 with h1 | ⟨h1, h2⟩ | ⟨h1, h2⟩ <;> rcases i2 with g1 | ⟨g1, g2⟩ | ⟨g1, g2⟩
    · exact .inl (h1.trans g1)
    · exact .inr (.inl ⟨h1.trans g1, g2⟩)
    · exact .inr (.inr ⟨h1.trans g1, g2⟩)
    · exact .inr (.inl ⟨h1, h2.trans g1⟩)
    · exact .inr (.inl ⟨h1, g2⟩)
    · exact .inl (h1.trans g2)
    · exact .inr (.inr ⟨h1, h2.trans g1⟩)
    · exact .inl (h1.trans g2)
    · exact .inr (.inr ⟨h1, g2⟩)

theorem connected_nil {x y : Nat} (h : Connected [] x y) : x = y := by
  induction h with
  | pair h => simp at h
  | refl => rfl
  | symm _ ih => exact ih.symm
  | trans _ _ i1 i2 => exact i1.trans i2

/-- From every number, a number leading to itself is reached, and it is not greater. -/
theorem KeepsClasses.root {ps : List (Nat × Nat)} {xs : List Nat} (h : KeepsClasses ps xs) :
    ∀ y (_ : y < xs.length), ∃ (r : Nat) (hr : r < xs.length), r ≤ y ∧ xs[r] = r ∧ Connected ps y r := by
  intro y
  induction y using Nat.strongRecOn with
  | ind y ih =>
    intro hy
    have h1 := h.le y hy
    by_cases e : xs[y] = y
    · exact ⟨y, hy, Nat.le_refl y, e, .refl y⟩
    · obtain ⟨r, hr, h2, h3, h4⟩ := ih xs[y] (by omega) (by omega)
      exact ⟨r, hr, by omega, h3, (h.conn y hy).trans h4⟩

/-- A number that leads to itself is the least of its class. -/
theorem KeepsClasses.least {ps : List (Nat × Nat)} {xs : List Nat} (h : KeepsClasses ps xs) {x r : Nat} (hr : r < xs.length) (h1 : xs[r] = r)
    (h2 : Connected ps x r) : LeastOf xs.length ps x r := by
  refine ⟨hr, h2, fun y hy hc => ?_⟩
  obtain ⟨q, hq, q1, q2, q3⟩ := h.root y hy
  rw [h.one r q hr hq h1 q2 (h2.symm.trans (hc.trans q3))]
  exact q1

/-- The least of a class leads to itself. -/
theorem KeepsClasses.fixed {ps : List (Nat × Nat)} {xs : List Nat} (h : KeepsClasses ps xs) {x r : Nat} (hl : LeastOf xs.length ps x r) :
    xs[r]'hl.1 = r := by
  have h1 := h.le r hl.1
  have h2 := hl.2.2 (xs[r]'hl.1) (Nat.lt_of_le_of_lt h1 hl.1) (hl.2.1.trans (h.conn r hl.1))
  omega

theorem Spec.LeastOf.unique {n : Nat} {ps : List (Nat × Nat)} {x r q : Nat} (h : LeastOf n ps x r) (h' : LeastOf n ps x q) : r = q :=
  Nat.le_antisymm (h.2.2 q h'.1 h'.2.1) (h'.2.2 r h.1 h.2.1)

theorem KeepsClasses.halve {ps : List (Nat × Nat)} {xs : List Nat} (h : KeepsClasses ps xs) {x g : Nat} (hg : g < x)
    (hc : Connected ps x g) : KeepsClasses ps (xs.set x g) where
  le i hi := by
    rw [List.getElem_set]
    split
    · omega
    · exact h.le i (by simpa using hi)
  conn i hi := by
    rw [List.getElem_set]
    split
    · rename_i e
      exact e ▸ hc
    · exact h.conn i (by simpa using hi)
  one i j hi hj e1 e2 hij := by
    rw [List.getElem_set] at e1 e2
    split at e1
    · omega
    · split at e2
      · omega
      · exact h.one i j (by simpa using hi) (by simpa using hj) e1 e2 hij

theorem KeepsClasses.link {ps : List (Nat × Nat)} {xs : List Nat} (h : KeepsClasses ps xs) {x y a b : Nat} (ha : LeastOf xs.length ps x a)
    (hb : LeastOf xs.length ps y b) (hab : a < b) (qs : List (Nat × Nat)) (hq : ∀ u v, Connected qs u v ↔ Connected ((x, y) :: ps) u v) :
    KeepsClasses qs (xs.set b a) where
  le i hi := by
    rw [List.getElem_set]
    split
    · omega
    · exact h.le i (by simpa using hi)
  conn i hi := by
    rw [List.getElem_set, hq]
    have hm : ∀ {u v : Nat}, Connected ps u v → Connected ((x, y) :: ps) u v := Connected.mono fun p hp => List.mem_cons_of_mem _ hp
    split
    · rename_i e
      exact e ▸ ((hm hb.2.1).symm.trans (Connected.pair (by simp)).symm).trans (hm ha.2.1)
    · exact hm (h.conn i (by simpa using hi))
  one i j hi hj e1 e2 hij := by
    rw [List.length_set] at hi hj
    rw [List.getElem_set] at e1 e2
    split at e1
    · omega
    · rename_i n1
      split at e2
      · omega
      · rename_i n2
        rcases ((hq i j).1 hij).cons with h1 | ⟨h1, h2⟩ | ⟨h1, h2⟩
        · exact h.one i j hi hj e1 e2 h1
        · exact absurd (hb.unique (h.least hj e2 h2)) n2
        · exact absurd (hb.unique (h.least hi e1 h1.symm)) n1

theorem KeepsClasses.same {ps qs : List (Nat × Nat)} {xs : List Nat} (h : KeepsClasses ps xs) (hq : ∀ u v, Connected qs u v ↔ Connected ps u v) :
    KeepsClasses qs xs where
  le := h.le
  conn i hi := (hq _ _).2 (h.conn i hi)
  one i j hi hj e1 e2 hij := h.one i j hi hj e1 e2 ((hq _ _).1 hij)

theorem connected_swap {ps : List (Nat × Nat)} {x y u v : Nat} (h : Connected ((x, y) :: ps) u v) : Connected ((y, x) :: ps) u v := by
  have hm : ∀ {u v : Nat}, Connected ps u v → Connected ((y, x) :: ps) u v := Connected.mono fun p hp => List.mem_cons_of_mem _ hp
  rcases h.cons with h1 | ⟨h1, h2⟩ | ⟨h1, h2⟩
  · exact hm h1
  · exact ((hm h1).trans (Connected.pair (by simp)).symm).trans (hm h2)
  · exact ((hm h1).trans (Connected.pair (by simp))).trans (hm h2)

variable {w k : Nat} {S : Type} {c : Cfg} {o : IntVecMutOps w S} {R : S → List Nat → Prop} {ps : List (Nat × Nat)}

/-- C174: after the first pass every number is a class of its own. -/
theorem C174_init (h : IntVecLaw o k R) (hk : k ≤ w) {s : S} {xs : List Nat} (hs : R s xs) (hn : xs.length ≤ 2 ^ k) :
    ∃ s', ufInit o s = .ok s' ∧ R s' (List.range xs.length) ∧ KeepsClasses [] (List.range xs.length) := by
  have hp := Nat.pow_le_pow_right (n := 2) (by omega) hk
  obtain ⟨s', e, hs', hl, hi⟩ := forRange_inv (lo := 0) (hi := xs.length) (s := s) (f := fun i s => o.set s i (BitVec.ofNat w i))
    (fun i s => ∃ ys, R s ys ∧ ys.length = xs.length ∧ ∀ j (hj : j < ys.length), j < i → ys[j] = j) (Nat.zero_le _)
    ⟨xs, hs, rfl, fun j _ h => absurd h (by omega)⟩ (by
      rintro i s - hi ⟨ys, h1, h2, h3⟩
      have hx : (BitVec.ofNat w i).toNat = i := by rw [BitVec.toNat_ofNat, Nat.mod_eq_of_lt (by omega)]
      obtain ⟨s', e, h'⟩ := h.set h1 i (BitVec.ofNat w i) (by omega) (by omega)
      refine ⟨s', e, _, h', by simpa using h2, fun j hj hji => ?_⟩
      rw [List.getElem_set]
      split
      · omega
      · exact h3 j (by simpa using hj) (by omega))
  obtain ⟨hl1, hl2⟩ := hi
  have : hs' = List.range xs.length := List.ext_getElem (by simpa using hl1) fun j h1 h2 => by rw [hl2 j h1 (by omega), List.getElem_range]
  subst this
  refine ⟨s', ?_, hl, ⟨fun i h => by simp, fun i h => by simpa using Connected.refl i, fun i j hi hj _ _ hij => ?_⟩⟩
  · show (o.len s).bind _ = _
    rw [h.len hs]
    exact e
  · exact connected_nil hij

/-- C174: asking for a number gives the least number connected with it; the classes stay as they are. -/
theorem C174_find (h : IntVecLaw o k R) : ∀ (x : Nat) {s : S} {xs : List Nat}, R s xs → KeepsClasses ps xs → x < xs.length →
    ∃ r s' ys, ufFind o s x = .ok (r, s') ∧ LeastOf xs.length ps x r ∧ R s' ys ∧ ys.length = xs.length ∧ KeepsClasses ps ys := by
  intro x
  induction x using Nat.strongRecOn with
  | ind x ih =>
    intro s xs hs hu hx
    obtain ⟨p, e1, hp⟩ := h.get hs x hx
    have l1 := hu.le x hx
    rw [ufFind, e1, Res.ok_bind]
    by_cases e : p.toNat = x
    · rw [if_pos e]
      exact ⟨x, s, xs, rfl, hu.least hx (by omega) (.refl x), hs, rfl, hu⟩
    · rw [if_neg e]
      have hpl : p.toNat < xs.length := by omega
      obtain ⟨g, e2, hg⟩ := h.get hs p.toNat hpl
      have l2 := hu.le p.toNat hpl
      have c1 : Connected ps x p.toNat := hp ▸ hu.conn x hx
      have c2 : Connected ps p.toNat g.toNat := hg ▸ hu.conn p.toNat hpl
      have hlt : g.toNat < 2 ^ k := hg ▸ h.lt hs _ (List.getElem_mem hpl)
      obtain ⟨s1, e3, h1⟩ := h.set hs x g hx hlt
      obtain ⟨r, s', ys, e4, r1, r2, r3, r4⟩ := ih g.toNat (by omega) h1 (hu.halve (by omega) (c1.trans c2))
        (by rw [List.length_set]; omega)
      rw [List.length_set] at r1 r3
      rw [e2, Res.ok_bind, e3, Res.ok_bind]
      exact ⟨r, s', ys, e4, ⟨r1.1, (c1.trans c2).trans r1.2.1, fun y hy hc => r1.2.2 y hy ((c1.trans c2).symm.trans hc)⟩, r2, r3, r4⟩

/-- C174: joining two numbers adds the pair. -/
theorem C174_join (h : IntVecLaw o k R) (hk : k ≤ w) {s : S} {xs : List Nat} (hs : R s xs) (hu : KeepsClasses ps xs) {x y : Nat}
    (hx : x < xs.length) (hy : y < xs.length) (hn : xs.length ≤ 2 ^ k) :
    ∃ s' ys, ufJoin o s x y = .ok s' ∧ R s' ys ∧ ys.length = xs.length ∧ KeepsClasses ((x, y) :: ps) ys := by
  have hp := Nat.pow_le_pow_right (n := 2) (by omega) hk
  obtain ⟨a, s1, ys, e1, a1, a2, a3, a4⟩ := C174_find h x hs hu hx
  obtain ⟨b, s2, zs, e2, b1, b2, b3, b4⟩ := C174_find h y a2 a4 (by omega)
  rw [a3] at b1 b3
  have ha := a1.1
  have hb := b1.1
  have e0 : ufJoin o s x y = (if a < b then o.set s2 b (BitVec.ofNat w a) else if b < a then o.set s2 a (BitVec.ofNat w b) else .ok s2) := by
    rw [ufJoin, e1]
    show (ufFind o s1 y).bind _ = _
    rw [e2]
    rfl
  rw [e0]
  have hz : ∀ i, i < xs.length → (BitVec.ofNat w i).toNat = i := fun i hi => by rw [BitVec.toNat_ofNat, Nat.mod_eq_of_lt (by omega)]
  rcases Nat.lt_trichotomy a b with hab | hab | hab
  · obtain ⟨s', e3, h3⟩ := h.set b2 b (BitVec.ofNat w a) (by omega) (by rw [hz a ha]; omega)
    rw [hz a ha] at h3
    refine ⟨s', _, ?_, h3, by rw [List.length_set, b3], b4.link (b3 ▸ a1) (b3 ▸ b1) hab _ fun u v => Iff.rfl⟩
    rw [if_pos hab]
    exact e3
  · refine ⟨s2, zs, ?_, b2, b3, b4.same fun u v => ⟨fun hc => ?_, Connected.mono fun p hp => List.mem_cons_of_mem _ hp⟩⟩
    · rw [if_neg (by omega), if_neg (by omega)]
    · have hxy : Connected ps x y := a1.2.1.trans (hab ▸ b1.2.1.symm)
      rcases hc.cons with h1 | ⟨h1, h2⟩ | ⟨h1, h2⟩
      · exact h1
      · exact (h1.trans hxy).trans h2
      · exact (h1.trans hxy.symm).trans h2
  · obtain ⟨s', e3, h3⟩ := h.set b2 a (BitVec.ofNat w b) (by omega) (by rw [hz b hb]; omega)
    rw [hz b hb] at h3
    refine ⟨s', _, ?_, h3, by rw [List.length_set, b3],
      b4.link (b3 ▸ b1) (b3 ▸ a1) hab _ fun u v => ⟨connected_swap, connected_swap⟩⟩
    rw [if_neg (by omega), if_pos hab]
    exact e3

/-- The numbers that the calls of a user name. -/
def UnionOp.Below (n : Nat) : UnionOp → Prop
  | .join x y => x < n ∧ y < n
  | .find x => x < n

theorem ufRun_ok (h : IntVecLaw o k R) (hk : k ≤ w) : ∀ (ops : List UnionOp) {ps : List (Nat × Nat)} {s : S} {xs : List Nat}, R s xs →
    KeepsClasses ps xs → xs.length ≤ 2 ^ k → (∀ op ∈ ops, op.Below xs.length) →
    ∃ rs s', ufRun o ops s = .ok (rs, s') ∧ Answers xs.length ps ops rs
  | [], _, s, _, _, _, _, _ => ⟨[], s, rfl, rfl⟩
  | .join x y :: ops, ps, s, xs, hs, hu, hn, hb => by
    obtain ⟨hx, hy⟩ := hb (.join x y) (by simp)
    obtain ⟨s1, ys, e1, h1, h2, h3⟩ := C174_join h hk hs hu hx hy hn
    obtain ⟨rs, s', e2, h4⟩ := ufRun_ok h hk ops h1 h3 (by omega) (fun op hop => h2 ▸ hb op (List.mem_cons_of_mem _ hop))
    rw [h2] at h4
    refine ⟨rs, s', ?_, h4⟩
    rw [ufRun, e1]
    exact e2
  | .find x :: ops, ps, s, xs, hs, hu, hn, hb => by
    obtain ⟨r, s1, ys, e1, h0, h1, h2, h3⟩ := C174_find h x hs hu (hb (.find x) (by simp))
    obtain ⟨rs, s', e2, h4⟩ := ufRun_ok h hk ops h1 h3 (by omega) (fun op hop => h2 ▸ hb op (List.mem_cons_of_mem _ hop))
    rw [h2] at h4
    refine ⟨r :: rs, s', ?_, r, rs, rfl, h0, h4⟩
    rw [ufRun, e1]
    show (ufRun o ops s1).bind _ = _
    rw [e2]
    rfl

/-- C174: after the first pass, every sequence of joins and questions is answered as the pairs joined before require. -/
theorem C174_classes (h : IntVecLaw o k R) (hk : k ≤ w) {s : S} {xs : List Nat} (hs : R s xs) (hn : xs.length ≤ 2 ^ k) (ops : List UnionOp)
    (hb : ∀ op ∈ ops, op.Below xs.length) :
    ∃ s0 rs s', ufInit o s = .ok s0 ∧ ufRun o ops s0 = .ok (rs, s') ∧ Answers xs.length [] ops rs := by
  obtain ⟨s0, e0, h0, h1⟩ := C174_init h hk hs hn
  obtain ⟨rs, s', e1, h2⟩ := ufRun_ok h hk ops h0 h1 (by simpa using hn) (fun op hop => by simpa using hb op hop)
  exact ⟨s0, rs, s', e0, e1, by simpa using h2⟩

open Classical in
/-- C174: the numbers that lead to themselves are as many as the classes: one for each number with no smaller one in its class. -/
theorem C174_count (c : Cfg) (h : IntVecLaw o k R) {s : S} {xs : List Nat} (hs : R s xs) (hu : KeepsClasses ps xs) :
    ufCount c o s = .ok ((List.range xs.length).countP fun x => decide (∀ y < x, ¬ Connected ps x y)) := by
  have ha := h.addressable hs
  have hr : ∀ i (hi : i < xs.length), xs[i] = i ↔ ∀ y < i, ¬ Connected ps i y := fun i hi => by
    constructor
    · intro e y hy hc
      have := (hu.least hi e (.refl i)).2.2 y (by omega) hc
      omega
    · intro hall
      have h1 := hu.le i hi
      rcases Nat.lt_or_eq_of_le h1 with h2 | h2
      · exact absurd (hu.conn i hi) (hall _ h2)
      · exact h2
  obtain ⟨m, e, hm⟩ := forRange_inv (lo := 0) (hi := xs.length) (s := 0)
    (f := fun i k => (o.get s i).bind fun p => if p.toNat = i then addN c 64 k 1 else .ok k)
    (fun i m => m = (List.range i).countP fun x => decide (∀ y < x, ¬ Connected ps x y)) (Nat.zero_le _) rfl (by
      rintro i m - hi rfl
      obtain ⟨p, e1, hp⟩ := h.get hs i hi
      have hc := List.countP_le_length (l := List.range i) (p := fun x => decide (∀ y < x, ¬ Connected ps x y))
      rw [List.length_range] at hc
      rw [e1, List.range_succ, List.countP_append, List.countP_cons, List.countP_nil]
      show ∃ s', (if p.toNat = i then _ else _) = _ ∧ _
      by_cases e2 : p.toNat = i
      · have := (hr i hi).1 (by omega)
        rw [if_pos e2, addN_ok (by omega)]
        exact ⟨_, rfl, by simp only [decide_eq_true this, Nat.zero_add, if_true]⟩
      · have := mt (hr i hi).2 (by omega)
        rw [if_neg e2]
        exact ⟨_, rfl, by simp [this]⟩)
  rw [← hm, ufCount, h.len hs]
  exact e

/-- C174: a number that is not there panics. -/
theorem C174_out_of_range (c : Cfg) (h : IsBlk w) {s : IV w} {xs : List Nat} (hs : IvReach c w k s xs) {x : Nat} (hx : xs.length ≤ x)
    (hu : x < 2 ^ c.usz) : ufFind (ivIntVec c w) s x = .panic := by
  rw [ufFind, show (ivIntVec c w).get s x = .panic from (hs.rep h).get_panic h hx fun _ => hu]
  rfl

/-! Each theorem of this file that has hypotheses is applied to concrete data in `Verif/Instances/UnionFind.lean`. -/

end Succinct
