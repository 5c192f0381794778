import Verif.Props.Coding
/-! Property C114: random access to encoded values through the positions of a `BitBuffer`. The programs here are not in
the crate; they call the crate's `position`, `seek`, `encode` and `decode`. -/
namespace Succinct
open Spec

/-- Ask a buffer for its position. -/
def positionOf : SM (BitBuf S) Nat := fun s => .ok (.ok s.position, s)

/-- Encode values to a buffer and note at which position each begins. -/
def encodeIndexed (K : Code) (W : BitWrite (BitBuf S)) : List Nat → SM (BitBuf S) (List Nat)
  | [] => pure []
  | v :: vs => do
    let p ← positionOf
    K.encode W v
    let ps ← encodeIndexed K W vs
    pure (p :: ps)

/-- Decode the value that begins at a noted position. -/
def lookup (c : Cfg) (K : Code) (o : BitVecOps w S) (ps : List Nat) (i : Nat) : SM (BitBuf S) (Option Nat) := do
  let p ← SM.lift (expectR ps[i]?)
  BitBuf.seek o p
  K.decode (BitBuf.read c o)

/-- A sequence of lookups. -/
def lookups (c : Cfg) (K : Code) (o : BitVecOps w S) (ps : List Nat) : List Nat → SM (BitBuf S) (List (Option Nat))
  | [] => pure []
  | i :: is => do
    let v ← lookup c K o ps i
    let vs ← lookups c K o ps is
    pure (v :: vs)

/-- Encode a value over the one that begins at a noted position. -/
def overwriteAt (c : Cfg) (K : Code) (o : BitVecPushOps w S) (ps : List Nat) (i v : Nat) : SM (BitBuf S) Unit := do
  let p ← SM.lift (expectR ps[i]?)
  BitBuf.seek o.toBitVecOps p
  K.encode (BitBuf.write c o) v

/-- Where the values begin, if the first begins at `n`. -/
def startsFrom (word : Nat → List Bool) (n : Nat) : List Nat → List Nat
  | [] => []
  | v :: vs => n :: startsFrom word (n + (word v).length) vs

theorem startsFrom_get (word : Nat → List Bool) (n : Nat) (vs : List Nat) (i : Nat) :
    (startsFrom word n vs)[i]? = if i < vs.length then some (n + ((vs.take i).flatMap word).length) else none := by
  induction vs generalizing n i with
  | nil => simp [startsFrom]
  | cons v vs ih =>
    rcases i with _ | i
    · simp [startsFrom]
    · rw [startsFrom, List.getElem?_cons_succ, ih, List.take_succ_cons, List.flatMap_cons, List.length_append, List.length_cons]
      by_cases h : i < vs.length
      · rw [if_pos h, if_pos (by omega), Nat.add_assoc]
      · rw [if_neg h, if_neg (by omega)]

section
variable {c : Cfg} {w : Nat} {S : Type} {o : BitVecPushOps w S} {Fit : Nat → Prop} {R : S → List Bool → Prop}
  {K : Code} {D : Nat → Prop} {word : Nat → List Bool}

theorem encodeIndexed_ok (hi : Implements K D word) (hv : PushVec c w o R Fit) (hm : ∀ {m n}, Fit n → m ≤ n → Fit m)
    (vs : List Nat) (hvs : ∀ v ∈ vs, D v) {s : BitBuf S} {l : List Bool} (hs : bufR R s ⟨l, l.length⟩)
    (hf : Fit (l.length + (vs.flatMap word).length)) :
    ∃ s', encodeIndexed K (BitBuf.write c o) vs s = .ok (.ok (startsFrom word l.length vs), s') ∧
      bufR R s' ⟨l ++ vs.flatMap word, (l ++ vs.flatMap word).length⟩ := by
  induction vs generalizing s l with
  | nil => exact ⟨s, rfl, by simpa using hs⟩
  | cons v vs ih =>
    rw [List.flatMap_cons, List.length_append] at hf
    obtain ⟨s1, h1, h2⟩ := (buf_sink hv).writeAll hm (word v) hs (hm hf (by omega))
    obtain ⟨s2, h3, h4⟩ := ih (fun x hx => hvs x (List.mem_cons_of_mem _ hx)) h2
      (by rw [List.length_append, Nat.add_assoc]; exact hf)
    refine ⟨s2, ?_, by rw [List.flatMap_cons, ← List.append_assoc]; exact h4⟩
    rw [encodeIndexed, SM.bind_run_ok (show positionOf s = .ok (.ok s.pos, s) from rfl),
      hi.encodes v (hvs v List.mem_cons_self), SM.bind_run_ok h1, SM.bind_run_ok h3, hs.2.1, startsFrom, List.length_append]
    rfl

theorem lookup_ok (hi : Implements K D word) (hv : PushVec c w o R Fit) (vs : List Nat) (hvs : ∀ v ∈ vs, D v)
    {l r : List Bool} {s : BitBuf S} {p : Nat} (hs : bufR R s ⟨l ++ vs.flatMap word ++ r, p⟩) {i : Nat} (hil : i < vs.length) :
    ∃ s' p', lookup c K o.toBitVecOps (startsFrom word l.length vs) i s = .ok (.ok vs[i]?, s') ∧
      bufR R s' ⟨l ++ vs.flatMap word ++ r, p'⟩ := by
  have hsplit : vs = vs.take i ++ vs[i] :: vs.drop (i + 1) := by
    rw [← List.drop_eq_getElem_cons hil, List.take_append_drop]
  have hbits : l ++ vs.flatMap word ++ r =
      (l ++ (vs.take i).flatMap word) ++ (word vs[i] ++ ((vs.drop (i + 1)).flatMap word ++ r)) := by
    conv => lhs; rw [hsplit]
    rw [List.flatMap_append, List.flatMap_cons]; simp only [List.append_assoc]
  have hpos : l.length + ((vs.take i).flatMap word).length ≤ (l ++ vs.flatMap word ++ r).length := by
    rw [hbits, ← List.length_append, List.length_append (as := l ++ _)]; omega
  obtain ⟨s1, h1, h2⟩ := (buf_seek hv.law hs (l.length + ((vs.take i).flatMap word).length)).1 hpos
  have hrest : (l ++ vs.flatMap word ++ r).drop (l.length + ((vs.take i).flatMap word).length) =
      word vs[i] ++ ((vs.drop (i + 1)).flatMap word ++ r) := by
    rw [hbits, ← List.length_append, List.drop_left]
  have hsrc : LawfulSource (BitBuf.read c o.toBitVecOps)
      (fun b x => ∃ q, bufR R b ⟨l ++ vs.flatMap word ++ r, q⟩ ∧ x = (l ++ vs.flatMap word ++ r).drop q) := by
    generalize l ++ vs.flatMap word ++ r = bits
    constructor
    · rintro b x y ⟨q, hb, hx⟩
      have hlt : q < bits.length := by
        rcases Nat.lt_or_ge q bits.length with h | h
        · exact h
        · rw [List.drop_eq_nil_of_le h] at hx; cases hx
      rw [List.drop_eq_getElem_cons hlt] at hx
      injection hx with e1 e2
      obtain ⟨hR, hp, hle⟩ := hb
      simp only at hp hR hle
      refine ⟨{ b with pos := b.pos + 1 }, ?_, q + 1, ⟨hR, by simp only [hp], hlt⟩, e2⟩
      rw [buf_read_some hv.blk hv.law hv.block hR (by omega)]
      simp only [hp, e1]
    · rintro b ⟨q, hb, hx⟩
      have hge : bits.length ≤ q := List.drop_eq_nil_iff.1 hx.symm
      obtain ⟨hR, hp, hle⟩ := hb
      simp only at hp hR hle
      exact ⟨b, buf_read_none hv.law hR (by omega), q, ⟨hR, hp, hle⟩, hx⟩
  obtain ⟨s2, h3, q, h4, -⟩ := hsrc.reads (word vs[i]) (l := (vs.drop (i + 1)).flatMap word ++ r) (s := s1)
    ⟨_, h2, hrest.symm⟩
  refine ⟨s2, q, ?_, h4⟩
  rw [lookup, startsFrom_get, if_pos hil, expectR_some, SM.lift_ok_bind, SM.bind_run_ok h1,
    hi.decodes _ (hvs _ (List.getElem_mem hil)) _ _ _ h3, List.getElem?_eq_getElem hil]

theorem lookups_ok (hi : Implements K D word) (hv : PushVec c w o R Fit) (vs : List Nat) (hvs : ∀ v ∈ vs, D v)
    {l r : List Bool} (is : List Nat) (his : ∀ i ∈ is, i < vs.length) {s : BitBuf S} {p : Nat}
    (hs : bufR R s ⟨l ++ vs.flatMap word ++ r, p⟩) :
    ∃ s' p', lookups c K o.toBitVecOps (startsFrom word l.length vs) is s = .ok (.ok (is.map fun i => vs[i]?), s') ∧
      bufR R s' ⟨l ++ vs.flatMap word ++ r, p'⟩ := by
  induction is generalizing s p with
  | nil => exact ⟨s, p, rfl, hs⟩
  | cons i is ih =>
    obtain ⟨s1, p1, h1, h2⟩ := lookup_ok hi hv vs hvs hs (his i List.mem_cons_self)
    obtain ⟨s2, p2, h3, h4⟩ := ih (fun x hx => his x (List.mem_cons_of_mem _ hx)) h2
    exact ⟨s2, p2, by rw [lookups, SM.bind_run_ok h1, SM.bind_run_ok h3]; rfl, h4⟩

/-- Writing over as many bits as are written. -/
theorem buf_writeAll_over (hv : PushVec c w o R Fit) (x : List Bool) {a m b : List Bool} (hx : x.length = m.length)
    {s : BitBuf S} (hs : bufR R s ⟨a ++ m ++ b, a.length⟩) :
    ∃ s', writeAll (BitBuf.write c o) x s = .ok (.ok (), s') ∧ bufR R s' ⟨a ++ x ++ b, (a ++ x).length⟩ := by
  induction x generalizing a m s with
  | nil =>
    obtain rfl := List.length_eq_zero_iff.1 hx.symm
    exact ⟨s, rfl, by simpa using hs⟩
  | cons y x ih =>
    rcases m with _ | ⟨z, m⟩
    · simp at hx
    · obtain ⟨s1, h1, h2⟩ := buf_write hv hs y (fun he => by simp at he)
      have e : (a ++ z :: m ++ b).take a.length ++ y :: (a ++ z :: m ++ b).drop (a.length + 1) = a ++ [y] ++ m ++ b := by
        simp only [List.append_assoc, List.take_left]
        rw [show a ++ (z :: m ++ b) = (a ++ [z]) ++ (m ++ b) by simp, show a.length + 1 = (a ++ [z]).length by simp, List.drop_left]
        simp
      simp only [e] at h2
      obtain ⟨s2, h3, h4⟩ := ih (a := a ++ [y]) (m := m) (by simpa using hx) (by simpa using h2)
      refine ⟨s2, ?_, by simpa using h4⟩
      rw [writeAll, SM.bind_run_ok h1]
      exact h3

end

/-- C114: encode values, with any code, to a buffer over any lawful vector, noting the position before each. Any number
of lookups in any order, each a `seek` to the noted position and one `decode`, return the values asked for. -/
theorem C114_lookup (c : Cfg) (f : Bool) {K : Code} {D : Nat → Prop} {word : Nat → List Bool} (h : CodeOf c f K D word)
    {o : BitVecPushOps w S} {Fit : Nat → Prop} {R : S → List Bool → Prop} (hv : PushVec c w o R Fit)
    (hm : ∀ {m n}, Fit n → m ≤ n → Fit m) {s : BitBuf S} {l : List Bool} (hs : bufR R s ⟨l, l.length⟩)
    (vs : List Nat) (hvs : ∀ v ∈ vs, D v) (hf : Fit (l.length + (vs.flatMap word).length)) :
    ∃ ps s1, encodeIndexed K (BitBuf.write c o) vs s = .ok (.ok ps, s1) ∧ ps.length = vs.length ∧
      ∀ is, (∀ i ∈ is, i < vs.length) →
        ∃ s2, lookups c K o.toBitVecOps ps is s1 = .ok (.ok (is.map fun i => vs[i]?), s2) := by
  have hi := C62_all c f h
  obtain ⟨s1, h1, h2⟩ := encodeIndexed_ok hi hv hm vs hvs hs hf
  refine ⟨_, s1, h1, ?_, fun is his => ?_⟩
  · clear h1 h2 hf hs hvs
    generalize l.length = n
    induction vs generalizing n with
    | nil => rfl
    | cons v vs ih => rw [startsFrom, List.length_cons, ih, List.length_cons]
  · obtain ⟨s2, p, h3, -⟩ := lookups_ok (r := []) hi hv vs hvs is his (by simpa using h2)
    exact ⟨s2, h3⟩

/-- C114: a value with a codeword of the same length can be written over a value in place: afterwards every lookup
finds the new value where the old one was and the other values unchanged. -/
theorem C114_overwrite (c : Cfg) (f : Bool) {K : Code} {D : Nat → Prop} {word : Nat → List Bool} (h : CodeOf c f K D word)
    {o : BitVecPushOps w S} {Fit : Nat → Prop} {R : S → List Bool → Prop} (hv : PushVec c w o R Fit)
    (hm : ∀ {m n}, Fit n → m ≤ n → Fit m) {s : BitBuf S} {l : List Bool} (hs : bufR R s ⟨l, l.length⟩)
    (vs : List Nat) (hvs : ∀ v ∈ vs, D v) (hf : Fit (l.length + (vs.flatMap word).length))
    {j u : Nat} (hj : j < vs.length) (hu : D u) (hlen : (word u).length = (word vs[j]).length) :
    ∃ ps s1 s2, encodeIndexed K (BitBuf.write c o) vs s = .ok (.ok ps, s1) ∧
      overwriteAt c K o ps j u s1 = .ok (.ok (), s2) ∧ ∀ is, (∀ i ∈ is, i < vs.length) →
        ∃ s3, lookups c K o.toBitVecOps ps is s2 = .ok (.ok (is.map fun i => (vs.set j u)[i]?), s3) := by
  have hi := C62_all c f h
  obtain ⟨s1, h1, h2⟩ := encodeIndexed_ok hi hv hm vs hvs hs hf
  have hsplit : vs = vs.take j ++ vs[j] :: vs.drop (j + 1) := by
    rw [← List.drop_eq_getElem_cons hj, List.take_append_drop]
  have hset : vs.set j u = vs.take j ++ u :: vs.drop (j + 1) := by
    rw [List.set_eq_take_append_cons_drop, if_pos hj]
  have hb : l ++ vs.flatMap word = (l ++ (vs.take j).flatMap word) ++ word vs[j] ++ (vs.drop (j + 1)).flatMap word := by
    conv => lhs; rw [hsplit]
    rw [List.flatMap_append, List.flatMap_cons]; simp only [List.append_assoc]
  have hb' : l ++ (vs.set j u).flatMap word = (l ++ (vs.take j).flatMap word) ++ word u ++ (vs.drop (j + 1)).flatMap word := by
    rw [hset, List.flatMap_append, List.flatMap_cons]; simp only [List.append_assoc]
  obtain ⟨s1', h3, h4⟩ := (buf_seek hv.law h2 (l ++ (vs.take j).flatMap word).length).1
    (by show _ ≤ (l ++ vs.flatMap word).length; rw [hb]; simp only [List.length_append]; omega)
  simp only [hb] at h4
  obtain ⟨s2, h5, h6⟩ := buf_writeAll_over hv (word u) hlen h4
  rw [← hb'] at h6
  have hst : startsFrom word l.length (vs.set j u) = startsFrom word l.length vs := by
    apply List.ext_getElem?
    intro i
    rw [startsFrom_get, startsFrom_get, List.length_set]
    congr 2
    congr 1
    rcases Nat.lt_or_ge j i with hji | hij
    · rw [hset]
      conv => rhs; rw [hsplit]
      rw [List.take_append, List.take_append, List.length_take, Nat.min_eq_left (by omega)]
      obtain ⟨k, hk⟩ : ∃ k, i - j = k + 1 := ⟨i - j - 1, by omega⟩
      rw [hk, List.take_succ_cons, List.take_succ_cons]
      simp only [List.flatMap_append, List.flatMap_cons, List.length_append, hlen]
    · rw [List.take_set, List.set_eq_of_length_le (by rw [List.length_take]; omega)]
  refine ⟨_, s1, s2, h1, ?_, fun is his => ?_⟩
  · rw [overwriteAt, startsFrom_get, if_pos hj, expectR_some, SM.lift_ok_bind,
      SM.bind_run_ok (by rw [← List.length_append]; exact h3), hi.encodes u hu]
    exact h5
  · rw [← hst]
    obtain ⟨s3, p, h7, -⟩ := lookups_ok (r := []) hi hv (vs.set j u)
      (fun v hmem => by rcases List.mem_or_eq_of_mem_set hmem with h7 | h7; exact hvs v h7; exact h7 ▸ hu) is
      (by rw [List.length_set]; exact his) (by simpa using h6)
    exact ⟨s3, h7⟩

/-- Delta-coded values in a `BitVector<u8>` behind two other bits; the second, 17, is then replaced by 30. -/
example : ∃ ps s1 s2 s3,
    encodeIndexed (delta ⟨true, .p64, true⟩) (BitBuf.write ⟨true, .p64, true⟩ (bvBitVecPush ⟨true, .p64, true⟩ 8)) [5, 17, 2]
      ⟨⟨2, [0x3#8]⟩, 2⟩ = .ok (.ok ps, s1) ∧
    overwriteAt ⟨true, .p64, true⟩ (delta ⟨true, .p64, true⟩) (bvBitVecPush ⟨true, .p64, true⟩ 8) ps 1 30 s1 = .ok (.ok (), s2) ∧
    lookups ⟨true, .p64, true⟩ (delta ⟨true, .p64, true⟩) (bvBitVec ⟨true, .p64, true⟩ 8) ps [2, 1, 0, 1] s2 =
      .ok (.ok [some 2, some 30, some 5, some 30], s3) := by
  have hb : ∀ i, vbit [0x3#8] i = [true, true][i]?.getD false := by
    intro i
    rcases Nat.lt_or_ge i 8 with h | h
    · revert i; decide
    · rw [vbit_of_ge (by decide) (by simpa using h), List.getElem?_eq_none (show [true, true].length ≤ i by simp; omega)]; rfl
  obtain ⟨ps, s1, s2, h1, h2, h3⟩ := C114_overwrite ⟨true, .p64, true⟩ true (C62_gamma_delta _ true).2 (bv_pushVec _ (by decide))
    (fun hf h => hf.mono h) (s := ⟨⟨2, [0x3#8]⟩, 2⟩) (l := [true, true]) ⟨⟨rfl, rfl, hb, by decide +kernel⟩, rfl, by decide⟩
    [5, 17, 2] (by decide) (by decide +kernel) (j := 1) (u := 30) (by decide) (by decide) (by decide +kernel)
  obtain ⟨s3, h4⟩ := h3 [2, 1, 0, 1] (by decide)
  exact ⟨ps, s1, s2, s3, h1, h2, h4⟩

/-! Each theorem of this file that has hypotheses is applied to concrete data in `Verif/Instances/RandomAccess.lean`. -/

end Succinct
