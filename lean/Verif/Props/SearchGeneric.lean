import Verif.Model.SearchGeneric
import Verif.Props.Select
/-!
# C134: searching and selecting at every type
-/
namespace Succinct
open Spec

/-! ### Arithmetic of primitive integer types -/

theorem PrimTy.hi_lo (t : PrimTy) (hb : 3 ≤ t.bits) :
    ∃ m : Int, 2 ≤ m ∧ (t.lo = -(2 * m) ∧ t.hi = 2 * m ∨ t.lo = 0 ∧ t.hi = 4 * m) := by
  obtain ⟨b, hb'⟩ : ∃ b, t.bits = b + 3 := ⟨t.bits - 3, by omega⟩
  have h1 : 1 ≤ 2 ^ b := Nat.one_le_two_pow
  have e1 : 2 ^ (b + 3 - 1) = 4 * 2 ^ b := by rw [show b + 3 - 1 = b + 2 by omega, Nat.pow_add]; omega
  have e2 : 2 ^ (b + 3) = 8 * 2 ^ b := by rw [Nat.pow_add]; omega
  refine ⟨(2 * 2 ^ b : Nat), by omega, ?_⟩
  unfold PrimTy.lo PrimTy.hi
  rw [hb', e1, e2]
  cases t.signed
  · refine .inr ⟨rfl, ?_⟩
    simp only [Bool.false_eq_true, if_false]
    omega
  · refine .inl ⟨?_, ?_⟩ <;> simp only [if_true] <;> omega

theorem fitI_ok {c : Cfg} {t : PrimTy} {x : Int} (h1 : t.lo ≤ x) (h2 : x < t.hi) : fitI c t x = .ok x := if_pos ⟨h1, h2⟩

/-- C134. Sums and differences at a primitive type are those of the integers if they fit in the type; if not, there is a panic in debug
builds and otherwise the one value of the type that differs by a multiple of `2^bits`. For unsigned types this is the arithmetic used
in the rest of the model. -/
theorem C134_arithmetic (c : Cfg) {t : PrimTy} (hb : 1 ≤ t.bits) (x : Int) :
    (t.In x → fitI c t x = .ok x) ∧
    (¬ t.In x → fitI c t x = if c.debug then .panic else .ok (t.wrap x)) ∧
    (∀ y, t.wrap x = y ↔ t.In y ∧ ∃ k : Int, x = y + k * (2 ^ t.bits : Nat)) ∧
    (t.signed = false → ∀ a b : Nat,
      fitI c t (a + b) = (addN c t.bits a b >>= fun n => .ok (n : Int)) ∧
      (a < 2 ^ t.bits → b < 2 ^ t.bits → fitI c t (a - b) = (subN c t.bits a b >>= fun n => .ok (n : Int)))) := by
  obtain ⟨b, hb'⟩ : ∃ b, t.bits = b + 1 := ⟨t.bits - 1, by omega⟩
  have hp : (0 : Int) < (2 ^ t.bits : Nat) := by have := Nat.two_pow_pos t.bits; omega
  have hhl : t.hi = t.lo + (2 ^ t.bits : Nat) := by
    unfold PrimTy.hi PrimTy.lo
    rw [hb', Nat.add_sub_cancel, Nat.pow_succ]
    cases t.signed <;> simp <;> omega
  have hw : ∀ y, t.wrap x = y ↔ t.In y ∧ ∃ k : Int, x = y + k * (2 ^ t.bits : Nat) := fun y => by
    unfold PrimTy.wrap PrimTy.In
    rw [hhl]
    constructor
    · rintro rfl
      have h1 := Int.emod_nonneg (x - t.lo) (Int.ne_of_gt hp)
      have h2 := Int.emod_lt_of_pos (x - t.lo) hp
      have h3 := Int.mul_ediv_add_emod (x - t.lo) (2 ^ t.bits : Nat)
      refine ⟨⟨by omega, by omega⟩, (x - t.lo) / (2 ^ t.bits : Nat), ?_⟩
      rw [Int.mul_comm] at h3
      omega
    · rintro ⟨⟨h1, h2⟩, k, rfl⟩
      rw [show y + k * (2 ^ t.bits : Nat) - t.lo = (y - t.lo) + k * (2 ^ t.bits : Nat) by omega, Int.add_mul_emod_self_right,
        Int.emod_eq_of_lt (by omega) (by omega)]
      omega
  refine ⟨fun h => if_pos h, fun h => if_neg h, hw, fun hs a b => ?_⟩
  have hlo : t.lo = 0 := by simp [PrimTy.lo, hs]
  rw [hlo, Int.zero_add] at hhl
  have hpn := Nat.two_pow_pos t.bits
  have hf : ∀ z, fitI c t z = if 0 ≤ z ∧ z < (2 ^ t.bits : Nat) then .ok z else if c.debug then .panic else .ok (z % (2 ^ t.bits : Nat)) :=
    fun z => by
      unfold fitI PrimTy.wrap
      simp only [PrimTy.In, hlo, hhl, Int.zero_add, Int.sub_zero]
  rw [hf, hf]
  unfold addN subN overflow
  clear hw hf hb'
  generalize 2 ^ t.bits = M at *
  refine ⟨?_, fun ha hb => ?_⟩
  · by_cases h : a + b < M
    · rw [if_pos (by omega), if_pos h]; rfl
    · rw [if_neg (by omega), if_neg h]
      cases c.debug
      · simp
      · rfl
  · by_cases h : b ≤ a
    · rw [if_pos (by omega), if_pos h, Res.ok_bind]
      congr 1; omega
    · rw [if_neg (by omega), if_neg h]
      cases c.debug
      · simp only [Bool.false_eq_true, if_false, Res.ok_bind]
        congr 1
        rw [Int.natCast_emod, show ((a + M - b : Nat) : Int) = (a : Int) - b + M by omega, Int.add_emod_right]
      · rfl

example (c : Cfg) : PrimTy.wrap ⟨true, 8⟩ 128 = -128 ∧ PrimTy.wrap ⟨false, 8⟩ (-1) = 255 ∧
    (c.debug = false → fitI c ⟨true, 8⟩ 200 = .ok (-56)) := ⟨rfl, rfl, fun h => by simp [fitI, h]; decide⟩

/-- C134. Midpoints are exact (rounded down) at every primitive integer type, whatever the signs, without overflow. -/
theorem C134_average (c : Cfg) {t : PrimTy} (hb : 3 ≤ t.bits) {x y : Int} (hx : t.In x) (hy : t.In y) :
    averageG c t x y = .ok ((x + y) / 2) := by
  obtain ⟨m, hm, h⟩ := t.hi_lo hb
  obtain ⟨hx1, hx2⟩ := hx
  obtain ⟨hy1, hy2⟩ := hy
  unfold averageG half
  rw [fitI_ok (by omega) (by omega), Res.ok_bind, fitI_ok (by omega) (by omega), Res.ok_bind,
    fitI_ok (by omega) (by omega)]
  congr 1
  omega

example (c : Cfg) : averageG c ⟨true, 8⟩ (-128) (-127) = .ok (-128) ∧ averageG c ⟨true, 8⟩ (-128) 127 = .ok (-1) ∧
    averageG c ⟨true, 8⟩ 127 126 = .ok 126 ∧ averageG c ⟨false, 8⟩ 255 254 = .ok 254 := by
  rcases c with ⟨d, p, a⟩; cases d <;> cases a <;> cases p <;> decide

/-! ### Search -/

/-- `r` is the least point of `start .. limit` satisfying `P`, or `none` if there is none. -/
def FirstInI (start limit : Int) (P : Int → Prop) (r : Option Int) : Prop :=
  match r with
  | some d => start ≤ d ∧ d < limit ∧ P d ∧ ∀ e, start ≤ e → e < d → ¬ P e
  | none => ∀ e, start ≤ e → e < limit → ¬ P e

/-- `>=` and `<` as a preorder has them. -/
structure OrdLaw (o : OrdOps R) (le : R → R → Prop) : Prop where
  ge : ∀ a b, o.ge a b = true ↔ le b a
  lt : ∀ a b, o.lt a b = true ↔ ¬ le b a
  trans : ∀ {a b c}, le a b → le b c → le a c

theorem searchLoopG_ok (c : Cfg) {t : PrimTy} (hb : 3 ≤ t.bits) {o : OrdOps R} {le : R → R → Prop} (ho : OrdLaw o le)
    {value : R} {f : Int → Res R} {g : Int → R} {start limit : Int} (h0 : t.lo < start) (hl : limit < t.hi)
    (hf : ∀ i, start - 1 ≤ i → i < limit → f i = .ok (g i))
    (hg : ∀ i j, start ≤ i → i ≤ j → j < limit → le (g i) (g j)) (hv : ¬ le value (g (start - 1))) :
    ∃ r, searchLoopG c t o f value start limit = .ok r ∧ FirstInI start limit (fun d => le value (g d)) r := by
  generalize hm : (limit - start).toNat = m
  induction m using Nat.strongRecOn generalizing start limit with
  | ind m ih =>
  rw [searchLoopG.eq_def]
  by_cases hsl : start < limit
  · rw [if_pos hsl, C134_average c hb ⟨by omega, by omega⟩ ⟨by omega, hl⟩, Res.ok_bind, hf _ (by omega) (by omega), Res.ok_bind]
    split
    · rename_i hvy
      rw [ho.ge] at hvy
      rw [fitI_ok (by omega) (by omega), Res.ok_bind, hf _ (by omega) (by omega), Res.ok_bind]
      split
      · rename_i hz
        rw [ho.lt] at hz
        refine ⟨_, rfl, by omega, by omega, hvy, fun e he1 he2 hve => ?_⟩
        exact hz (ho.trans hve (hg e ((start + limit) / 2 - 1) he1 (by omega) (by omega)))
      · rename_i hz
        rw [ho.lt, Classical.not_not] at hz
        have hz' : (start + limit) / 2 - 1 ≠ start - 1 := by
          intro he; rw [he] at hz; exact hv hz
        obtain ⟨r, h1, h2⟩ := ih ((start + limit) / 2 - start).toNat (by omega) h0 (by omega)
          (fun i h1 h2 => hf i h1 (by omega)) (fun i j h1 h2 h3 => hg i j h1 h2 (by omega)) hv rfl
        refine ⟨r, h1, ?_⟩
        cases r with
        | some d => exact ⟨h2.1, by have := h2.2.1; omega, h2.2.2⟩
        | none => exact absurd hz (h2 _ (by omega) (by omega))
    · rename_i hvy
      rw [ho.ge] at hvy
      rw [fitI_ok (by omega) (by omega), Res.ok_bind]
      obtain ⟨r, h1, h2⟩ := ih (limit - ((start + limit) / 2 + 1)).toNat (by omega) (start := (start + limit) / 2 + 1) (by omega) hl
        (fun i h1 h2 => hf i (by omega) h2) (fun i j h1 h2 h3 => hg i j (by omega) h2 h3)
        (by rw [Int.add_sub_cancel]; exact hvy) rfl
      refine ⟨r, h1, ?_⟩
      have hlow : ∀ e, start ≤ e → e < (start + limit) / 2 + 1 → ¬ le value (g e) := by
        intro e he1 he2 hve
        exact hvy (ho.trans hve (hg e ((start + limit) / 2) he1 (by omega) (by omega)))
      cases r with
      | some d =>
        refine ⟨by have := h2.1; omega, h2.2.1, h2.2.2.1, fun e he1 he2 => ?_⟩
        by_cases h : e < (start + limit) / 2 + 1
        · exact hlow e he1 h
        · exact h2.2.2.2 e (by omega) he2
      | none =>
        intro e he1 he2
        by_cases h : e < (start + limit) / 2 + 1
        · exact hlow e he1 h
        · exact h2 e (by omega) he2
  · rw [if_neg hsl]
    exact ⟨none, rfl, fun e he1 he2 => by omega⟩

/-- C134. For every primitive integer type `D`, every ordered type `R` and every monotone `f`, the search finds the least
point of the interval at which `f` reaches `value`. Nothing is assumed of `f` outside the interval. -/
theorem C134_search (c : Cfg) {t : PrimTy} (hb : 3 ≤ t.bits) {o : OrdOps R} {le : R → R → Prop} (ho : OrdLaw o le)
    {value : R} {f : Int → Res R} {g : Int → R} {start limit : Int} (hs : t.In start) (hl : t.In limit)
    (hf : ∀ i, start ≤ i → i < limit → f i = .ok (g i))
    (hg : ∀ i j, start ≤ i → i ≤ j → j < limit → le (g i) (g j)) :
    ∃ r, binarySearchG c t o start limit value f = .ok r ∧ FirstInI start limit (fun d => le value (g d)) r := by
  unfold binarySearchG
  split
  · exact ⟨none, rfl, fun e _ _ => by omega⟩
  · rw [hf start (by omega) (by omega), Res.ok_bind]
    split
    · rename_i h
      rw [ho.ge] at h
      exact ⟨_, rfl, Int.le_refl _, by omega, h, fun e _ _ => by omega⟩
    · rename_i h
      rw [ho.ge] at h
      have h1 := hs.1
      have h2 := hl.2
      rw [fitI_ok (by omega) (by omega), Res.ok_bind]
      obtain ⟨r, h1, h2⟩ := searchLoopG_ok c hb ho (f := f) (g := g) (value := value) (start := start + 1) (limit := limit)
        (by omega) hl.2 (fun i h1 h2 => hf i (by omega) h2) (fun i j h1 h2 h3 => hg i j (by omega) h2 h3)
        (by rw [Int.add_sub_cancel]; exact h)
      refine ⟨r, h1, ?_⟩
      cases r with
      | some d =>
        refine ⟨by have := h2.1; omega, h2.2.1, h2.2.2.1, fun e he1 he2 => ?_⟩
        by_cases he : e = start
        · rw [he]; exact h
        · exact h2.2.2.2 e (by omega) he2
      | none =>
        intro e he1 he2
        by_cases he : e = start
        · rw [he]; exact h
        · exact h2 e (by omega) he2

theorem searchLoopG_local (c : Cfg) {t : PrimTy} (hb : 3 ≤ t.bits) (o : OrdOps R) (value : R) {f f' : Int → Res R}
    {start limit : Int} (h0 : t.lo < start) (hl : limit < t.hi) (hf : ∀ i, start - 1 ≤ i → i < limit → f i = f' i)
    (hd : ∀ i, start - 1 ≤ i → i < limit → f i ≠ .diverge) :
    searchLoopG c t o f value start limit = searchLoopG c t o f' value start limit ∧
    searchLoopG c t o f value start limit ≠ .diverge ∧
    ∀ r, searchLoopG c t o f value start limit = .ok r → match r with
      | some d => start ≤ d ∧ d < limit ∧ (∃ y, f d = .ok y ∧ o.ge y value = true) ∧
          ∃ z, f (d - 1) = .ok z ∧ o.lt z value = true
      | none => True := by
  generalize hm : (limit - start).toNat = m
  induction m using Nat.strongRecOn generalizing start limit with
  | ind m ih =>
  rw [searchLoopG.eq_def, searchLoopG.eq_def (f := f')]
  by_cases hsl : start < limit
  · rw [if_pos hsl, if_pos hsl, C134_average c hb ⟨by omega, by omega⟩ ⟨by omega, hl⟩, Res.ok_bind, Res.ok_bind,
      ← hf _ (by omega) (by omega)]
    rcases hy : f ((start + limit) / 2) with y | _ | _
    · rw [Res.ok_bind, Res.ok_bind]
      split
      · rename_i hge
        rw [fitI_ok (by omega) (by omega), Res.ok_bind, Res.ok_bind, ← hf _ (by omega) (by omega)]
        rcases hz : f ((start + limit) / 2 - 1) with z | _ | _
        · rw [Res.ok_bind, Res.ok_bind]
          split
          · rename_i hlt
            refine ⟨rfl, by simp, fun r hr => ?_⟩
            cases hr
            exact ⟨by omega, by omega, ⟨y, hy, hge⟩, z, hz, hlt⟩
          · obtain ⟨e1, e2, e3⟩ := ih ((start + limit) / 2 - start).toNat (by omega) (limit := (start + limit) / 2) h0 (by omega)
              (fun i h1 h2 => hf i h1 (by omega)) (fun i h1 h2 => hd i h1 (by omega)) rfl
            refine ⟨e1, e2, fun r hr => ?_⟩
            have := e3 r hr
            cases r with
            | none => trivial
            | some d => exact ⟨this.1, by have := this.2.1; omega, this.2.2⟩
        · exact ⟨rfl, by simp, fun r hr => by cases hr⟩
        · exact absurd hz (hd _ (by omega) (by omega))
      · rw [fitI_ok (by omega) (by omega), Res.ok_bind, Res.ok_bind]
        obtain ⟨e1, e2, e3⟩ := ih (limit - ((start + limit) / 2 + 1)).toNat (by omega) (start := (start + limit) / 2 + 1) (by omega) hl
          (fun i h1 h2 => hf i (by omega) h2) (fun i h1 h2 => hd i (by omega) h2) rfl
        refine ⟨e1, e2, fun r hr => ?_⟩
        have := e3 r hr
        cases r with
        | none => trivial
        | some d => exact ⟨by have := this.1; omega, this.2⟩
    · exact ⟨rfl, by simp, fun r hr => by cases hr⟩
    · exact absurd hy (hd _ (by omega) (by omega))
  · rw [if_neg hsl, if_neg hsl]
    exact ⟨rfl, by simp, fun r hr => by cases hr; trivial⟩

/-- C134. For every `f` whatever, which may also panic, and whatever `>=` and `<` answer: the search ends; it depends only on the
values of `f` in the interval ("does not call `f` on `D`s outside the specified interval"); and if it returns `Some(d)` then `d`
is in the interval, `f(d) >= value`, and `d` is the start or `f(d - 1) < value`. -/
theorem C134_any_function (c : Cfg) {t : PrimTy} (hb : 3 ≤ t.bits) (o : OrdOps R) (value : R) {f f' : Int → Res R}
    {start limit : Int} (hs : t.In start) (hl : t.In limit) (hf : ∀ i, start ≤ i → i < limit → f i = f' i)
    (hd : ∀ i, start ≤ i → i < limit → f i ≠ .diverge) :
    binarySearchG c t o start limit value f = binarySearchG c t o start limit value f' ∧
    binarySearchG c t o start limit value f ≠ .diverge ∧
    ∀ d, binarySearchG c t o start limit value f = .ok (some d) → start ≤ d ∧ d < limit ∧
      (∃ y, f d = .ok y ∧ o.ge y value = true) ∧ (d = start ∨ ∃ z, f (d - 1) = .ok z ∧ o.lt z value = true) := by
  have h1 := hs.1
  have h2 := hl.2
  unfold binarySearchG
  by_cases hsl : limit ≤ start
  · rw [if_pos hsl, if_pos hsl]
    exact ⟨rfl, by simp, fun d h => by cases h⟩
  · rw [if_neg hsl, if_neg hsl, ← hf start (by omega) (by omega)]
    rcases hy : f start with y | _ | _
    · rw [Res.ok_bind, Res.ok_bind]
      split
      · rename_i hge
        refine ⟨rfl, by simp, fun d h => ?_⟩
        cases h
        exact ⟨by omega, by omega, ⟨y, hy, hge⟩, .inl rfl⟩
      · rw [fitI_ok (by omega) (by omega), Res.ok_bind, Res.ok_bind]
        obtain ⟨e1, e2, e3⟩ := searchLoopG_local c hb o value (f := f) (f' := f') (start := start + 1) (limit := limit) (by omega) h2
          (fun i h1 h2 => hf i (by omega) h2) (fun i h1 h2 => hd i (by omega) h2)
        refine ⟨e1, e2, fun d h => ?_⟩
        have := e3 _ h
        exact ⟨by have := this.1; omega, this.2.1, this.2.2.1, .inr this.2.2.2⟩
    · exact ⟨rfl, by simp, fun d h => by cases h⟩
    · exact absurd hy (hd _ (by omega) (by omega))

/-! ### The search the crate uses is the one at `u64` -/

/-- `>=` and `<` of `u64` -/
def natOrd : OrdOps Nat := ⟨fun a b => decide (b ≤ a), fun a b => decide (a < b)⟩

theorem natOrd_law : OrdLaw natOrd (· ≤ ·) :=
  ⟨fun a b => by simp [natOrd], fun a b => by simp [natOrd], fun h1 h2 => Nat.le_trans h1 h2⟩

theorem searchLoopG_unsigned (c : Cfg) {bits value : Nat} (hb : 3 ≤ bits) {f : Nat → Res Nat} {start limit : Nat}
    (hl : limit < 2 ^ bits) (h0 : 0 < start) :
    searchLoopG c ⟨false, bits⟩ natOrd (fun i => f i.toNat) value start limit =
      (searchLoop c bits f value start limit).bind fun r => .ok (r.map fun d : Nat => (d : Int)) := by
  have hlo : PrimTy.lo ⟨false, bits⟩ = 0 := rfl
  have hhi : PrimTy.hi ⟨false, bits⟩ = (2 ^ bits : Nat) := rfl
  generalize hm : limit - start = m
  induction m using Nat.strongRecOn generalizing start limit with
  | ind m ih =>
  rw [searchLoopG.eq_def, searchLoop.eq_def]
  by_cases hsl : start < limit
  · rw [if_pos (by omega), if_pos hsl, average_ok c (by omega) (by omega) hl,
      C134_average c hb ⟨by omega, by omega⟩ ⟨by omega, by omega⟩, Res.ok_bind, Res.ok_bind]
    rw [show ((start : Int) + (limit : Int)) / 2 = (((start + limit) / 2 : Nat) : Int) by omega]
    simp only [Int.toNat_natCast]
    rcases hy : f ((start + limit) / 2) with y | _ | _
    · rw [Res.ok_bind, Res.ok_bind]
      by_cases hvy : value ≤ y
      · rw [if_pos (by simpa [natOrd] using hvy), if_pos hvy, fitI_ok (by omega) (by omega), subN_ok (by omega), Res.ok_bind, Res.ok_bind]
        rw [show ((((start + limit) / 2 : Nat) : Int) - 1).toNat = (start + limit) / 2 - 1 by omega]
        rcases hz : f ((start + limit) / 2 - 1) with z | _ | _
        · rw [Res.ok_bind, Res.ok_bind]
          by_cases hzv : z < value
          · rw [if_pos (by simpa [natOrd] using hzv), if_pos hzv]
            rfl
          · rw [if_neg (by simpa [natOrd] using hzv), if_neg hzv]
            exact ih _ (by omega) (by omega) h0 rfl
        · rfl
        · rfl
      · rw [if_neg (by simpa [natOrd] using hvy), if_neg hvy, fitI_ok (by omega) (by omega), addN_ok (by omega), Res.ok_bind, Res.ok_bind]
        exact ih (limit - ((start + limit) / 2 + 1)) (by omega) hl (by omega) rfl
    · rfl
    · rfl
  · rw [if_neg (by omega), if_neg hsl]
    rfl

/-- C134. At unsigned types with a `u64` result the general search is that of `Model/Select.lean`, for every `f`. -/
theorem C134_unsigned (c : Cfg) {bits value : Nat} (hb : 3 ≤ bits) {f : Nat → Res Nat} {start limit : Nat}
    (hl : limit < 2 ^ bits) :
    binarySearchG c ⟨false, bits⟩ natOrd start limit value (fun i => f i.toNat) =
      (binarySearch c bits start limit value f).bind fun r => .ok (r.map fun d : Nat => (d : Int)) := by
  have hlo : PrimTy.lo ⟨false, bits⟩ = 0 := rfl
  have hhi : PrimTy.hi ⟨false, bits⟩ = (2 ^ bits : Nat) := rfl
  unfold binarySearchG binarySearch
  by_cases hsl : limit ≤ start
  · rw [if_pos (by omega), if_pos hsl]
    rfl
  · rw [if_neg (by omega), if_neg hsl]
    simp only [Int.toNat_natCast]
    rcases hy : f start with y | _ | _
    · rw [Res.ok_bind, Res.ok_bind]
      by_cases hvy : value ≤ y
      · rw [if_pos (by simpa [natOrd] using hvy), if_pos hvy]
        rfl
      · rw [if_neg (by simpa [natOrd] using hvy), if_neg hvy, fitI_ok (by omega) (by omega), addN_ok (by omega), Res.ok_bind, Res.ok_bind]
        exact searchLoopG_unsigned c hb hl (start := start + 1) (Nat.succ_pos _)
    · rfl
    · rfl

/-! ### Select over any alphabet -/

/-- `r` is the position of the `k`-th (from 0) occurrence of `v`, or `none` if there are at most `k`. -/
def IsSelectIn [DecidableEq V] (v : V) (xs : List V) (k : Nat) (r : Option Nat) : Prop :=
  match r with
  | some p => xs[p]? = some v ∧ (xs.take p).count v = k
  | none => xs.count v ≤ k

/-- What a rank structure over an alphabet `V` promises (rank/traits.rs:11-26): `rank(p, v)` is the number of `v`s up to and
including position `p`. -/
structure RankSupLaw [DecidableEq V] (r : RankSup S V) (s : S) (xs : List V) : Prop where
  small : xs.length < 2 ^ 64
  limit : r.limit s = .ok xs.length
  rank : ∀ p < xs.length, ∀ v, r.rank s p v = .ok ((xs.take (p + 1)).count v)

theorem take_count_succ [DecidableEq V] (v : V) (xs : List V) {k : Nat} (h : k < xs.length) :
    (xs.take (k + 1)).count v = (xs.take k).count v + if xs[k] = v then 1 else 0 := by
  rw [List.take_add_one, List.getElem?_eq_getElem h, List.count_append]
  congr 1
  simp [List.count_singleton]

theorem take_count_mono [DecidableEq V] (v : V) (xs : List V) {j k : Nat} (h : j ≤ k) : (xs.take j).count v ≤ (xs.take k).count v := by
  rw [show xs.take j = (xs.take k).take j by rw [List.take_take, Nat.min_eq_left h]]
  exact (List.take_sublist _ _).count_le _

/-- C134. Select by binary search over *any* rank structure, over any alphabet: it finds the `k`-th occurrence of any symbol, or
that there is none. For all `k` but `u64::MAX`, see `C134_select_max`. -/
theorem C134_select [DecidableEq V] (c : Cfg) {r : RankSup S V} {s : S} {xs : List V} (hr : RankSupLaw r s xs) (v : V) {k : Nat}
    (hk : k + 1 < 2 ^ 64) : ∃ x, BinSearchSelect.selectG c r ⟨s⟩ k v = .ok x ∧ IsSelectIn v xs k x := by
  unfold BinSearchSelect.selectG
  have hlim : (BinSearchSelect.rankSup r).limit ⟨s⟩ = .ok xs.length := hr.limit
  rw [hlim, Res.ok_bind, addN_ok hk, Res.ok_bind]
  obtain ⟨x, h1, h2⟩ := C43_binary_search c (bits := 64) (start := 0) (limit := xs.length) (value := k + 1)
    (f := fun i => (BinSearchSelect.rankSup r).rank ⟨s⟩ i v) (g := fun i => (xs.take (i + 1)).count v) (by decide) hr.small
    (fun i _ hi => hr.rank i hi v) (fun i j _ hij _ => take_count_mono v xs (by omega))
  refine ⟨x, h1, ?_⟩
  cases x with
  | none =>
    show xs.count v ≤ k
    rcases Nat.eq_zero_or_pos xs.length with h0 | h0
    · rw [List.length_eq_zero_iff.1 h0]; simp
    · have : ¬ k + 1 ≤ (xs.take (xs.length - 1 + 1)).count v := h2 (xs.length - 1) (Nat.zero_le _) (by omega)
      rw [Nat.sub_add_cancel h0, List.take_length] at this
      omega
  | some p =>
    obtain ⟨-, hp, h1, h2⟩ := h2
    have h1 : k + 1 ≤ (xs.take (p + 1)).count v := h1
    have h3 : (xs.take p).count v ≤ k := by
      cases p with
      | zero => simp
      | succ p => have := h2 p (Nat.zero_le _) (by omega); omega
    rw [take_count_succ v xs hp] at h1
    refine ⟨?_, ?_⟩
    · rw [List.getElem?_eq_getElem hp]
      split at h1
      · rename_i hb; rw [hb]
      · omega
    · split at h1 <;> omega

/-- C134. Select and rank are inverse over any alphabet. -/
theorem C134_inverse [DecidableEq V] (c : Cfg) {r : RankSup S V} {s : S} {xs : List V} (hr : RankSupLaw r s xs) {p : Nat} {v : V}
    (hp : xs[p]? = some v) :
    ∃ k, r.rank s p v = .ok (k + 1) ∧ BinSearchSelect.selectG c r ⟨s⟩ k v = .ok (some p) := by
  obtain ⟨hpl, hpe⟩ := List.getElem?_eq_some_iff.1 hp
  refine ⟨(xs.take p).count v, ?_, ?_⟩
  · rw [hr.rank p hpl v, take_count_succ v xs hpl, if_pos hpe]
  · have hs := hr.small
    have hle : (xs.take p).count v ≤ p := Nat.le_trans List.count_le_length (by rw [List.length_take]; omega)
    obtain ⟨x, h1, h2⟩ := C134_select c hr v (k := (xs.take p).count v) (by omega)
    rw [h1]
    have hsucc := take_count_succ v xs hpl
    rw [if_pos hpe] at hsucc
    cases x with
    | none =>
      have := take_count_mono v xs (show p + 1 ≤ xs.length from hpl)
      rw [List.take_length] at this
      have h2 : xs.count v ≤ (xs.take p).count v := h2
      omega
    | some q =>
      obtain ⟨hq, hc⟩ := h2
      obtain ⟨hql, hqe⟩ := List.getElem?_eq_some_iff.1 hq
      have hqs := take_count_succ v xs hql
      rw [if_pos hqe] at hqs
      rcases Nat.lt_trichotomy p q with h | h | h
      · have := take_count_mono v xs (show p + 1 ≤ q from h); omega
      · rw [h]
      · have := take_count_mono v xs (show q + 1 ≤ p from h); omega

/-- C134. At `k = u64::MAX` the addition overflows: a panic in debug builds, and `Some(0)` in release builds on every non-empty
sequence, whatever symbol was asked for. -/
theorem C134_select_max [DecidableEq V] (c : Cfg) {r : RankSup S V} {s : S} {xs : List V} (hr : RankSupLaw r s xs) (v : V) :
    BinSearchSelect.selectG c r ⟨s⟩ (2 ^ 64 - 1) v =
      if c.debug then .panic else .ok (if xs = [] then none else some 0) := by
  unfold BinSearchSelect.selectG
  have hlim : (BinSearchSelect.rankSup r).limit ⟨s⟩ = .ok xs.length := hr.limit
  have hadd : addN c 64 (2 ^ 64 - 1) 1 = if c.debug then .panic else .ok 0 := by
    unfold addN overflow
    rw [if_neg (by omega)]
  rw [hlim, Res.ok_bind, hadd]
  cases c.debug
  · rw [if_neg (by simp), if_neg (by simp), Res.ok_bind]
    unfold binarySearch
    cases xs with
    | nil => rfl
    | cons b xs =>
      rw [if_neg (by simp)]
      show (r.rank s 0 v >>= _) = _
      rw [hr.rank 0 (by simp), Res.ok_bind, if_pos (Nat.zero_le _)]
      simp
  · rfl

/-- Over `bool` this is the `select` of `Model/Select.lean`, and a lawful bit rank structure is lawful here. -/
theorem C134_bool (c : Cfg) (r : RankOps S) (s : BinSearchSelect S) (k : Nat) (v : Bool) :
    BinSearchSelect.selectG c r.toSup s k v = BinSearchSelect.select c r s k v ∧
    ∀ bits, RankLaw r s.rankSupport bits → RankSupLaw r.toSup s.rankSupport bits :=
  ⟨rfl, fun _ h => ⟨h.small, h.limit, h.rank⟩⟩

/-! ### Examples -/

/-- The first cube of at least -30 in `-100 .. 100` is that of -3; `i8`, with an `f` that panics outside, and `R = i64`. -/
example (c : Cfg) : binarySearchG c ⟨true, 8⟩ ⟨fun a b => decide (b ≤ a), fun a b => decide (a < b)⟩ (-100) 100 (-30 : Int)
    (fun i => if -100 ≤ i ∧ i < 100 then .ok (i * i * i) else .panic) = .ok (some (-3)) := by
  have cube : ∀ i j : Int, i ≤ j → i * i * i ≤ j * j * j := by
    intro i j h
    rcases Int.le_total 0 i with h0 | h0
    · exact Int.mul_le_mul (Int.mul_le_mul h h h0 (by omega)) h h0 (Int.mul_nonneg (by omega) (by omega))
    · rcases Int.le_total 0 j with h1 | h1
      · exact Int.le_trans (Int.mul_nonpos_of_nonneg_of_nonpos (Int.mul_nonneg_of_nonpos_of_nonpos h0 h0) h0)
          (Int.mul_nonneg (Int.mul_nonneg h1 h1) h1)
      · have := Int.mul_le_mul (Int.mul_le_mul (a := -j) (c := -i) (b := -j) (d := -i) (by omega) (by omega) (by omega) (by omega))
          (show -j ≤ -i by omega) (by omega) (Int.mul_nonneg (by omega) (by omega))
        simp only [Int.mul_neg, Int.neg_mul, Int.neg_neg] at this
        omega
  obtain ⟨r, h1, h2⟩ := C134_search c (t := ⟨true, 8⟩) (by decide) (R := Int) (o := ⟨fun a b => decide (b ≤ a), fun a b => decide (a < b)⟩)
    (le := (· ≤ ·)) ⟨fun a b => by simp, fun a b => by simp, fun h1 h2 => Int.le_trans h1 h2⟩ (value := -30)
    (f := fun i => if -100 ≤ i ∧ i < 100 then .ok (i * i * i) else .panic) (g := fun i => i * i * i) (start := -100) (limit := 100)
    (by decide) (by decide) (fun i h1 h2 => if_pos ⟨h1, h2⟩) (fun i j _ h _ => cube i j h)
  rw [h1]
  cases r with
  | none => exact absurd (show (-30 : Int) ≤ -3 * -3 * -3 by decide) (h2 (-3) (by decide) (by decide))
  | some d =>
    obtain ⟨h3, h4, h5, h6⟩ := h2
    have h5 : -30 ≤ d * d * d := h5
    have h7 : ¬ -3 < d := fun h => h6 (-3) (by decide) h (by decide)
    have h8 : ¬ d ≤ -4 := fun h => by
      have := cube d (-4) h
      have : d * d * d ≤ -64 := this
      omega
    rw [show d = -3 by omega]

/-- a rank structure over bytes: a plain list, counted -/
def byteRank : RankSup (List Nat) Nat where
  rank s p v := if p < s.length then .ok ((s.take (p + 1)).count v) else .panic
  limit s := .ok s.length

/-- in "hello", the second `l` is at 3 and there is no third -/
example (c : Cfg) : BinSearchSelect.selectG c byteRank ⟨[104, 101, 108, 108, 111]⟩ 1 108 = .ok (some 3) ∧
    BinSearchSelect.selectG c byteRank ⟨[104, 101, 108, 108, 111]⟩ 2 108 = .ok none := by
  have law : RankSupLaw byteRank [104, 101, 108, 108, 111] [104, 101, 108, 108, 111] :=
    ⟨by decide, rfl, fun p hp v => if_pos hp⟩
  constructor
  · obtain ⟨k, h1, h2⟩ := C134_inverse c law (p := 3) (v := 108) rfl
    rw [law.rank 3 (by decide)] at h1
    obtain rfl : k = 1 := by
      have : (([104, 101, 108, 108, 111] : List Nat).take (3 + 1)).count 108 = 2 := by decide
      rw [this] at h1
      cases h1; rfl
    exact h2
  · obtain ⟨x, h1, h2⟩ := C134_select c law 108 (k := 2) (by decide)
    rw [h1]
    cases x with
    | none => rfl
    | some p =>
      obtain ⟨hp, hc⟩ := h2
      have hp5 : p < 5 := (List.getElem?_eq_some_iff.1 hp).1
      have : ∀ p < 5, ([104, 101, 108, 108, 111] : List Nat)[p]? = some 108 →
          (([104, 101, 108, 108, 111] : List Nat).take p).count 108 ≠ 2 := by decide
      exact absurd hc (this p hp5 hp)

/-! Each theorem of this file that has hypotheses is applied to concrete data in `Verif/Instances/SearchGeneric.lean`. -/

end Succinct
