import Verif.Props.AnyCode
import Verif.Props.IntVector
/-! Property C165: codes for any codeword lengths that allow one (canonical Huffman codes, as in RFC 1951). The programs here are not in
the crate; they call its methods only. -/
namespace Succinct
open Spec

/-- What the programs keep: for each symbol the length and the bits of its codeword; for each length how many symbols have it; and
the symbols, those with the shortest codewords first. -/
structure Canon where
  lens : IV 64
  codes : IV 64
  counts : IV 64
  symbols : IV 64

section
variable (c : Cfg)

/-- `for s in 0 .. lens.len() { if lens.get(s) == l { codes.set(s, code); symbols.push(s); code += 1 } }` -/
def canonStage (lens : IV 64) (l : Nat) (codes symbols : IV 64) (code : Nat) : Res (IV 64 × IV 64 × Nat) :=
  forRange 0 lens.len (codes, symbols, code) fun s (codes, symbols, code) => do
    let x ← lens.get c s
    if x.toNat = l then do
      let codes ← codes.set c s (BitVec.ofNat 64 code)
      let symbols ← symbols.push c (BitVec.ofNat 64 s)
      let code ← addN c 64 code 1
      .ok (codes, symbols, code)
    else .ok (codes, symbols, code)

/-- `for l in l .. l + n { let first = code; (the stage); if code > 1 << l { return None } counts.push(code - first); code <<= 1 }` -/
def canonLoop (lens : IV 64) : Nat → Nat → IV 64 → IV 64 → IV 64 → Nat → Res (Option Canon)
  | 0, _, codes, counts, symbols, _ => .ok (some ⟨lens, codes, counts, symbols⟩)
  | n + 1, l, codes, counts, symbols, first => do
    let (codes, symbols, code) ← canonStage c lens l codes symbols first
    let limit ← shlN c 64 1 l
    if code > limit then .ok none
    else do
      let count ← subN c 64 code first
      let counts ← counts.push c (BitVec.ofNat 64 count)
      let code ← shlN c 64 code 1
      canonLoop lens n (l + 1) codes counts symbols code

/-- A code for the symbols `0 .. lens.len()` with codewords of the given lengths, none above `longest`; `None` if there is none. -/
def canonNew (longest : Nat) (lens : IV 64) : Res (Option Canon) := do
  let codes ← IV.withFill c 64 lens.len 0
  let counts ← IV.new 64 64
  let symbols ← IV.new 64 64
  canonLoop c lens longest 1 codes counts symbols 0

/-- `sink.write_int_be(lens.get(v), codes.get(v))` -/
def Canon.encode (t : Canon) (W : BitWrite σ) (v : Nat) : SM σ Unit := do
  let l ← SM.lift (t.lens.get c v)
  let x ← SM.lift (t.codes.get c v)
  writeIntBe c false W (asUsize c l.toNat) x

/-- For each length, read one more bit; `code - first < count` if the bits read are the codeword of a symbol. -/
def Canon.decodeLoop (t : Canon) (R : BitRead σ) : Nat → Nat → Nat → Nat → Nat → SM σ (Option Nat)
  | 0, _, _, _, _ => tooManyBits
  | n + 1, l, code, first, index => do
    match ← R.readBit with
    | none => if l = 0 then pure none else outOfBits
    | some bit => do
      let code ← SM.lift (addN c 64 code bit.toNat)
      let count ← SM.lift (t.counts.get c l)
      let rel ← SM.lift (subN c 64 code first)
      if rel < count.toNat then do
        let i ← SM.lift (addN c 64 index rel)
        let x ← SM.lift (t.symbols.get c i)
        pure (some x.toNat)
      else do
        let index ← SM.lift (addN c 64 index count.toNat)
        let next ← SM.lift (addN c 64 first count.toNat)
        let first ← SM.lift (shlN c 64 next 1)
        let code ← SM.lift (shlN c 64 code 1)
        t.decodeLoop R n (l + 1) code first index

/-- The code as a `UniversalCode`. -/
def canonCode (t : Canon) : Code := ⟨t.encode c, fun R => t.decodeLoop c R t.counts.len 0 0 0 0⟩
end

/-! ### The numbers -/

/-- The number of the first codeword of length `l`. -/
def firstOf (lens : List Nat) : Nat → Nat
  | 0 => 0
  | l + 1 => 2 * (firstOf lens l + lens.count l)

/-- The number of the codeword of symbol `v`. -/
def codeOf (lens : List Nat) (v : Nat) : Nat := firstOf lens (lens.getD v 0) + (lens.take v).count (lens.getD v 0)

/-- The symbols with codewords of length `l`. -/
def symsOf (lens : List Nat) (l : Nat) : List Nat := (List.range lens.length).filter fun i => lens.getD i 0 = l

/-- The symbols with codewords of lengths `1 ..= l`, the shortest first. -/
def symsTo (lens : List Nat) : Nat → List Nat
  | 0 => []
  | l + 1 => symsTo lens l ++ symsOf lens (l + 1)

/-- The codeword of symbol `v`. -/
def canonWord (lens : List Nat) (v : Nat) : List Bool := (natBits (lens.getD v 0) (codeOf lens v)).reverse

theorem range_filter_length (lens : List Nat) (l : Nat) : ∀ v, v ≤ lens.length →
    ((List.range v).filter fun i => lens.getD i 0 = l).length = (lens.take v).count l
  | 0, _ => by simp
  | v + 1, h => by
    rw [List.range_succ, List.filter_append, List.length_append, range_filter_length lens l v (by omega),
      List.take_succ_eq_append_getElem (by omega), List.count_append, List.count_singleton]
    simp only [List.filter_cons, List.filter_nil, List.getD_eq_getElem?_getD, List.getElem?_eq_getElem (show v < lens.length by omega),
      Option.getD_some, decide_eq_true_eq, beq_iff_eq]
    split <;> rfl

theorem symsOf_length (lens : List Nat) (l : Nat) : (symsOf lens l).length = lens.count l := by
  rw [symsOf, range_filter_length _ _ _ (Nat.le_refl _), List.take_length]

theorem symsOf_at {lens : List Nat} {v : Nat} (hv : v < lens.length) :
    (symsOf lens (lens.getD v 0))[(lens.take v).count (lens.getD v 0)]? = some v := by
  have e : List.range lens.length = List.range v ++ v :: (List.range (lens.length - v - 1)).map (v + 1 + ·) := by
    have := List.range_add (n := v + 1) (m := lens.length - v - 1)
    rw [show v + 1 + (lens.length - v - 1) = lens.length by omega, List.range_succ] at this
    rw [this, List.append_assoc]; rfl
  have hl := range_filter_length lens (lens.getD v 0) v (by omega)
  rw [symsOf, e, List.filter_append, ← hl, List.getElem?_append_right (Nat.le_refl _), Nat.sub_self, List.filter_cons_of_pos (by simp)]
  rfl

theorem symsOf_spec {lens : List Nat} {l j v : Nat} (h : (symsOf lens l)[j]? = some v) :
    v < lens.length ∧ lens.getD v 0 = l ∧ codeOf lens v = firstOf lens l + j := by
  have hm := List.mem_of_getElem? h
  rw [symsOf, List.mem_filter, List.mem_range, decide_eq_true_eq] at hm
  obtain ⟨h1, h2⟩ := hm
  refine ⟨h1, h2, ?_⟩
  have h3 := symsOf_at h1
  rw [h2] at h3
  have hn : (symsOf lens l).Nodup := List.nodup_range.filter _
  have : (lens.take v).count l = j := by
    obtain ⟨hj, hj'⟩ := List.getElem?_eq_some_iff.1 h
    obtain ⟨hk, hk'⟩ := List.getElem?_eq_some_iff.1 h3
    exact (List.getElem_inj hn).1 (hk'.trans hj'.symm)
  rw [codeOf, h2, this]

theorem symsTo_length_le (lens : List Nat) {l m : Nat} (h : l ≤ m) : (symsTo lens l).length ≤ (symsTo lens m).length := by
  induction m with
  | zero => rw [Nat.le_zero.1 h]; exact Nat.le_refl _
  | succ m ih =>
    rcases Nat.lt_or_ge m l with h' | h'
    · rw [show l = m + 1 by omega]; exact Nat.le_refl _
    · rw [symsTo, List.length_append]
      have := ih h'
      omega

theorem symsTo_at (lens : List Nat) {l m j : Nat} (h : l < m) (hj : j < lens.count (l + 1)) :
    (symsTo lens m)[(symsTo lens l).length + j]? = (symsOf lens (l + 1))[j]? := by
  induction m with
  | zero => omega
  | succ m ih =>
    rcases Nat.lt_or_ge l m with h' | h'
    · rw [symsTo, List.getElem?_append_left, ih h']
      have := symsTo_length_le lens (show l + 1 ≤ m by omega)
      rw [symsTo, List.length_append, symsOf_length] at this
      omega
    · obtain rfl : l = m := by omega
      rw [symsTo, List.getElem?_append_right (by omega), Nat.add_sub_cancel_left]

theorem symsTo_length (lens : List Nat) (l : Nat) : (symsTo lens l).length ≤ lens.length := by
  refine Nat.le_trans (m := lens.countP fun x => decide (x ≤ l)) ?_ List.countP_le_length
  induction l with
  | zero => exact Nat.zero_le _
  | succ l ih =>
    rw [symsTo, List.length_append, symsOf_length]
    refine Nat.le_trans (Nat.add_le_add_right ih _) (Nat.le_of_eq ?_)
    clear ih
    induction lens with
    | nil => rfl
    | cons x xs ih =>
      rw [List.countP_cons, List.countP_cons, List.count_cons, ← ih]
      rcases Nat.lt_trichotomy x (l + 1) with h | h | h
      · rw [if_pos (by simp; omega), if_neg (by simp; omega), if_pos (by simp; omega)]; omega
      · rw [if_neg (by simp; omega), if_pos (by simp; omega), if_pos (by simp; omega)]; omega
      · rw [if_neg (by simp; omega), if_neg (by simp; omega), if_neg (by simp; omega)]; omega

/-- The codewords so far, times two for each further bit. -/
theorem firstOf_pow (lens : List Nat) (l k : Nat) : 2 ^ (k + 1) * (firstOf lens l + lens.count l) ≤ firstOf lens (l + k + 1) := by
  induction k with
  | zero => rw [firstOf]; omega
  | succ k ih =>
    rw [show l + (k + 1) + 1 = (l + k + 1) + 1 by omega, firstOf, Nat.pow_succ, Nat.mul_comm _ 2, Nat.mul_assoc]
    omega

theorem firstOf_sum (lens : List Nat) (h1 : ∀ x ∈ lens, 1 ≤ x) (l : Nat) :
    firstOf lens l + lens.count l = ((lens.filter fun x => decide (x ≤ l)).map fun x => 2 ^ (l - x)).sum := by
  induction l with
  | zero =>
    have : lens.filter (fun x => decide (x ≤ 0)) = [] := by
      rw [List.filter_eq_nil_iff]; intro a ha; have := h1 a ha; simp; omega
    rw [this, List.count_eq_zero.2 fun h => by have := h1 0 h; omega]; rfl
  | succ l ih =>
    rw [firstOf, ih]
    clear ih h1
    induction lens with
    | nil => rfl
    | cons x xs ih =>
      rw [List.filter_cons, List.filter_cons, List.count_cons]
      rcases Nat.lt_or_ge l x with h | h
      · rw [if_neg (by simp; omega)]
        by_cases hx : x = l + 1
        · subst hx
          simp only [Nat.le_refl, decide_true, if_true, List.map_cons, List.sum_cons, Nat.sub_self, Nat.pow_zero, beq_self_eq_true]
          omega
        · rw [if_neg (by simp; omega), if_neg (by simp; omega)]
          omega
      · rw [if_pos (by simp; omega), if_neg (by simp; omega), if_pos (by simp; omega)]
        simp only [List.map_cons, List.sum_cons]
        rw [show l + 1 - x = (l - x) + 1 by omega, Nat.pow_succ]
        omega

/-! ### Building -/

/-- The codewords given so far: those shorter than `l`, and those of length `l` for symbols below `s`. -/
def codesAt (lens : List Nat) (l s : Nat) : List Nat :=
  (List.range lens.length).map fun i => if lens.getD i 0 < l ∨ lens.getD i 0 = l ∧ i < s then codeOf lens i else 0

theorem codesAt_next (lens : List Nat) (l : Nat) : codesAt lens l lens.length = codesAt lens (l + 1) 0 := by
  apply List.map_congr_left
  intro i hi
  rw [List.mem_range] at hi
  congr 1
  simp only [eq_iff_iff]
  omega

theorem codesAt_init (lens : List Nat) (h1 : ∀ x ∈ lens, 1 ≤ x) : codesAt lens 1 0 = List.replicate lens.length 0 := by
  rw [List.eq_replicate_iff, codesAt, List.length_map, List.length_range]
  refine ⟨rfl, fun b hb => ?_⟩
  obtain ⟨i, hi, rfl⟩ := List.mem_map.1 hb
  rw [List.mem_range] at hi
  have := h1 _ (List.getElem_mem hi)
  rw [if_neg]
  rw [List.getD_eq_getElem?_getD, List.getElem?_eq_getElem hi, Option.getD_some]
  omega

theorem codesAt_other {lens : List Nat} {l s : Nat} (h : lens.getD s 0 ≠ l) : codesAt lens l (s + 1) = codesAt lens l s := by
  apply List.map_congr_left
  intro i hi
  congr 1
  simp only [eq_iff_iff]
  by_cases e : i = s
  · subst e; omega
  · omega

theorem codesAt_set {lens : List Nat} {l s : Nat} (h : lens.getD s 0 = l) : codesAt lens l (s + 1) = (codesAt lens l s).set s (codeOf lens s) := by
  apply List.ext_getElem
  · simp [codesAt]
  · intro i h1 h2
    rw [List.getElem_set]
    simp only [codesAt, List.getElem_map, List.getElem_range]
    by_cases e : s = i
    · subst e; rw [if_pos rfl, if_pos (by omega)]
    · rw [if_neg e]
      congr 1
      simp only [eq_iff_iff]
      omega

theorem codesAt_last {lens : List Nat} {l : Nat} (hl : ∀ x ∈ lens, x < l) : codesAt lens l 0 = (List.range lens.length).map (codeOf lens) := by
  apply List.map_congr_left
  intro i hi
  rw [List.mem_range] at hi
  have := hl _ (List.getElem_mem hi)
  rw [if_pos]
  rw [List.getD_eq_getElem?_getD, List.getElem?_eq_getElem hi, Option.getD_some]
  exact .inl this

section
variable {c : Cfg} {k : Nat} {v : IV 64} {lens : List Nat}

theorem canonStage_ok (hv : IR c 64 k v lens) (hf : Fits c.usz 64 (lens.length * 64)) {l : Nat} {codes symbols : IV 64} {ys : List Nat}
    (hc : IR c 64 64 codes (codesAt lens l 0)) (hs : IR c 64 64 symbols ys) (hy : ys.length + lens.count l ≤ lens.length)
    (hb : firstOf lens l + lens.length < 2 ^ 64) :
    ∃ codes' symbols', canonStage c v l codes symbols (firstOf lens l) = .ok (codes', symbols', firstOf lens l + lens.count l) ∧
      IR c 64 64 codes' (codesAt lens (l + 1) 0) ∧ IR c 64 64 symbols' (ys ++ symsOf lens l) := by
  have hn : lens.length < 2 ^ 64 := by omega
  have hlen : v.len = lens.length := hv.len
  have hstep := forRange_inv (lo := 0) (hi := v.len) (s := (codes, symbols, firstOf lens l))
    (f := fun s (codes, symbols, code) => do
      let x ← v.get c s
      if x.toNat = l then do
        let codes ← codes.set c s (BitVec.ofNat 64 code)
        let symbols ← symbols.push c (BitVec.ofNat 64 s)
        let code ← addN c 64 code 1
        .ok (codes, symbols, code)
      else .ok (codes, symbols, code))
    (fun s st => IR c 64 64 st.1 (codesAt lens l s) ∧
      IR c 64 64 st.2.1 (ys ++ (List.range s).filter fun i => lens.getD i 0 = l) ∧ st.2.2 = firstOf lens l + (lens.take s).count l)
    (Nat.zero_le _) ⟨hc, by simpa using hs, by simp⟩ (by
      rintro s ⟨a, b, d⟩ - hsl ⟨h1, h2, h3⟩
      rw [hlen] at hsl
      simp only at h1 h2 h3
      subst h3
      have hg : lens.getD s 0 = lens[s] := by rw [List.getD_eq_getElem?_getD, List.getElem?_eq_getElem hsl, Option.getD_some]
      have hcnt : (lens.take (s + 1)).count l = (lens.take s).count l + if lens[s] = l then 1 else 0 := by
        rw [List.take_succ_eq_append_getElem hsl, List.count_append, List.count_singleton]
        simp only [beq_iff_eq]
      have hle : (lens.take (s + 1)).count l ≤ lens.count l := (List.take_sublist _ _).count_le _
      have hle2 : lens.count l ≤ lens.length := List.count_le_length
      obtain ⟨x, hx1, hx2⟩ := hv.get_ok isBlk64 hsl
      simp only [hx1, Res.ok_bind]
      by_cases he : lens[s] = l
      · rw [if_pos he] at hcnt
        rw [if_pos (hx2.trans he)]
        obtain ⟨a', ha1, ha2⟩ := h1.set_ok isBlk64 (i := s) (x := BitVec.ofNat 64 (firstOf lens l + (lens.take s).count l))
          (by simpa [codesAt] using hsl) (BitVec.isLt _)
        obtain ⟨b', hb1, hb2⟩ := h2.push_ok isBlk64 (BitVec.ofNat 64 s)
          (hf.mono (by
            rw [List.length_append, range_filter_length _ _ _ (by omega)]
            have : (ys.length + (lens.take s).count l + 1) * 64 ≤ lens.length * 64 := Nat.mul_le_mul_right _ (by omega)
            omega)) (BitVec.isLt _)
        rw [ha1, Res.ok_bind, hb1, Res.ok_bind, addN_ok (by omega), Res.ok_bind]
        refine ⟨_, rfl, ?_, ?_, ?_⟩
        · simp only
          rw [BitVec.toNat_ofNat, Nat.mod_eq_of_lt (by omega)] at ha2
          rw [codesAt_set (hg.trans he), codeOf, hg, he]
          exact ha2
        · simp only
          rw [BitVec.toNat_ofNat, Nat.mod_eq_of_lt (by omega)] at hb2
          rw [List.range_succ, List.filter_append, ← List.append_assoc, List.filter_cons_of_pos (by rw [hg]; simpa using he)]
          exact hb2
        · simp only [hcnt]; omega
      · rw [if_neg he] at hcnt
        rw [if_neg (by rw [hx2]; exact he)]
        refine ⟨_, rfl, ?_, ?_, ?_⟩
        · simp only
          rw [codesAt_other (by rw [hg]; exact he)]
          exact h1
        · simp only
          rw [List.range_succ, List.filter_append, List.filter_cons_of_neg (by rw [hg]; simpa using he)]
          simpa using h2
        · simp only [hcnt, Nat.add_zero])
  obtain ⟨⟨a, b, d⟩, h1, h2, h3, h4⟩ := hstep
  simp only [hlen] at h2 h3 h4
  rw [codesAt_next] at h2
  rw [List.take_length] at h4
  subst h4
  exact ⟨a, b, h1, h2, h3⟩

/-- What the programs keep of the lengths. -/
structure CanonRep (c : Cfg) (longest : Nat) (lens : List Nat) (t : Canon) : Prop where
  wide : longest ≤ 62
  room : lens.length < 2 ^ 58
  range : ∀ x ∈ lens, 1 ≤ x ∧ x ≤ longest
  kraft : ∀ l, l ≤ longest → firstOf lens l + lens.count l ≤ 2 ^ l
  lensR : ∃ k, IR c 64 k t.lens lens
  codesR : IR c 64 64 t.codes ((List.range lens.length).map (codeOf lens))
  countsR : IR c 64 64 t.counts ((List.range longest).map fun l => lens.count (l + 1))
  symbolsR : IR c 64 64 t.symbols (symsTo lens longest)

theorem canonLoop_ok {longest : Nat} (hL : longest ≤ 62) (hr : ∀ x ∈ lens, 1 ≤ x ∧ x ≤ longest) (hv : IR c 64 k v lens)
    (hf : Fits c.usz 64 (lens.length * 64)) (hg : Fits c.usz 64 (longest * 64)) (n l : Nat) (hn : n + l = longest)
    {codes counts symbols : IV 64} (hc : IR c 64 64 codes (codesAt lens (l + 1) 0))
    (hk : IR c 64 64 counts ((List.range l).map fun l => lens.count (l + 1))) (hs : IR c 64 64 symbols (symsTo lens l))
    (hb : ∀ j, j ≤ l → firstOf lens j + lens.count j ≤ 2 ^ j) :
    (∃ t, canonLoop c v n (l + 1) codes counts symbols (firstOf lens (l + 1)) = .ok (some t) ∧ CanonRep c longest lens t) ∨
    (canonLoop c v n (l + 1) codes counts symbols (firstOf lens (l + 1)) = .ok none ∧
      ∃ j, j ≤ longest ∧ 2 ^ j < firstOf lens j + lens.count j) := by
  have hroom : lens.length < 2 ^ 58 := by have := hf.lt (by omega); omega
  induction n generalizing l codes counts symbols with
  | zero =>
    obtain rfl : l = longest := by omega
    refine .inl ⟨_, rfl, ⟨hL, hroom, hr, hb, ⟨_, hv⟩, ?_, hk, hs⟩⟩
    rw [codesAt_last fun x hx => by have := (hr x hx).2; omega] at hc
    exact hc
  | succ n ih =>
    have hp : (2 : Nat) ^ (l + 1) ≤ 2 ^ 62 := Nat.pow_le_pow_right (by omega) (by omega)
    have hp' : (2 : Nat) ^ (l + 1) = 2 ^ l * 2 := Nat.pow_succ ..
    have hfst : firstOf lens (l + 1) ≤ 2 ^ (l + 1) := by
      have := hb l (Nat.le_refl _)
      rw [firstOf]; omega
    have hcl : lens.count (l + 1) ≤ lens.length := List.count_le_length
    have hto := symsTo_length lens (l + 1)
    rw [symsTo, List.length_append, symsOf_length] at hto
    obtain ⟨codes', symbols', h1, h2, h3⟩ := canonStage_ok hv hf hc hs hto (by omega)
    rw [canonLoop, h1]
    simp only [Res.ok_bind]
    rw [shlN_ok (by omega) (by omega), Res.ok_bind, Nat.one_mul]
    by_cases hlim : firstOf lens (l + 1) + lens.count (l + 1) > 2 ^ (l + 1)
    · rw [if_pos hlim]
      exact .inr ⟨rfl, l + 1, by omega, hlim⟩
    · rw [if_neg hlim, subN_ok (by omega), Res.ok_bind, Nat.add_sub_cancel_left]
      obtain ⟨counts', h4, h5⟩ := hk.push_ok isBlk64 (BitVec.ofNat 64 (lens.count (l + 1)))
        (hg.mono (by
          rw [List.length_map, List.length_range]
          have : (l + 1) * 64 ≤ longest * 64 := Nat.mul_le_mul_right _ (by omega)
          omega)) (BitVec.isLt _)
      rw [BitVec.toNat_ofNat, Nat.mod_eq_of_lt (by omega)] at h5
      rw [h4, Res.ok_bind, shlN_ok (by omega) (by omega), Res.ok_bind,
        show (firstOf lens (l + 1) + lens.count (l + 1)) * 2 ^ 1 = firstOf lens (l + 1 + 1) by show _ = 2 * (_ + _); omega]
      refine ih (l + 1) (by omega) h2 ?_ h3 ?_
      · rw [List.range_succ, List.map_append]; exact h5
      · intro j hj
        rcases Nat.lt_or_ge l j with h | h
        · obtain rfl : j = l + 1 := by omega
          omega
        · exact hb j h

theorem canonNew_ok {longest : Nat} (hL : longest ≤ 62) (hr : ∀ x ∈ lens, 1 ≤ x ∧ x ≤ longest) (hv : IR c 64 k v lens)
    (hf : Fits c.usz 64 (lens.length * 64)) (hg : Fits c.usz 64 (longest * 64)) :
    (∃ t, canonNew c longest v = .ok (some t) ∧ CanonRep c longest lens t) ∨
    (canonNew c longest v = .ok none ∧ ∃ j, j ≤ longest ∧ 2 ^ j < firstOf lens j + lens.count j) := by
  have hlen : v.len = lens.length := hv.len
  obtain ⟨v0, h1, h2⟩ := ivInit_ok c isBlk64 (k := 64) (by omega) (Nat.le_refl _) (.new : IvInit 64) trivial
  have h1 : IV.new 64 64 = .ok v0 := h1
  obtain ⟨v1, h3, h4⟩ := ivInit_ok c isBlk64 (k := 64) (by omega) (Nat.le_refl _) (.withFill v.len 0 : IvInit 64)
    (by show Fits _ _ _; rw [hlen]; exact hf)
  have h3 : IV.withFill c 64 v.len 0 = .ok v1 := h3
  rw [canonNew, h3, Res.ok_bind, h1, Res.ok_bind, Res.ok_bind]
  have h0 : firstOf lens 0 + lens.count 0 = 0 := by
    rw [firstOf, List.count_eq_zero.2 fun h => by have := (hr 0 h).1; omega]
  have := canonLoop_ok hL hr hv hf hg longest 0 rfl (codes := v1) (counts := v0) (symbols := v0)
    (by rw [codesAt_init lens fun x hx => (hr x hx).1]; simpa [IvInit.elems, hlen] using h4) h2 h2
    (fun j hj => by rw [Nat.le_zero.1 hj, h0]; omega)
  rwa [show firstOf lens (0 + 1) = 0 by rw [firstOf, h0]] at this

end

/-! ### Decoding -/

/-- The number whose bits, highest first, are given. -/
def beVal (p : List Bool) : Nat := bitsVal p.reverse

theorem beVal_append (p q : List Bool) : beVal (p ++ q) = beVal p * 2 ^ q.length + beVal q := by
  rw [beVal, List.reverse_append, bitsVal_append, List.length_reverse, Nat.mul_comm, Nat.add_comm]; rfl

theorem beVal_lt (p : List Bool) : beVal p < 2 ^ p.length := by
  have := bitsVal_lt p.reverse
  rwa [List.length_reverse] at this

theorem beVal_one (b : Bool) : beVal [b] = b.toNat := by cases b <;> rfl

theorem beVal_natBits {m x : Nat} (h : x < 2 ^ m) : beVal (natBits m x).reverse = x := by
  rw [beVal, List.reverse_reverse, bitsVal_natBits, Nat.mod_eq_of_lt h]

theorem natBits_beVal (p : List Bool) : (natBits p.length (beVal p)).reverse = p := by
  rw [beVal, ← List.length_reverse, natBits_bitsVal, List.reverse_reverse]

section
variable {c : Cfg} {longest : Nat} {lens : List Nat} {t : Canon} {σ : Type} {R : BitRead σ}

theorem CanonRep.count_ok (h : CanonRep c longest lens t) {l : Nat} (hl : l < longest) :
    ∃ x, t.counts.get c l = .ok x ∧ x.toNat = lens.count (l + 1) := by
  obtain ⟨x, h1, h2⟩ := h.countsR.get_ok isBlk64 (i := l) (by simpa using hl)
  exact ⟨x, h1, by simpa using h2⟩

theorem CanonRep.loop_none (h : NoBit (R.readBit s)) (n l code first index : Nat) :
    t.decodeLoop c R (n + 1) l code first index s =
      stopWith (if l = 0 then .ok none else .error .unexpectedEof) (R.readBit s) := by
  rw [Canon.decodeLoop]
  apply bind_noBit h
  intro s
  by_cases hl : l = 0
  · rw [if_pos hl, if_pos hl]; rfl
  · rw [if_neg hl, if_neg hl]; rfl

theorem CanonRep.bounds (h : CanonRep c longest lens t) {l x : Nat} (hl : l < longest) (hx : x < 2 ^ l) (b : Bool) :
    2 * x + b.toNat < 2 ^ (l + 1) ∧ 2 ^ (l + 1) ≤ 2 ^ 62 ∧ (symsTo lens l).length + lens.count (l + 1) < 2 ^ 58 := by
  have h1 : (2 : Nat) ^ (l + 1) = 2 ^ l * 2 := Nat.pow_succ ..
  have h2 := symsTo_length lens (l + 1)
  have h3 := h.room
  have h4 := h.wide
  have hb : b.toNat ≤ 1 := by cases b <;> decide
  rw [symsTo, List.length_append, symsOf_length] at h2
  exact ⟨by omega, Nat.pow_le_pow_right (by omega) (by omega), by omega⟩

theorem CanonRep.loop_hit (h : CanonRep c longest lens t) {s s1 : σ} {b : Bool} (hr : R.readBit s = .ok (.ok (some b), s1)) {l x : Nat} (n : Nat)
    (hl : l < longest) (hx : x < 2 ^ l) (h1 : firstOf lens (l + 1) ≤ 2 * x)
    (h2 : 2 * x + b.toNat < firstOf lens (l + 1) + lens.count (l + 1)) :
    t.decodeLoop c R (n + 1) l (2 * x) (firstOf lens (l + 1)) (symsTo lens l).length s =
      .ok (.ok (symsOf lens (l + 1))[2 * x + b.toNat - firstOf lens (l + 1)]?, s1) := by
  obtain ⟨g1, g2, g3⟩ := h.bounds hl hx b
  obtain ⟨y, hy1, hy2⟩ := h.count_ok hl
  have hj : 2 * x + b.toNat - firstOf lens (l + 1) < lens.count (l + 1) := by omega
  have hat := symsTo_at lens hl hj
  have hj' : 2 * x + b.toNat - firstOf lens (l + 1) < (symsOf lens (l + 1)).length := by rw [symsOf_length]; exact hj
  rw [List.getElem?_eq_getElem hj'] at hat ⊢
  obtain ⟨hi, hi'⟩ := List.getElem?_eq_some_iff.1 hat
  obtain ⟨z, hz1, hz2⟩ := h.symbolsR.get_ok isBlk64 hi
  rw [Canon.decodeLoop, SM.bind_run_ok hr]
  simp only
  rw [addN_ok (by omega), SM.lift_ok_bind, hy1, SM.lift_ok_bind, subN_ok (by omega), SM.lift_ok_bind, if_pos (by omega),
    addN_ok (by omega), SM.lift_ok_bind, hz1, SM.lift_ok_bind, hz2, hi']
  rfl

theorem CanonRep.loop_more (h : CanonRep c longest lens t) {s s1 : σ} {b : Bool} (hr : R.readBit s = .ok (.ok (some b), s1)) {l x : Nat} (n : Nat)
    (hl : l < longest) (hx : x < 2 ^ l)
    (h2 : firstOf lens (l + 1) + lens.count (l + 1) ≤ 2 * x + b.toNat) :
    t.decodeLoop c R (n + 1) l (2 * x) (firstOf lens (l + 1)) (symsTo lens l).length s =
      t.decodeLoop c R n (l + 1) (2 * (2 * x + b.toNat)) (firstOf lens (l + 1 + 1)) (symsTo lens (l + 1)).length s1 := by
  obtain ⟨g1, g2, g3⟩ := h.bounds hl hx b
  obtain ⟨y, hy1, hy2⟩ := h.count_ok hl
  rw [Canon.decodeLoop, SM.bind_run_ok hr]
  simp only
  rw [addN_ok (by omega), SM.lift_ok_bind, hy1, SM.lift_ok_bind, subN_ok (by omega), SM.lift_ok_bind, if_neg (by omega),
    addN_ok (by omega), SM.lift_ok_bind, addN_ok (by omega), SM.lift_ok_bind, shlN_ok (by omega) (by omega), SM.lift_ok_bind,
    shlN_ok (by omega) (by omega), SM.lift_ok_bind, hy2, symsTo, List.length_append, symsOf_length,
    show firstOf lens (l + 1 + 1) = (firstOf lens (l + 1) + lens.count (l + 1)) * 2 ^ 1 by show 2 * (_ + _) = _; omega,
    show 2 * (2 * x + b.toNat) = (2 * x + b.toNat) * 2 ^ 1 by omega]

/-- Bits after which no symbol has been found. -/
theorem CanonRep.loop_run (h : CanonRep c longest lens t) {s s1 : σ} {p : List Bool} (hr : Reads R s p s1) {l x : Nat} (n : Nat)
    (hl : l + p.length ≤ longest) (hx : x < 2 ^ l) (h1 : firstOf lens (l + 1) ≤ 2 * x)
    (h2 : firstOf lens (l + p.length + 1) ≤ 2 * (x * 2 ^ p.length + beVal p)) :
    t.decodeLoop c R (n + p.length) l (2 * x) (firstOf lens (l + 1)) (symsTo lens l).length s =
      t.decodeLoop c R n (l + p.length) (2 * (x * 2 ^ p.length + beVal p)) (firstOf lens (l + p.length + 1)) (symsTo lens (l + p.length)).length s1 := by
  induction hr generalizing l x with
  | nil => simp [beVal, bitsVal]
  | @cons s s' s1 b p hb hr ih =>
    rw [List.length_cons] at hl h2 ⊢
    have e : x * 2 ^ (p.length + 1) + beVal (b :: p) = (2 * x + b.toNat) * 2 ^ p.length + beVal p := by
      rw [show b :: p = [b] ++ p from rfl, beVal_append, beVal_one, Nat.pow_succ, Nat.add_mul, ← Nat.add_assoc,
        Nat.mul_comm 2 x, Nat.mul_assoc, Nat.mul_comm 2]
    rw [e, show l + (p.length + 1) = l + 1 + p.length by omega] at h2 ⊢
    have hlt := beVal_lt p
    have hpw := firstOf_pow lens (l + 1) p.length
    have hhit : firstOf lens (l + 1) + lens.count (l + 1) ≤ 2 * x + b.toNat := by
      apply Nat.le_of_lt_succ
      apply Nat.lt_of_mul_lt_mul_left (a := 2 ^ (p.length + 1))
      rw [Nat.pow_succ] at hpw ⊢
      have : 2 ^ p.length * 2 * (2 * x + b.toNat).succ = 2 * ((2 * x + b.toNat) * 2 ^ p.length) + 2 * 2 ^ p.length := by
        rw [Nat.mul_succ, Nat.mul_comm _ 2, Nat.mul_assoc, Nat.mul_comm (2 ^ p.length)]
      omega
    rw [show n + (p.length + 1) = n + p.length + 1 by omega, h.loop_more hb _ (by omega) hx hhit]
    exact ih (by omega) (h.bounds (by omega) hx b).1 (by show 2 * (_ + _) ≤ _; omega) h2

theorem CanonRep.lens_at (h : CanonRep c longest lens t) {v : Nat} (hv : v < lens.length) :
    1 ≤ lens.getD v 0 ∧ lens.getD v 0 ≤ longest := by
  rw [List.getD_eq_getElem?_getD, List.getElem?_eq_getElem hv, Option.getD_some]
  exact h.range _ (List.getElem_mem hv)

theorem take_count_lt {v : Nat} (hv : v < lens.length) : (lens.take v).count (lens.getD v 0) < lens.count (lens.getD v 0) := by
  have h1 := symsOf_at hv
  have h2 := (List.getElem?_eq_some_iff.1 h1).1
  rwa [symsOf_length] at h2

theorem CanonRep.code_lt (h : CanonRep c longest lens t) {v : Nat} (hv : v < lens.length) : codeOf lens v < 2 ^ lens.getD v 0 := by
  have h1 := take_count_lt hv
  have h2 := h.kraft _ (h.lens_at hv).2
  rw [codeOf]
  omega

theorem CanonRep.encodes (h : CanonRep c longest lens t) : EncodesBy (canonCode c t) (· < lens.length) (canonWord lens) := by
  intro v hv σ W
  obtain ⟨k, hk⟩ := h.lensR
  obtain ⟨x, hx1, hx2⟩ := hk.get_ok isBlk64 hv
  obtain ⟨y, hy1, hy2⟩ := h.codesR.get_ok isBlk64 (i := v) (by simpa using hv)
  have hg : lens.getD v 0 = lens[v] := by rw [List.getD_eq_getElem?_getD, List.getElem?_eq_getElem hv, Option.getD_some]
  have hr := h.lens_at hv
  have hw := h.wide
  have hu : asUsize c x.toNat = lens.getD v 0 := by
    rw [hx2, ← hg]
    exact asUsize_small c (by omega)
  simp only [List.getElem_map, List.getElem_range] at hy2
  show Canon.encode c t W v = _
  rw [Canon.encode, hx1, SM.lift_ok_bind, hy1, SM.lift_ok_bind, hu, writeIntBe_eq c false W (by omega) y hr.1 (by omega) (by simp), hy2]
  rfl

theorem CanonRep.counts_len (h : CanonRep c longest lens t) : t.counts.len = longest := by
  have := h.countsR.len
  rw [List.length_map, List.length_range] at this
  exact this

theorem CanonRep.start (h : CanonRep c longest lens t) : firstOf lens (0 + 1) = 0 := by
  rw [firstOf, firstOf, List.count_eq_zero.2 fun h' => by have := (h.range 0 h').1; omega]

theorem CanonRep.decode_run (h : CanonRep c longest lens t) {s s1 : σ} {p : List Bool} (hr : Reads R s p s1) (hl : p.length ≤ longest)
    (h2 : firstOf lens (p.length + 1) ≤ 2 * beVal p) : (canonCode c t).decode R s =
      t.decodeLoop c R (longest - p.length) p.length (2 * beVal p) (firstOf lens (p.length + 1)) (symsTo lens p.length).length s1 := by
  have := h.loop_run hr (l := 0) (x := 0) (longest - p.length) (by omega) (by decide) (by rw [h.start]; omega) (by simpa using h2)
  rw [h.start, Nat.zero_mul, Nat.zero_add, Nat.zero_add, show longest - p.length + p.length = longest by omega] at this
  show t.decodeLoop c R t.counts.len 0 0 0 0 s = _
  rw [h.counts_len]
  exact this

theorem canonWord_length (v : Nat) : (canonWord lens v).length = lens.getD v 0 := by rw [canonWord, List.length_reverse, natBits_length]

theorem CanonRep.word_val (h : CanonRep c longest lens t) {v : Nat} (hv : v < lens.length) : beVal (canonWord lens v) = codeOf lens v :=
  beVal_natBits (h.code_lt hv)

/-- Proper prefixes of codewords come after all shorter codewords. -/
theorem CanonRep.prefix_after (h : CanonRep c longest lens t) {v : Nat} (hv : v < lens.length) {p q : List Bool} (e : canonWord lens v = p ++ q)
    (hq : q ≠ []) : firstOf lens p.length + lens.count p.length ≤ beVal p := by
  have hl := canonWord_length (lens := lens) v
  have hval := h.word_val hv
  rw [e, List.length_append] at hl
  rw [e, beVal_append] at hval
  obtain ⟨k, hk⟩ : ∃ k, q.length = k + 1 := ⟨q.length - 1, by have := List.length_pos_iff.2 hq; omega⟩
  have hpw := firstOf_pow lens p.length k
  rw [show p.length + k + 1 = lens.getD v 0 by omega] at hpw
  have hge : firstOf lens (lens.getD v 0) ≤ codeOf lens v := Nat.le_add_right ..
  have hlt := beVal_lt q
  rw [hk] at hlt hval
  apply Nat.le_of_lt_succ
  apply Nat.lt_of_mul_lt_mul_left (a := 2 ^ (k + 1))
  rw [Nat.mul_succ, Nat.mul_comm _ (beVal p)]
  omega

theorem CanonRep.decodes (h : CanonRep c longest lens t) : DecodesBy (canonCode c t) (· < lens.length) (canonWord lens) := by
  intro v hv σ R s s' hr
  have hl := canonWord_length (lens := lens) v
  have hval := h.word_val hv
  have hrange := h.lens_at hv
  rcases List.eq_nil_or_concat (canonWord lens v) with he | ⟨p, b, he⟩
  · rw [he, List.length_nil] at hl; omega
  rw [List.concat_eq_append] at he
  have hpre := h.prefix_after hv he (by simp)
  rw [he, List.length_append, List.length_singleton] at hl
  rw [he] at hr
  obtain ⟨s1, h1, h2⟩ := hr.split
  cases h2 with
  | cons h3 h4 =>
    cases h4
    rw [he, beVal_append, beVal_one, List.length_singleton, Nat.pow_one, Nat.mul_comm] at hval
    rw [h.decode_run h1 (by omega) (by show 2 * (_ + _) ≤ _; omega), show longest - p.length = (longest - p.length - 1) + 1 by omega]
    have hc := take_count_lt hv
    rw [codeOf, ← hl] at hval
    rw [← hl] at hc
    rw [h.loop_hit h3 _ (by omega) (beVal_lt p) (by show 2 * (_ + _) ≤ _; omega) (by omega), hval, Nat.add_sub_cancel_left]
    have := symsOf_at hv
    rw [← hl] at this
    rw [this]

theorem CanonRep.ends (h : CanonRep c longest lens t) (h1 : 1 ≤ longest) : EndsWell (canonCode c t) := by
  intro σ R s hn
  show t.decodeLoop c R t.counts.len 0 0 0 0 s = _
  rw [h.counts_len, show longest = longest - 1 + 1 by omega, CanonRep.loop_none hn, if_pos rfl]

theorem CanonRep.truncates (h : CanonRep c longest lens t) : TruncatesTo (canonCode c t) (· < lens.length) (canonWord lens) := by
  intro v hv p q e hp hq σ R s s' hr hn
  have hpre := h.prefix_after hv e hq
  have hl := canonWord_length (lens := lens) v
  have hrange := h.lens_at hv
  rw [e, List.length_append] at hl
  have h1 := List.length_pos_iff.2 hp
  have h2 := List.length_pos_iff.2 hq
  rw [h.decode_run hr (by omega) (by show 2 * (_ + _) ≤ _; omega), show longest - p.length = (longest - p.length - 1) + 1 by omega,
    CanonRep.loop_none hn, if_neg (by omega)]

theorem CanonRep.loop_only (h : CanonRep c longest lens t) (n l x : Nat) (hn : n + l = longest) (hx : x < 2 ^ l) (h1 : firstOf lens (l + 1) ≤ 2 * x)
    {s s' : σ} {v : Nat} (hr : t.decodeLoop c R n l (2 * x) (firstOf lens (l + 1)) (symsTo lens l).length s = .ok (.ok (some v), s')) :
    ∃ p, Reads R s p s' ∧ v < lens.length ∧ lens.getD v 0 = l + p.length ∧ codeOf lens v = x * 2 ^ p.length + beVal p := by
  induction n generalizing l x s with
  | zero => rw [Canon.decodeLoop] at hr; cases hr
  | succ n ih =>
    have hr0 := hr
    rw [Canon.decodeLoop] at hr0
    obtain ⟨o, s1, hb, hrest⟩ := SM.of_bind_ok hr0
    cases o with
    | none =>
      simp only at hrest
      split at hrest <;> cases hrest
    | some b =>
      clear hrest hr0
      rcases Nat.lt_or_ge (2 * x + b.toNat) (firstOf lens (l + 1) + lens.count (l + 1)) with hh | hh
      · rw [h.loop_hit hb n (by omega) hx h1 hh] at hr
        injection hr with hr
        injection hr with hr1 hr2
        injection hr1 with hr1
        subst hr2
        obtain ⟨a1, a2, a3⟩ := symsOf_spec hr1
        refine ⟨[b], .cons hb (.nil _), a1, a2, ?_⟩
        rw [a3, List.length_singleton, Nat.pow_one, beVal_one]
        omega
      · rw [h.loop_more hb n (by omega) hx hh] at hr
        obtain ⟨p, p1, p2, p3, p4⟩ := ih (l + 1) (2 * x + b.toNat) (by omega) (h.bounds (by omega) hx b).1
          (by show 2 * (_ + _) ≤ _; omega) hr
        refine ⟨b :: p, .cons hb p1, p2, by rw [List.length_cons]; omega, ?_⟩
        rw [p4, show b :: p = [b] ++ p from rfl, beVal_append, beVal_one, List.length_append, List.length_singleton, Nat.add_comm 1,
          Nat.pow_succ, Nat.add_mul, ← Nat.add_assoc, Nat.mul_comm 2 x, Nat.mul_assoc, Nat.mul_comm 2]

theorem CanonRep.only (h : CanonRep c longest lens t) : DecodesOnly (canonCode c t) (· < lens.length) (canonWord lens) := by
  intro σ R s s' v hr
  have hr : t.decodeLoop c R t.counts.len 0 0 0 0 s = _ := hr
  rw [h.counts_len] at hr
  obtain ⟨p, p1, p2, p3, p4⟩ := h.loop_only (R := R) longest 0 0 (by omega) (by decide) (by rw [h.start]; omega) (s := s) (s' := s') (v := v)
    (by rw [h.start]; exact hr)
  refine ⟨p, p1, fun _ => ⟨p2, ?_⟩⟩
  rw [Nat.zero_mul, Nat.zero_add] at p4
  rw [canonWord, p3, p4, Nat.zero_add, natBits_beVal]

theorem CanonRep.loop_total (h : CanonRep c longest lens t) {Rep : σ → List Bool → Prop} (hR : LawfulSource R Rep) (n l x : Nat) (hn : n + l = longest)
    (hx : x < 2 ^ l) (h1 : firstOf lens (l + 1) ≤ 2 * x) {bits : List Bool} {s : σ} (hs : Rep s bits) :
    ∃ r s' k, t.decodeLoop c R n l (2 * x) (firstOf lens (l + 1)) (symsTo lens l).length s = .ok (r, s') ∧ Rep s' (bits.drop k) := by
  induction n generalizing l x s bits with
  | zero => exact ⟨_, s, 0, rfl, hs⟩
  | succ n ih =>
    cases bits with
    | nil =>
      obtain ⟨s1, g1, g2⟩ := hR.none hs
      rw [CanonRep.loop_none (by rw [g1]; intro b s; simp), g1]
      exact ⟨_, s1, 0, rfl, g2⟩
    | cons b bits =>
      obtain ⟨s1, g1, g2⟩ := hR.some hs
      rcases Nat.lt_or_ge (2 * x + b.toNat) (firstOf lens (l + 1) + lens.count (l + 1)) with hh | hh
      · rw [h.loop_hit g1 n (by omega) hx h1 hh]
        exact ⟨_, s1, 1, rfl, g2⟩
      · rw [h.loop_more g1 n (by omega) hx hh]
        obtain ⟨r, s', k, k1, k2⟩ := ih (l + 1) (2 * x + b.toNat) (by omega) (h.bounds (by omega) hx b).1
          (by show 2 * (_ + _) ≤ _; omega) g2
        exact ⟨r, s', k + 1, k1, k2⟩

theorem CanonRep.total (h : CanonRep c longest lens t) : DecodesTotally (canonCode c t) := by
  intro σ R Rep hR bits s _ hs
  show ∃ r s' k, t.decodeLoop c R t.counts.len 0 0 0 0 s = _ ∧ _
  rw [h.counts_len]
  have := h.loop_total hR longest 0 0 (by omega) (by decide) (by rw [h.start]; omega) hs
  rw [h.start] at this
  exact this

theorem before_of_beVal : ∀ {a b : List Bool}, a.length = b.length → beVal a < beVal b → ∃ p s t, a = p ++ false :: s ∧ b = p ++ true :: t
  | [], [], _, h => absurd h (Nat.lt_irrefl _)
  | x :: a, y :: b, hl, h => by
    rw [List.length_cons, List.length_cons, Nat.succ_inj] at hl
    have ha := beVal_lt a
    have hb := beVal_lt b
    rw [show x :: a = [x] ++ a from rfl, show y :: b = [y] ++ b from rfl, beVal_append, beVal_append, beVal_one, beVal_one, hl] at h
    rw [hl] at ha
    cases x <;> cases y
    · obtain ⟨p, s, t, e1, e2⟩ := before_of_beVal hl (by simpa using h)
      exact ⟨false :: p, s, t, by rw [e1]; rfl, by rw [e2]; rfl⟩
    · exact ⟨[], a, b, rfl, rfl⟩
    · simp only [Bool.toNat_true, Bool.toNat_false] at h; omega
    · obtain ⟨p, s, t, e1, e2⟩ := before_of_beVal hl (by simp only [Bool.toNat_true] at h; omega)
      exact ⟨true :: p, s, t, by rw [e1]; rfl, by rw [e2]; rfl⟩

theorem CanonRep.order (h : CanonRep c longest lens t) {u v : Nat} (hu : u < lens.length) (hv : v < lens.length)
    (huv : lens[u] < lens[v] ∨ lens[u] = lens[v] ∧ u < v) :
    ∃ p s t, canonWord lens u = p ++ false :: s ∧ canonWord lens v = p ++ true :: t := by
  have gu : lens.getD u 0 = lens[u] := by rw [List.getD_eq_getElem?_getD, List.getElem?_eq_getElem hu, Option.getD_some]
  have gv : lens.getD v 0 = lens[v] := by rw [List.getD_eq_getElem?_getD, List.getElem?_eq_getElem hv, Option.getD_some]
  have lu := canonWord_length (lens := lens) u
  have lv := canonWord_length (lens := lens) v
  rcases huv with huv | ⟨he, huv⟩
  · have e := (List.take_append_drop lens[u] (canonWord lens v)).symm
    have hpl : ((canonWord lens v).take lens[u]).length = lens[u] := by rw [List.length_take]; omega
    have hp := h.prefix_after hv e fun hd => by
      have := congrArg List.length hd
      rw [List.length_drop, List.length_nil] at this
      omega
    rw [hpl] at hp
    have hc := take_count_lt hu
    have hw := h.word_val hu
    rw [codeOf] at hw
    rw [gu] at hc hw
    obtain ⟨p, s, t, e1, e2⟩ := before_of_beVal (a := canonWord lens u) (b := (canonWord lens v).take lens[u]) (by omega) (by omega)
    exact ⟨p, s, t ++ (canonWord lens v).drop lens[u], e1, e.trans (by rw [e2, List.append_assoc]; rfl)⟩
  · apply before_of_beVal (by omega)
    rw [h.word_val hu, h.word_val hv, codeOf, codeOf, gu, gv, ← he]
    have h1 : (lens.take (u + 1)).count lens[u] ≤ (lens.take v).count lens[u] := by
      rw [show lens.take (u + 1) = (lens.take v).take (u + 1) by rw [List.take_take, Nat.min_eq_left (by omega)]]
      exact (List.take_sublist _ _).count_le _
    rw [List.take_succ_eq_append_getElem hu, List.count_append, List.count_singleton_self] at h1
    omega

end

/-- Words with the given lengths, none of which begins another. -/
def Spec.PrefixCode (lens : List Nat) (ws : List (List Bool)) : Prop :=
  ws.map List.length = lens ∧ ws.Pairwise fun a b => ¬ a <+: b ∧ ¬ b <+: a

theorem prefixCode_kraft {lens : List Nat} {ws : List (List Bool)} (hw : PrefixCode lens ws) (h1 : ∀ x ∈ lens, 1 ≤ x) (j : Nat) :
    firstOf lens j + lens.count j ≤ 2 ^ j := by
  rw [firstOf_sum lens h1, ← hw.1, List.filter_map, List.map_map]
  have := kraft j (ws.filter ((fun x => decide (x ≤ j)) ∘ List.length)) (hw.2.filter _) fun w hm => by simpa using (List.mem_filter.1 hm).2
  exact this

/-- C165: for lengths, held in any `IntVector`, from 1 to `longest`, with `longest` at most 62, building a code returns `None` if no words
of these lengths are a prefix code. Otherwise it returns a code with codewords of these lengths: encoding writes the codeword,
decoding returns the symbol and reads no further; cut and wrong input is detected, and decoding always returns. Shorter codewords come
first in the order of dictionaries, those of equal length in the order of their symbols. -/
theorem C165_canonical (c : Cfg) {longest : Nat} (h1 : 1 ≤ longest) (hL : longest ≤ 62) {k : Nat} {v : IV 64} {lens : List Nat}
    (hr : ∀ x ∈ lens, 1 ≤ x ∧ x ≤ longest) (hv : IvReach c 64 k v lens) (hf : Fits c.usz 64 (lens.length * 64)) :
    ((¬ ∃ ws, PrefixCode lens ws) ∧ canonNew c longest v = .ok none) ∨
    ((∃ ws, PrefixCode lens ws) ∧ ∃ t word, canonNew c longest v = .ok (some t) ∧
      (∀ (s : Nat) (hs : s < lens.length), (word s).length = lens[s]) ∧
      Implements (canonCode c t) (· < lens.length) word ∧ TruncatesTo (canonCode c t) (· < lens.length) word ∧
      DecodesOnly (canonCode c t) (· < lens.length) word ∧ DecodesTotally (canonCode c t) ∧
      ∀ (a b : Nat) (ha : a < lens.length) (hb : b < lens.length), (lens[a] < lens[b] ∨ lens[a] = lens[b] ∧ a < b) →
        ∃ p s t, word a = p ++ false :: s ∧ word b = p ++ true :: t) := by
  have hg : Fits c.usz 64 (longest * 64) := by
    have : Fits c.usz 64 (62 * 64) := by rcases c.usz_cases with h | h <;> rw [h] <;> decide
    exact this.mono (by omega)
  rcases canonNew_ok hL hr (hv.rep isBlk64) hf hg with ⟨t, e, h⟩ | ⟨e, j, hj, hlt⟩
  · have hlen : ∀ s (hs : s < lens.length), (canonWord lens s).length = lens[s] := by
      intro s hs
      rw [canonWord_length, List.getD_eq_getElem?_getD, List.getElem?_eq_getElem hs, Option.getD_some]
    refine .inr ⟨⟨(List.range lens.length).map (canonWord lens), ?_, ?_⟩, t, canonWord lens, e, hlen, ⟨h.encodes, h.decodes, h.ends h1⟩, h.truncates,
      h.only, h.total, fun a b ha hb hab => h.order ha hb hab⟩
    · apply List.ext_getElem
      · simp
      · intro i g1 g2
        simp only [List.getElem_map, List.getElem_range]
        exact hlen i g2
    · rw [List.pairwise_map]
      refine List.Pairwise.imp_of_mem ?_ List.nodup_range
      intro a b ha hb hne
      rw [List.mem_range] at ha hb
      exact ⟨fun hp => hne (word_prefix_free h.decodes ha hb hp), fun hp => hne (word_prefix_free h.decodes hb ha hp).symm⟩
  · refine .inl ⟨fun ⟨ws, hws⟩ => ?_, e⟩
    have := prefixCode_kraft hws (fun x hx => (hr x hx).1) j
    omega

/-! The theorem is applied to concrete data in `Verif/Instances/CanonicalCode.lean`. -/

end Succinct
