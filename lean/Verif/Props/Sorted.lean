import Verif.Props.Reach
import Verif.Props.Neighbours
/-! Property C157: a sorted sequence in an `IntVector` and a `BitVector` under rank and select (the representation of Elias and
Fano). The programs here are not in the crate; they call its methods only. -/
namespace Succinct
open Spec

/-- What the programs keep: the lower halves of the numbers, and the upper halves in unary with rank and select. -/
structure SortedSeq where
  lows : IV 64
  highs : BinSearchSelect (Rank9 (VB 64))

section
variable (c : Cfg) (l : Nat)

/-- `for x in xs { lows.push(x & ((1 << l) - 1)); for _ in prev .. x >> l { highs.push_bit(false) } highs.push_bit(true); prev = x >> l }` -/
def sortedLoop : List (BitVec 64) → IV 64 → VB 64 → Nat → Res (IV 64 × VB 64)
  | [], lows, highs, _ => .ok (lows, highs)
  | x :: xs, lows, highs, prev => do
    let lo ← blkGetBits c x 0 l
    let lows ← lows.push c lo
    let hi ← shrB c x l
    let highs ← forRange prev hi.toNat highs fun _ v => VB.pushBit c v false
    let highs ← VB.pushBit c highs true
    sortedLoop xs lows highs hi.toNat

/-- `BinSearchSelect::new(Rank9::new(highs))` after the loop. -/
def sortedNew (xs : List (BitVec 64)) : Res SortedSeq := do
  let lows ← IV.new 64 l
  let (lows, highs) ← sortedLoop c l xs lows VB.new 0
  let r ← Rank9.new c (bvBitVec c 64) highs
  .ok ⟨lows, .new r⟩

/-- `(highs.select1(i)? - i) << l | lows.get(i)` -/
def sortedGet (t : SortedSeq) (i : Nat) : Res (Option (BitVec 64)) := do
  match ← BinSearchSelect.select1 c (Rank9.ops c (bvBitVec c 64)) t.highs i with
  | none => .ok none
  | some p => do
    let h ← subN c 64 p i
    let y ← shlB c (BitVec.ofNat 64 h) l
    let lo ← t.lows.get c i
    .ok (some (y ||| lo))

/-- The number of elements whose upper half is below `h`:
`if h == 0 { 0 } else { match highs.select0(h - 1) { Some(p) => p - (h - 1), None => lows.len() } }` -/
def sortedBelow (t : SortedSeq) (h : Nat) : Res Nat :=
  if h = 0 then .ok 0 else do
    let k ← subN c 64 h 1
    match ← BinSearchSelect.select0 c (Rank9.ops c (bvBitVec c 64)) t.highs k with
    | some p => subN c 64 p k
    | none => .ok t.lows.len

/-- `while i < lows.len() && get(i) < x { i += 1 }` -/
def sortedScan (t : SortedSeq) (x : BitVec 64) (i : Nat) : Res Nat :=
  if i < t.lows.len then do
    match ← sortedGet c l t i with
    | some y =>
      if y.toNat < x.toNat then do
        let i ← addN c 64 i 1
        sortedScan t x i
      else .ok i
    | none => .ok i
  else .ok i
partial_fixpoint

/-- The number of elements below `x`, from the first element with the same upper half on. -/
def sortedRank (t : SortedSeq) (x : BitVec 64) : Res Nat := do
  let h ← shrB c x l
  let i ← sortedBelow c t h.toNat
  sortedScan c l t x i
end

/-- The upper halves in unary: before each one, as many zeros as it exceeds the one before. -/
def highBits (prev : Nat) : List Nat → List Bool
  | [] => []
  | h :: hs => List.replicate (h - prev) false ++ true :: highBits h hs

theorem highBits_length (prev : Nat) (hs : List Nat) (hp : ∀ h ∈ hs, prev ≤ h) (hm : hs.Pairwise (· ≤ ·)) :
    (highBits prev hs).length = hs.length + (hs.getLastD prev - prev) := by
  induction hs generalizing prev with
  | nil => simp [highBits]
  | cons h hs ih =>
    rw [List.pairwise_cons] at hm
    have h1 := hp h List.mem_cons_self
    have h2 : h ≤ hs.getLastD h := by
      cases e : hs.getLast? with
      | none => rw [List.getLastD_eq_getLast?, e]; exact Nat.le_refl h
      | some y => rw [List.getLastD_eq_getLast?, e]; exact hm.1 _ (List.mem_of_getLast? e)
    rw [highBits, List.length_append, List.length_replicate, List.length_cons, List.length_cons, ih h hm.1 hm.2,
      List.getLastD_cons]
    omega

theorem highBits_ones (prev : Nat) (hs : List Nat) (hp : ∀ h ∈ hs, prev ≤ h) (hm : hs.Pairwise (· ≤ ·)) :
    (highBits prev hs).count true = hs.length := by
  induction hs generalizing prev with
  | nil => simp [highBits]
  | cons h hs ih =>
    rw [List.pairwise_cons] at hm
    rw [highBits, List.count_append, List.count_replicate, List.count_cons, ih h hm.1 hm.2]
    simp

/-- The one of element `i`. -/
theorem highBits_one (prev : Nat) (hs : List Nat) (hp : ∀ h ∈ hs, prev ≤ h) (hm : hs.Pairwise (· ≤ ·)) {i : Nat} (hi : i < hs.length) :
    (highBits prev hs)[i + (hs[i] - prev)]? = some true ∧ occ true (highBits prev hs) (i + (hs[i] - prev)) = i := by
  induction hs generalizing prev i with
  | nil => exact absurd hi (by simp)
  | cons h hs ih =>
    rw [List.pairwise_cons] at hm
    have h1 := hp h List.mem_cons_self
    cases i with
    | zero =>
      rw [highBits]
      constructor
      · rw [List.getElem?_append_right (by simp)]; simp
      · unfold occ
        rw [List.take_append_of_le_length (by simp), List.take_of_length_le (by simp), List.count_replicate]
        simp
    | succ i =>
      have hi : i < hs.length := by simpa using hi
      obtain ⟨h3, h4⟩ := ih h hm.1 hm.2 hi
      have h2 := hm.1 _ (List.getElem_mem hi)
      have e : i + 1 + ((h :: hs)[i + 1] - prev) = (h - prev) + (i + (hs[i] - h) + 1) := by
        rw [List.getElem_cons_succ]; omega
      rw [e, highBits]
      constructor
      · rw [List.getElem?_append_right (by simp)]
        simpa using h3
      · unfold occ at h4 ⊢
        rw [List.take_append, List.take_of_length_le (by simp), List.length_replicate, Nat.add_sub_cancel_left, List.take_succ_cons,
          List.count_append, List.count_replicate, List.count_cons, h4]
        simp

/-- A zero separates the elements by their upper halves. -/
theorem highBits_zero (prev : Nat) (hs : List Nat) (hp : ∀ h ∈ hs, prev ≤ h) (hm : hs.Pairwise (· ≤ ·)) {p : Nat}
    (h0 : (highBits prev hs)[p]? = some false) :
    occ true (highBits prev hs) p = hs.countP fun h => h ≤ prev + occ false (highBits prev hs) p := by
  induction hs generalizing prev p with
  | nil => simp [highBits] at h0
  | cons h hs ih =>
    rw [List.pairwise_cons] at hm
    have h1 := hp h List.mem_cons_self
    rw [highBits] at h0 ⊢
    by_cases hlt : p < h - prev
    · unfold occ
      rw [List.take_append_of_le_length (by simp; omega), List.take_replicate, Nat.min_eq_left (by omega)]
      rw [List.count_replicate, List.count_replicate]
      simp only [beq_iff_eq, Bool.false_eq_true, ↓reduceIte, BEq.rfl]
      refine (List.countP_eq_zero.2 fun x hx => ?_).symm
      have := (List.mem_cons.1 hx).elim (fun e => Nat.le_of_eq e.symm) (hm.1 x)
      simp; omega
    · rw [List.getElem?_append_right (by simp; omega), List.length_replicate] at h0
      obtain ⟨q, hq⟩ : ∃ q, p = (h - prev) + (q + 1) := by
        rcases Nat.lt_or_ge (h - prev) p with hc | hc
        · exact ⟨p - (h - prev) - 1, by omega⟩
        · rw [show p - (h - prev) = 0 by omega] at h0
          simp at h0
      subst hq
      rw [Nat.add_sub_cancel_left, List.getElem?_cons_succ] at h0
      have h4 := ih h hm.1 hm.2 h0
      have e : ∀ v, occ v (List.replicate (h - prev) false ++ true :: highBits h hs) (h - prev + (q + 1)) =
          (if v then 1 else h - prev) + occ v (highBits h hs) q := by
        intro v
        unfold occ
        rw [List.take_append, List.take_of_length_le (by simp), List.length_replicate, Nat.add_sub_cancel_left, List.take_succ_cons,
          List.count_append, List.count_replicate, List.count_cons]
        cases v <;> simp [Nat.add_comm]
      rw [e, e, List.countP_cons_of_pos (by simp; omega), h4]
      simp only [↓reduceIte, Bool.false_eq_true, Nat.add_comm 1]
      congr 2
      funext x
      congr 2
      omega

theorem highBits_zeros (prev : Nat) (hs : List Nat) (hp : ∀ h ∈ hs, prev ≤ h) (hm : hs.Pairwise (· ≤ ·)) {h : Nat} (hh : h ∈ hs) :
    h ≤ prev + (highBits prev hs).count false := by
  induction hs generalizing prev with
  | nil => cases hh
  | cons x hs ih =>
    rw [List.pairwise_cons] at hm
    have h1 := hp x List.mem_cons_self
    rw [highBits, List.count_append, List.count_replicate, List.count_cons]
    rcases List.mem_cons.1 hh with rfl | hh
    · simp; omega
    · have := ih x hm.1 hm.2 hh
      simp; omega

theorem count_bools (l : List Bool) : l.count true + l.count false = l.length := by
  induction l with
  | nil => rfl
  | cons b l ih => cases b <;> simp <;> omega

/-- the upper halves of the numbers -/
def Spec.uppers (l : Nat) (xs : List (BitVec 64)) : List Nat := xs.map fun x => x.toNat / 2 ^ l
/-- the lower halves of the numbers -/
def Spec.lowers (l : Nat) (xs : List (BitVec 64)) : List Nat := xs.map fun x => x.toNat % 2 ^ l

theorem bvPush_many (c : Cfg) {s : VB 64} {bits : List Bool} (hR : bvR c 64 s bits) {a b : Nat}
    (hf : Fits c.usz 64 (bits.length + (b - a))) :
    ∃ s', forRange a b s (fun _ v => VB.pushBit c v false) = .ok s' ∧ bvR c 64 s' (bits ++ List.replicate (b - a) false) := by
  by_cases hab : a ≤ b
  · obtain ⟨s', h1, h2⟩ := forRange_inv (lo := a) (hi := b) (s := s) (f := fun _ v => VB.pushBit c v false)
      (fun k s => bvR c 64 s (bits ++ List.replicate (k - a) false)) hab (by simpa using hR) (fun k s hk hk' hs => by
        obtain ⟨s', h1, h2⟩ := VR.pushBit_ok isBlk64 hs (hf.mono (by simp; omega)) false
        refine ⟨s', h1, ?_⟩
        rw [List.append_assoc, ← List.replicate_succ', ← Nat.sub_add_comm hk] at h2
        exact h2)
    exact ⟨s', h1, h2⟩
  · refine ⟨s, ?_, by rw [Nat.sub_eq_zero_of_le (by omega)]; simpa using hR⟩
    unfold forRange
    rw [Nat.sub_eq_zero_of_le (by omega)]
    rfl

theorem blkGetBits_low (c : Cfg) (x : BitVec 64) {l : Nat} (hl : l ≤ 64) : ∃ y, blkGetBits c x 0 l = .ok y ∧ y.toNat = x.toNat % 2 ^ l := by
  obtain ⟨y, h1, h2⟩ := blkGetBits_eq c isBlk64 x (start := 0) (len := l) (by omega)
  refine ⟨y, h1, Nat.eq_of_testBit_eq fun j => ?_⟩
  rw [Nat.testBit_mod_two_pow]
  simpa [BitVec.getLsbD] using h2 j

theorem sortedLoop_ok (c : Cfg) {l : Nat} (hl : l < 64) (xs : List (BitVec 64)) {lows : IV 64} {highs : VB 64} {ls : List Nat}
    {bits : List Bool} {prev : Nat} (hL : IR c 64 l lows ls) (hH : bvR c 64 highs bits)
    (hfl : Fits c.usz 64 ((ls.length + xs.length) * l)) (hfh : Fits c.usz 64 (bits.length + (highBits prev (uppers l xs)).length)) :
    ∃ lows' highs', sortedLoop c l xs lows highs prev = .ok (lows', highs') ∧ IR c 64 l lows' (ls ++ lowers l xs) ∧
      bvR c 64 highs' (bits ++ highBits prev (uppers l xs)) := by
  induction xs generalizing lows highs ls bits prev with
  | nil => exact ⟨lows, highs, rfl, by simpa [lowers] using hL, by simpa [uppers, highBits] using hH⟩
  | cons x xs ih =>
    obtain ⟨y, h1, h2⟩ := blkGetBits_low c x (Nat.le_of_lt hl)
    have hup : (x >>> l).toNat = x.toNat / 2 ^ l := by rw [BitVec.toNat_ushiftRight, Nat.shiftRight_eq_div_pow]
    simp only [uppers, List.map_cons, highBits, List.length_append, List.length_replicate, List.length_cons] at hfh hfl
    obtain ⟨lows1, h3, h4⟩ := hL.push_ok isBlk64 y (hfl.mono (by
      rw [← Nat.succ_mul]; exact Nat.mul_le_mul_right _ (by omega))) (by rw [h2]; exact Nat.mod_lt _ (Nat.two_pow_pos _))
    obtain ⟨highs1, h5, h6⟩ := bvPush_many c hH (a := prev) (b := (x >>> l).toNat) (hfh.mono (by rw [hup]; omega))
    obtain ⟨highs2, h7, h8⟩ := VR.pushBit_ok isBlk64 h6 (hfh.mono (by simp [hup]; omega)) true
    obtain ⟨lows', highs', h9, h10, h11⟩ := ih (prev := (x >>> l).toNat) h4 h8
      (hfl.mono (Nat.mul_le_mul_right _ (by simp; omega))) (hfh.mono (by simp [hup, uppers]; omega))
    refine ⟨lows', highs', ?_, ?_, ?_⟩
    · rw [sortedLoop, h1, Res.ok_bind, h3, Res.ok_bind, shrB_ok hl, Res.ok_bind]
      simp only [h5, Res.ok_bind, h7, h9]
    · rw [h2] at h10
      simpa [lowers] using h10
    · rw [hup] at h11
      simpa [uppers, highBits] using h11

/-- What the programs keep for `xs`. -/
structure SortedRep (c : Cfg) (l : Nat) (t : SortedSeq) (xs : List (BitVec 64)) : Prop where
  pos : 1 ≤ l
  lt : l < 64
  sorted : xs.Pairwise fun x y => x.toNat ≤ y.toNat
  lows : IR c 64 l t.lows (lowers l xs)
  highs : RankLaw (Rank9.ops c (bvBitVec c 64)) t.highs.rankSupport (highBits 0 (uppers l xs))

theorem uppers_sorted {xs : List (BitVec 64)} (h : xs.Pairwise fun x y => x.toNat ≤ y.toNat) : (uppers l xs).Pairwise (· ≤ ·) :=
  List.pairwise_map.2 (h.imp fun h => Nat.div_le_div_right h)

theorem or_halves {l : Nat} (hl : l < 64) (x : BitVec 64) {y lo : BitVec 64} (hy : y = BitVec.ofNat 64 (x.toNat / 2 ^ l) <<< l)
    (hlo : lo.toNat = x.toNat % 2 ^ l) : y ||| lo = x := by
  subst hy
  apply BitVec.eq_of_getLsbD_eq
  intro j hj
  have h1 : lo.getLsbD j = (decide (j < l) && x.getLsbD j) := by
    rw [BitVec.getLsbD, hlo, Nat.testBit_mod_two_pow]; rfl
  rw [BitVec.getLsbD_or, BitVec.getLsbD_shiftLeft, h1, BitVec.getLsbD_ofNat, Nat.testBit_div_two_pow]
  by_cases h : j < l
  · simp [h]
  · rw [show j - l + l = j by omega]
    simp only [h, hj, show j - l < 64 by omega, decide_true, decide_false, Bool.not_false, Bool.true_and, Bool.false_and, Bool.or_false]
    rfl

section
variable {c : Cfg} {l : Nat} {t : SortedSeq} {xs : List (BitVec 64)}

theorem SortedRep.get (hR : SortedRep c l t xs) {i : Nat} (hi : i + 1 < 2 ^ 64) : sortedGet c l t i = .ok xs[i]? := by
  have hu := uppers_sorted (l := l) hR.sorted
  have hlen : (uppers l xs).length = xs.length := List.length_map ..
  obtain ⟨x, h1, h2⟩ := (C44_select_partial c hR.highs hi).1
  have h1 : BinSearchSelect.select1 c (Rank9.ops c (bvBitVec c 64)) t.highs i = .ok x := h1
  rw [sortedGet, h1, Res.ok_bind]
  by_cases hn : i < xs.length
  · obtain ⟨h3, h4⟩ := highBits_one 0 (uppers l xs) (fun _ _ => Nat.zero_le _) hu (i := i) (by omega)
    rw [Nat.sub_zero] at h3 h4
    have hx : x = some (i + (uppers l xs)[i]'(by omega)) := by
      cases x with
      | none =>
        have h2 : (highBits 0 (uppers l xs)).count true ≤ i := h2
        rw [highBits_ones 0 _ (fun _ _ => Nat.zero_le _) hu] at h2
        omega
      | some p =>
        obtain ⟨h5, h6⟩ := h2
        congr 1
        rcases Nat.lt_trichotomy p (i + (uppers l xs)[i]'(by omega)) with hc | hc | hc
        · have := occ_step h5
          have := occ_mono true (highBits 0 (uppers l xs)) hc
          simp only [Nat.succ_eq_add_one] at this
          omega
        · exact hc
        · have := occ_step h3
          have := occ_mono true (highBits 0 (uppers l xs)) hc
          simp only [Nat.succ_eq_add_one] at this
          omega
    subst hx
    obtain ⟨lo, h5, h6⟩ := hR.lows.get_ok isBlk64 (i := i) (by simpa [lowers] using hn)
    have hup : (uppers l xs)[i]'(by omega) = xs[i].toNat / 2 ^ l := by simp [uppers]
    simp only []
    rw [subN_ok (by omega), Res.ok_bind, Nat.add_sub_cancel_left, shlB_ok hR.lt, Res.ok_bind, h5, Res.ok_bind,
      List.getElem?_eq_getElem hn, hup, or_halves hR.lt xs[i] rfl (by rw [h6]; simp [lowers])]
  · cases x with
    | none => rw [List.getElem?_eq_none (by omega)]
    | some p =>
      obtain ⟨h5, h6⟩ := h2
      have h7 := occ_step h5
      have h8 := occ_le_count true (highBits 0 (uppers l xs)) (p + 1)
      rw [highBits_ones 0 _ (fun _ _ => Nat.zero_le _) hu] at h8
      omega

theorem SortedRep.len (hR : SortedRep c l t xs) : t.lows.len = xs.length := by
  have h : t.lows.len = (lowers l xs).length := hR.lows.len
  rw [h, lowers, List.length_map]

theorem SortedRep.below (hR : SortedRep c l t xs) {h : Nat} (hh : h < 2 ^ 64) :
    sortedBelow c t h = .ok (xs.countP fun x => x.toNat / 2 ^ l < h) := by
  have hu := uppers_sorted (l := l) hR.sorted
  rw [sortedBelow]
  have hcnt : (xs.countP fun x => decide (x.toNat / 2 ^ l < h)) = (uppers l xs).countP fun u => decide (u < h) := by
    rw [uppers, List.countP_map]; rfl
  rw [hcnt]
  by_cases h0 : h = 0
  · subst h0
    rw [if_pos rfl]; simp
  · rw [if_neg h0, subN_ok (by omega), Res.ok_bind]
    obtain ⟨x, h1, h2⟩ := (C44_select_partial c hR.highs (k := h - 1) (by omega)).2.1
    have h1 : BinSearchSelect.select0 c (Rank9.ops c (bvBitVec c 64)) t.highs (h - 1) = .ok x := h1
    rw [h1, Res.ok_bind]
    cases x with
    | none =>
      have h2 : (highBits 0 (uppers l xs)).count false ≤ h - 1 := h2
      show Res.ok t.lows.len = _
      rw [hR.len, List.countP_eq_length.2]
      · simp [uppers]
      · intro u hm
        have := highBits_zeros 0 _ (fun _ _ => Nat.zero_le _) hu hm
        simp; omega
    | some p =>
      obtain ⟨h3, h4⟩ := h2
      have h5 := highBits_zero 0 _ (fun _ _ => Nat.zero_le _) hu h3
      have h6 : occ true (highBits 0 (uppers l xs)) p + occ false (highBits 0 (uppers l xs)) p = p := by
        unfold occ
        have e := count_bools ((highBits 0 (uppers l xs)).take p)
        have := (List.getElem?_eq_some_iff.1 h3).1
        rw [List.length_take] at e
        omega
      show subN c 64 p (h - 1) = _
      rw [subN_ok (by omega)]
      congr 1
      rw [show p - (h - 1) = occ true (highBits 0 (uppers l xs)) p by omega, h5, h4]
      congr 1
      funext u
      congr 1
      simp only [Nat.zero_add, eq_iff_iff]
      omega

/-- In a sorted list the elements that meet a condition closed downwards come first. -/
theorem countP_sorted {P : BitVec 64 → Bool} (hP : ∀ x y : BitVec 64, x.toNat ≤ y.toNat → P y = true → P x = true)
    (hs : xs.Pairwise fun x y => x.toNat ≤ y.toNat) {i : Nat} (hi : i < xs.length) : P xs[i] = decide (i < xs.countP P) := by
  induction xs generalizing i with
  | nil => exact absurd hi (by simp)
  | cons x xs ih =>
    rw [List.pairwise_cons] at hs
    by_cases hx : P x = true
    · rw [List.countP_cons_of_pos hx]
      cases i with
      | zero => simpa using hx
      | succ i => simpa using ih hs.2 (by simpa using hi)
    · have hall : ∀ y ∈ xs, ¬ P y = true := fun y hy h => hx (hP x y (hs.1 y hy) h)
      rw [List.countP_cons_of_neg hx, List.countP_eq_zero.2 hall]
      cases i with
      | zero => simpa using hx
      | succ i => simpa using hall _ (List.getElem_mem (by simpa using hi))

theorem SortedRep.scan (hR : SortedRep c l t xs) (hlen : xs.length < 2 ^ 64) (x : BitVec 64) {i : Nat}
    (hi : i ≤ xs.countP fun y => y.toNat < x.toNat) :
    sortedScan c l t x i = .ok (xs.countP fun y => y.toNat < x.toNat) := by
  have hle : (xs.countP fun y => decide (y.toNat < x.toNat)) ≤ xs.length := List.countP_le_length
  induction hk : xs.length - i using Nat.strongRecOn generalizing i with
  | ind k ih =>
    rw [sortedScan, hR.len]
    by_cases hn : i < xs.length
    · rw [if_pos hn, hR.get (by omega), Res.ok_bind, List.getElem?_eq_getElem hn]
      have hc := countP_sorted (P := fun y => decide (y.toNat < x.toNat)) (fun y z h1 h2 => by simp at h2 ⊢; omega) hR.sorted hn
      simp only [decide_eq_decide] at hc
      show (if xs[i].toNat < x.toNat then _ else _) = _
      by_cases hlt : xs[i].toNat < x.toNat
      · rw [if_pos hlt, addN_ok (by omega), Res.ok_bind]
        exact ih (xs.length - (i + 1)) (by omega) (hc.1 hlt) rfl
      · rw [if_neg hlt]
        congr 1
        have := fun h => hlt (hc.2 h)
        omega
    · rw [if_neg hn]
      congr 1
      omega

theorem SortedRep.rank (hR : SortedRep c l t xs) (hlen : xs.length < 2 ^ 64) (x : BitVec 64) :
    sortedRank c l t x = .ok (xs.countP fun y => y.toNat < x.toNat) := by
  rw [sortedRank, shrB_ok hR.lt, Res.ok_bind, hR.below (x >>> l).isLt, Res.ok_bind]
  refine hR.scan hlen x (List.countP_mono_left fun y _ hy => ?_)
  have hup : (x >>> l).toNat = x.toNat / 2 ^ l := by rw [BitVec.toNat_ushiftRight, Nat.shiftRight_eq_div_pow]
  rw [hup] at hy
  simp only [decide_eq_true_eq] at hy ⊢
  rcases Nat.lt_or_ge y.toNat x.toNat with h | h
  · exact h
  · exact absurd (Nat.div_le_div_right (c := 2 ^ l) h) (by omega)
end

/-- C157: a sorted sequence of `u64` in an `IntVector` of the lower `l` bits and a `BitVector` with the upper bits in unary, under
`Rank9` and `BinSearchSelect`: every element is found by its number, the elements below any number are counted, and the two vectors
hold `n * l` and `n + (last >> l)` bits. -/
theorem C157_sorted (c : Cfg) {l : Nat} (h1 : 1 ≤ l) (h2 : l < 64) (xs : List (BitVec 64))
    (hs : xs.Pairwise fun x y => x.toNat ≤ y.toNat) (hfl : Fits c.usz 64 (xs.length * l))
    (hfh : Fits c.usz 64 (xs.length + (xs.getLastD 0).toNat / 2 ^ l))
    (hu : blocksFor 64 (xs.length + (xs.getLastD 0).toNat / 2 ^ l) + 8 < 2 ^ c.usz) :
    ∃ t, sortedNew c l xs = .ok t ∧ (ivBitVec c 64).bitLen t.lows = .ok (xs.length * l) ∧
      (bvBitVec c 64).bitLen t.highs.rankSupport.inner = .ok (xs.length + (xs.getLastD 0).toNat / 2 ^ l) ∧
      (∀ i, i + 1 < 2 ^ 64 → sortedGet c l t i = .ok xs[i]?) ∧
      ∀ x, sortedRank c l t x = .ok (xs.countP fun y => y.toNat < x.toNat) := by
  have hul := highBits_length 0 (uppers l xs) (fun _ _ => Nat.zero_le _) (uppers_sorted hs)
  have hlast : (uppers l xs).getLastD 0 = (xs.getLastD 0).toNat / 2 ^ l := by
    rw [uppers, List.getLastD_eq_getLast?, List.getLastD_eq_getLast?, List.getLast?_map]
    cases xs.getLast? <;> simp
  rw [hlast, Nat.sub_zero, show (uppers l xs).length = xs.length from List.length_map ..] at hul
  obtain ⟨lows0, h3, h4⟩ := ivInit_ok c isBlk64 h1 (Nat.le_of_lt h2) (.new : IvInit 64) trivial
  obtain ⟨highs0, h5, h6⟩ := bvInit_ok c isBlk64 (.new : BvInit 64) trivial
  cases h5
  obtain ⟨lows, highs, h7, h8, h9⟩ := sortedLoop_ok c h2 xs (prev := 0) h4 h6 (by simpa [IvInit.elems] using hfl)
    (by simpa [BvInit.bits, hul] using hfh)
  have h8 : IR c 64 l lows (lowers l xs) := h8
  have h9 : bvR c 64 highs (highBits 0 (uppers l xs)) := h9
  obtain ⟨r, h10, h11, h12⟩ := C39_rank9 (bv_law c isBlk64) (bv_block c isBlk64).toBVBlockRead h9 (by rw [hul]; exact hu)
  have hR : SortedRep c l ⟨lows, .new r⟩ xs := ⟨h1, h2, hs, h8, h12⟩
  have hlen : xs.length < 2 ^ 64 := by have := hfh.lt (by omega); omega
  refine ⟨⟨lows, .new r⟩, ?_, ?_, ?_, fun i hi => hR.get hi, hR.rank hlen⟩
  · have h3 : IV.new 64 l = .ok lows0 := h3
    rw [sortedNew, h3, Res.ok_bind, h7, Res.ok_bind]
    simp only [h10, Res.ok_bind]
  · have := (iv_law c isBlk64).bitLen h8.ivR
    simpa [length_packBits, lowers] using this
  · show (bvBitVec c 64).bitLen r.inner = _
    rw [h11, bv_bitLen c h9, hul]

/-! The theorem of this file is applied to concrete data in `Verif/Instances/Sorted.lean`. -/
end Succinct
