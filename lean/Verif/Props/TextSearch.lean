import Verif.Props.Wavelet
/-! Property C164: searching a text through rank (the index of Ferragina and Manzini). The programs here are not in the crate; they
call its methods, and those of `Verif.Props.Wavelet`, only. -/
namespace Succinct
open Spec

/-- Texts in the order of dictionaries. -/
def Spec.lexLe : List (BitVec 64) → List (BitVec 64) → Bool
  | [], _ => true
  | _ :: _, [] => false
  | a :: s, b :: t => decide (a.toNat < b.toNat) || (a == b && lexLe s t)

/-- What the programs keep: before each suffix, in order, the symbol before it; for each symbol, how many in the text are smaller; and
where the suffixes begin. -/
structure TextIndex where
  before : List WaveLevel
  smaller : IV 64
  places : IV 64

section
variable (c : Cfg)

/-- `for x in xs { v.push(x) }` -/
def pushSyms : List (BitVec 64) → IV 64 → Res (IV 64)
  | [], v => .ok v
  | x :: xs, v => do
    let v ← v.push c x
    pushSyms xs v

/-- The places of the text, sorted by what follows. -/
def suffixOrder (t : List (BitVec 64)) : List Nat :=
  (List.range t.length).mergeSort fun i j => lexLe (t.drop i) (t.drop j)

/-- The symbol before place `i`, the text being taken as a circle that begins after a zero. -/
def symbolBefore (t : List (BitVec 64)) (i : Nat) : BitVec 64 := if i = 0 then 0 else t.getD (i - 1) 0

/-- The text with a zero at the end, sorted; symbols are below `2^k`. -/
def textNew (k : Nat) (text : List (BitVec 64)) : Res TextIndex := do
  let t := text ++ [0]
  let order := suffixOrder t
  let before ← levels c k (order.map (symbolBefore t))
  let smaller ← IV.new 64 64
  let smaller ← pushSyms c ((List.range (2 ^ k)).map fun a => BitVec.ofNat 64 (t.countP fun (x : BitVec 64) => decide (x.toNat < a))) smaller
  let places ← IV.new 64 64
  let places ← pushSyms c (order.map (BitVec.ofNat 64)) places
  .ok ⟨before, smaller, places⟩

/-- Where a suffix with `x` before it comes, if as many as `i` come before it: `smaller.get(x) + (number of x among the first i)`. -/
def TextIndex.back (t : TextIndex) (x : BitVec 64) (i : Nat) : Res Nat := do
  let f ← t.smaller.get c x.toNat
  let n ← levelsCount c x t.before 0 i
  addN c 64 f.toNat n

/-- `for x in pattern.rev() { lo = back(x, lo); hi = back(x, hi) }` -/
def TextIndex.narrow (t : TextIndex) : List (BitVec 64) → Nat → Nat → Res (Nat × Nat)
  | [], lo, hi => .ok (lo, hi)
  | x :: xs, lo, hi => do
    let lo ← t.back c x lo
    let hi ← t.back c x hi
    t.narrow xs lo hi

/-- How often the pattern occurs: `hi - lo`. -/
def TextIndex.count (t : TextIndex) (pattern : List (BitVec 64)) : Res Nat := do
  let (lo, hi) ← t.narrow c pattern.reverse 0 t.places.len
  subN c 64 hi lo

/-- Where the pattern occurs: `(lo .. hi).map(|j| places.get(j))`. -/
def TextIndex.find (t : TextIndex) (pattern : List (BitVec 64)) : Res (List Nat) := do
  let (lo, hi) ← t.narrow c pattern.reverse 0 t.places.len
  forRange lo hi [] fun j out => do
    let p ← t.places.get c j
    .ok (out ++ [p.toNat])

/-- The text, from its end: `loop { x = before.get(i); if x == 0 { return out } out.push_front(x); i = back(x, i) }`. -/
def TextIndex.text (t : TextIndex) (i : Nat) (out : List (BitVec 64)) : Res (List (BitVec 64)) := do
  let x ← levelsGet c t.before i 0
  if x = 0 then .ok out
  else do
    let i ← t.back c x i
    t.text i (x :: out)
partial_fixpoint
end

/-! ### The order -/

theorem lexLe_refl : ∀ s, lexLe s s = true
  | [] => rfl
  | a :: s => by simp [lexLe, lexLe_refl s]

theorem lexLe_trans : ∀ r s t, lexLe r s = true → lexLe s t = true → lexLe r t = true
  | [], _, _, _, _ => rfl
  | _ :: _, [], _, h, _ => by simp [lexLe] at h
  | _ :: _, _ :: _, [], _, h => by simp [lexLe] at h
  | a :: r, b :: s, d :: t, h1, h2 => by
    simp only [lexLe, Bool.or_eq_true, decide_eq_true_eq, Bool.and_eq_true, beq_iff_eq] at h1 h2 ⊢
    rcases h1 with h1 | ⟨rfl, h1⟩
    · rcases h2 with h2 | ⟨rfl, h2⟩
      · exact .inl (by omega)
      · exact .inl h1
    · rcases h2 with h2 | ⟨rfl, h2⟩
      · exact .inl h2
      · exact .inr ⟨rfl, lexLe_trans r s t h1 h2⟩

theorem lexLe_total : ∀ s t, (lexLe s t || lexLe t s) = true
  | [], _ => rfl
  | _ :: _, [] => rfl
  | a :: s, b :: t => by
    simp only [lexLe, Bool.or_eq_true, decide_eq_true_eq, Bool.and_eq_true, beq_iff_eq]
    have h := lexLe_total s t
    rw [Bool.or_eq_true] at h
    rcases Nat.lt_trichotomy a.toNat b.toNat with h' | h' | h'
    · exact .inl (.inl h')
    · have := BitVec.eq_of_toNat_eq h'
      subst this
      rcases h with h | h
      · exact .inl (.inr ⟨rfl, h⟩)
      · exact .inr (.inr ⟨rfl, h⟩)
    · exact .inr (.inl h')

theorem lexLe_antisymm : ∀ s t, lexLe s t = true → lexLe t s = true → s = t
  | [], [], _, _ => rfl
  | [], _ :: _, _, h => by simp [lexLe] at h
  | _ :: _, [], h, _ => by simp [lexLe] at h
  | a :: s, b :: t, h1, h2 => by
    simp only [lexLe, Bool.or_eq_true, decide_eq_true_eq, Bool.and_eq_true, beq_iff_eq] at h1 h2
    rcases h1 with h1 | ⟨rfl, h1⟩
    · rcases h2 with h2 | ⟨rfl, h2⟩
      · omega
      · omega
    · rcases h2 with h2 | ⟨-, h2⟩
      · omega
      · rw [lexLe_antisymm s t h1 h2]

theorem lexLe_take : ∀ n s t, lexLe s t = true → lexLe (s.take n) (t.take n) = true
  | 0, _, _, _ => by simp [lexLe]
  | _ + 1, [], _, _ => by simp [lexLe]
  | _ + 1, _ :: _, [], h => by simp [lexLe] at h
  | n + 1, a :: s, b :: t, h => by
    simp only [List.take_succ_cons, lexLe, Bool.or_eq_true, decide_eq_true_eq, Bool.and_eq_true, beq_iff_eq] at h ⊢
    exact h.imp id fun h => ⟨h.1, lexLe_take n s t h.2⟩

/-- A text begins with `p` exactly if it is not before `p`, and cut to the length of `p` not after it. -/
theorem prefix_iff (p s : List (BitVec 64)) : p <+: s ↔ lexLe (s.take p.length) p = true ∧ lexLe p s = true := by
  constructor
  · rintro ⟨t, rfl⟩
    rw [List.take_append_of_le_length (Nat.le_refl _), List.take_length]
    refine ⟨lexLe_refl p, ?_⟩
    induction p with
    | nil => rfl
    | cons a p ih => simp [lexLe, ih]
  · rintro ⟨h1, h2⟩
    have h3 := lexLe_take p.length _ _ h2
    rw [List.take_length] at h3
    rw [← lexLe_antisymm _ _ h1 h3]
    exact List.take_prefix _ _

/-! ### Counting in sorted lists -/

/-- In a sorted list the elements for which a condition holds that holds for all smaller ones come first. -/
theorem filter_sorted {α : Type} {le : α → α → Prop} {q : α → Bool} (hq : ∀ a b, le a b → q b = true → q a = true) :
    ∀ {l : List α}, l.Pairwise le → l.filter q = l.take (l.countP q) ∧ (l.filter fun a => !q a) = l.drop (l.countP q)
  | [], _ => by simp
  | a :: l, h => by
    rw [List.pairwise_cons] at h
    obtain ⟨h1, h2⟩ := filter_sorted hq h.2
    by_cases ha : q a = true
    · rw [List.filter_cons_of_pos ha, List.filter_cons_of_neg (by simp [ha]), List.countP_cons_of_pos ha, h1, h2]
      simp
    · have h0 : l.countP q = 0 := List.countP_eq_zero.2 fun b hb hb' => ha (hq a b (h.1 b hb) hb')
      rw [h0] at h1 h2
      rw [List.filter_cons_of_neg ha, List.filter_cons_of_pos (by simp [ha]), List.countP_cons_of_neg ha, h0, h1, h2]
      simp

theorem countP_or {α : Type} {p q : α → Bool} : ∀ {l : List α}, (∀ a ∈ l, ¬ (p a = true ∧ q a = true)) →
    (l.countP fun a => p a || q a) = l.countP p + l.countP q
  | [], _ => rfl
  | a :: l, h => by
    have h1 := h a List.mem_cons_self
    simp only [List.countP_cons]
    rw [countP_or fun b hb => h b (List.mem_cons_of_mem _ hb)]
    cases hp : p a <;> cases hq : q a
    · simp
    · simp; omega
    · simp; omega
    · exact absurd ⟨hp, hq⟩ h1

theorem countP_range_get {α : Type} (p : α → Bool) (l : List α) : ((List.range l.length).countP fun i => (l[i]?).any p) = l.countP p := by
  induction l with
  | nil => rfl
  | cons a l ih =>
    rw [List.length_cons, List.range_succ_eq_map, List.countP_cons, List.countP_map]
    have : ((fun i => ((a :: l)[i]?).any p) ∘ Nat.succ) = fun i => (l[i]?).any p := by
      funext i; simp
    rw [this, ih, List.countP_cons]
    simp

/-- Suffixes and the suffixes one symbol longer. -/
theorem countP_shift {n : Nat} {f g : Nat → Bool} (hf : f n = false) (hg : g 0 = false) (h : ∀ i, i < n → g (i + 1) = f i) :
    (List.range (n + 1)).countP f = (List.range (n + 1)).countP g := by
  have h1 : (List.range (n + 1)).countP g = (List.range n).countP (g ∘ Nat.succ) := by
    rw [List.range_succ_eq_map, List.countP_cons, hg, List.countP_map]; simp
  rw [h1, List.range_succ, List.countP_append]
  simp only [List.countP_singleton, hf, Bool.false_eq_true, if_false, Nat.add_zero]
  exact List.countP_congr fun i hi => by
    simp only [List.mem_range] at hi
    simp [h i hi]

/-! ### Suffixes in order -/

section
variable {t : List (BitVec 64)}

theorem suffixOrder_perm (t : List (BitVec 64)) : (suffixOrder t).Perm (List.range t.length) := List.mergeSort_perm _ _

theorem suffixOrder_sorted (t : List (BitVec 64)) : (suffixOrder t).Pairwise fun i j => lexLe (t.drop i) (t.drop j) = true :=
  List.pairwise_mergeSort (le := fun i j => lexLe (t.drop i) (t.drop j)) (fun _ _ _ => lexLe_trans _ _ _) (fun _ _ => lexLe_total _ _) _

theorem suffixOrder_length (t : List (BitVec 64)) : (suffixOrder t).length = t.length := by
  rw [(suffixOrder_perm t).length_eq, List.length_range]

theorem mem_suffixOrder {i : Nat} : i ∈ suffixOrder t ↔ i < t.length := by rw [(suffixOrder_perm t).mem_iff, List.mem_range]

/-- Going back by one symbol `x`, for any condition that holds for all smaller texts with any text. -/
theorem back_count (q : List (BitVec 64) → Bool) (hq : ∀ r s, lexLe r s = true → q s = true → q r = true) (u : List (BitVec 64))
    {x : BitVec 64} (hx : x ≠ 0) :
    ((suffixOrder (u ++ [0])).countP fun i => match (u ++ [0]).drop i with
      | [] => false
      | y :: s => decide (y.toNat < x.toNat) || (x == y && q s)) =
    ((u ++ [0]).countP fun (y : BitVec 64) => decide (y.toNat < x.toNat)) +
      (((suffixOrder (u ++ [0])).map (symbolBefore (u ++ [0]))).take
        ((suffixOrder (u ++ [0])).countP fun i => q ((u ++ [0]).drop i))).count x := by
  generalize ht : u ++ [0] = t
  have hl : t.length = u.length + 1 := by rw [← ht]; simp
  have hlast : t[u.length]? = some 0 := by rw [← ht]; simp
  rw [(suffixOrder_perm t).countP_eq, ← countP_range_get (fun (y : BitVec 64) => decide (y.toNat < x.toNat)) t, ← List.map_take,
    ← (filter_sorted (le := fun i j => lexLe (t.drop i) (t.drop j) = true) (q := fun i => q (t.drop i))
      (fun i j h => hq _ _ h) (suffixOrder_sorted t)).1, List.count_eq_countP, List.countP_map, List.countP_filter,
    (suffixOrder_perm t).countP_eq, hl]
  rw [← countP_shift (n := u.length) (f := fun i => (t[i]?).any (· == x) && q (t.drop (i + 1)))
    (g := fun a => ((fun y => y == x) ∘ symbolBefore t) a && q (t.drop a)), ← countP_or]
  · apply List.countP_congr
    intro i hi
    rw [List.mem_range, ← hl] at hi
    rw [List.drop_eq_getElem_cons hi, List.getElem?_eq_getElem hi]
    simp only [Option.any_some]
    rw [show (t[i] == x) = (x == t[i]) from BEq.comm]
  · intro i hi
    rw [List.mem_range, ← hl] at hi
    rw [List.getElem?_eq_getElem hi]
    simp only [Option.any_some, decide_eq_true_eq, Bool.and_eq_true, beq_iff_eq]
    rintro ⟨h1, h2, -⟩
    rw [h2] at h1; omega
  · rw [hlast]
    simp only [Option.any_some, Bool.and_eq_false_imp, beq_iff_eq]
    exact fun h => absurd h.symm hx
  · simp only [Function.comp, symbolBefore, if_true, Bool.and_eq_false_imp, beq_iff_eq]
    exact fun h => absurd h.symm hx
  · intro i hi
    have hi' : i < t.length := by omega
    simp only [Function.comp, symbolBefore, Nat.add_one_ne_zero, if_false, Nat.add_sub_cancel]
    rw [List.getD_eq_getElem?_getD, List.getElem?_eq_getElem hi']
    simp

/-- How many suffixes are before `p`. -/
def below164 (t p : List (BitVec 64)) : Nat := (suffixOrder t).countP fun i => !lexLe p (t.drop i)
/-- How many are before `p` or begin with it. -/
def upto164 (t p : List (BitVec 64)) : Nat := (suffixOrder t).countP fun i => lexLe ((t.drop i).take p.length) p

theorem below_cons (u p : List (BitVec 64)) {x : BitVec 64} (hx : x ≠ 0) :
    below164 (u ++ [0]) (x :: p) = ((u ++ [0]).countP fun (y : BitVec 64) => decide (y.toNat < x.toNat)) +
      (((suffixOrder (u ++ [0])).map (symbolBefore (u ++ [0]))).take (below164 (u ++ [0]) p)).count x := by
  rw [below164, below164, ← back_count (fun s => !lexLe p s) (fun r s h h' => by
    cases e : lexLe p r with
    | false => rfl
    | true => simp [lexLe_trans _ _ _ e h] at h') u hx]
  apply List.countP_congr
  intro i hi
  rw [List.drop_eq_getElem_cons (mem_suffixOrder.1 hi)]
  generalize (u ++ [0])[i]'(mem_suffixOrder.1 hi) = y
  simp only [lexLe, Bool.not_eq_true', Bool.or_eq_false_iff, decide_eq_false_iff_not, Bool.or_eq_true, decide_eq_true_eq,
    Bool.and_eq_true, beq_iff_eq, Bool.and_eq_false_imp]
  constructor
  · rintro ⟨h1, h2⟩
    rcases Nat.lt_or_ge y.toNat x.toNat with h | h
    · exact .inl h
    · have : x = y := BitVec.eq_of_toNat_eq (by omega)
      exact .inr ⟨this, h2 this⟩
  · rintro (h | ⟨h1, h2⟩)
    · exact ⟨by omega, fun e => by rw [e] at h; omega⟩
    · exact ⟨by rw [h1]; omega, fun _ => h2⟩

theorem upto_cons (u p : List (BitVec 64)) {x : BitVec 64} (hx : x ≠ 0) :
    upto164 (u ++ [0]) (x :: p) = ((u ++ [0]).countP fun (y : BitVec 64) => decide (y.toNat < x.toNat)) +
      (((suffixOrder (u ++ [0])).map (symbolBefore (u ++ [0]))).take (upto164 (u ++ [0]) p)).count x := by
  rw [upto164, upto164, ← back_count (fun s => lexLe (s.take p.length) p) (fun r s h h' =>
    lexLe_trans _ _ _ (lexLe_take _ _ _ h) h') u hx]
  apply List.countP_congr
  intro i hi
  rw [List.drop_eq_getElem_cons (mem_suffixOrder.1 hi)]
  simp only [List.length_cons, List.take_succ_cons, lexLe]
  rw [show ((u ++ [0])[i]'(mem_suffixOrder.1 hi) == x) = (x == (u ++ [0])[i]'(mem_suffixOrder.1 hi)) from BEq.comm]

/-- The suffixes that begin with `p` lie together. -/
theorem order_filter (t p : List (BitVec 64)) :
    ((suffixOrder t).filter fun i => decide (p <+: t.drop i)) = ((suffixOrder t).take (upto164 t p)).drop (below164 t p) := by
  have hs := suffixOrder_sorted t
  obtain ⟨h1, -⟩ := filter_sorted (q := fun i => lexLe ((t.drop i).take p.length) p)
    (fun i j h h' => lexLe_trans _ _ _ (lexLe_take _ _ _ h) h') hs
  have hd : ∀ i j, lexLe (t.drop i) (t.drop j) = true → (!lexLe p (t.drop j)) = true → (!lexLe p (t.drop i)) = true :=
    fun i j h h' => by
      cases e : lexLe p (t.drop i) with
      | false => rfl
      | true => simp [lexLe_trans _ _ _ e h] at h'
  have hs' := hs.sublist (List.take_sublist (upto164 t p) (suffixOrder t))
  obtain ⟨-, h2⟩ := filter_sorted (q := fun i => !lexLe p (t.drop i)) hd hs'
  have hb : ((suffixOrder t).take (upto164 t p)).countP (fun i => !lexLe p (t.drop i)) = below164 t p := by
    unfold below164 upto164
    rw [← h1, List.countP_filter]
    apply List.countP_congr
    intro i _
    simp only [Bool.and_eq_true, Bool.not_eq_true', and_iff_left_iff_imp]
    intro h
    have := lexLe_total p (t.drop i)
    rw [h, Bool.false_or] at this
    have := lexLe_take p.length _ _ this
    rwa [List.take_length] at this
  rw [hb] at h2
  rw [← h2]
  unfold upto164
  rw [← h1, List.filter_filter]
  apply List.filter_congr
  intro i _
  rw [show (decide (p <+: t.drop i)) = decide (lexLe ((t.drop i).take p.length) p = true ∧ lexLe p (t.drop i) = true) from
    decide_eq_decide.2 (prefix_iff p (t.drop i))]
  cases lexLe p (t.drop i) <;> cases lexLe ((t.drop i).take p.length) p <;> rfl

theorem below_le_upto (t p : List (BitVec 64)) : below164 t p ≤ upto164 t p := by
  apply List.countP_mono_left
  intro i _ h
  have := lexLe_total p (t.drop i)
  rw [Bool.not_eq_true'] at h
  rw [h, Bool.false_or] at this
  have := lexLe_take p.length _ _ this
  rwa [List.take_length] at this

theorem upto_le (t p : List (BitVec 64)) : upto164 t p ≤ t.length := by
  rw [← suffixOrder_length t]; exact List.countP_le_length

/-- The place of a suffix in the order. -/
theorem order_at {j : Nat} (hj : j < t.length) : ∃ h : below164 t (t.drop j) < (suffixOrder t).length,
    (suffixOrder t)[below164 t (t.drop j)] = j := by
  have hs := suffixOrder_sorted t
  have hd : ∀ i i', lexLe (t.drop i) (t.drop i') = true → (!lexLe (t.drop j) (t.drop i')) = true → (!lexLe (t.drop j) (t.drop i)) = true :=
    fun i i' h h' => by
      cases e : lexLe (t.drop j) (t.drop i) with
      | false => rfl
      | true => simp [lexLe_trans _ _ _ e h] at h'
  obtain ⟨-, h2⟩ := filter_sorted (q := fun i => !lexLe (t.drop j) (t.drop i)) hd hs
  have hm : j ∈ (suffixOrder t).drop (below164 t (t.drop j)) := by
    unfold below164
    rw [← h2, List.mem_filter]
    exact ⟨mem_suffixOrder.2 hj, by simp [lexLe_refl]⟩
  have hlt : below164 t (t.drop j) < (suffixOrder t).length := by
    have := List.length_pos_of_mem hm
    rw [List.length_drop] at this; omega
  refine ⟨hlt, ?_⟩
  rw [List.drop_eq_getElem_cons hlt] at hm
  have hmem : (suffixOrder t)[below164 t (t.drop j)] ∈ (suffixOrder t).drop (below164 t (t.drop j)) := by
    rw [List.drop_eq_getElem_cons hlt]; exact List.mem_cons_self
  have hge : lexLe (t.drop j) (t.drop (suffixOrder t)[below164 t (t.drop j)]) = true := by
    unfold below164 at hmem ⊢
    rw [← h2, List.mem_filter] at hmem
    simpa using hmem.2
  rcases List.mem_cons.1 hm with h | h
  · exact h.symm
  · have hle := (List.pairwise_cons.1 (by rw [← List.drop_eq_getElem_cons hlt]; exact hs.drop)).1 j h
    have e := lexLe_antisymm _ _ hle hge
    have hb := mem_suffixOrder.1 (List.getElem_mem hlt)
    have := congrArg List.length e
    rw [List.length_drop, List.length_drop] at this
    omega
end

/-! ### The programs -/

theorem pushSyms_ok (c : Cfg) : ∀ {xs : List (BitVec 64)} {v : IV 64} {ys : List Nat}, IR c 64 64 v ys →
    Fits c.usz 64 ((ys.length + xs.length) * 64) → ∃ v', pushSyms c xs v = .ok v' ∧ IR c 64 64 v' (ys ++ xs.map BitVec.toNat)
  | [], v, ys, h, _ => ⟨v, rfl, by simpa using h⟩
  | x :: xs, v, ys, h, hf => by
    simp only [List.length_cons] at hf
    obtain ⟨v1, h1, h2⟩ := h.push_ok isBlk64 x (hf.mono (by omega)) x.isLt
    obtain ⟨v2, h3, h4⟩ := pushSyms_ok c (xs := xs) h2 (hf.mono (by simp only [List.length_append, List.length_singleton]; omega))
    refine ⟨v2, ?_, by simpa using h4⟩
    rw [pushSyms, h1, Res.ok_bind, h3]

/-- What an index of `u` gives. -/
structure TextRep (c : Cfg) (k : Nat) (u : List (BitVec 64)) (t : TextIndex) : Prop where
  short : (u.length + 1) * 64 < 2 ^ 64
  get : ∀ (i : Nat) (h : i < (suffixOrder (u ++ [0])).length),
    levelsGet c t.before i 0 = .ok (symbolBefore (u ++ [0]) (suffixOrder (u ++ [0]))[i])
  cnt : ∀ i, i ≤ u.length + 1 → ∀ x : BitVec 64, x.toNat < 2 ^ k →
    levelsCount c x t.before 0 i = .ok ((((suffixOrder (u ++ [0])).map (symbolBefore (u ++ [0]))).take i).count x)
  smaller : IR c 64 64 t.smaller ((List.range (2 ^ k)).map fun a => (u ++ [0]).countP fun (y : BitVec 64) => decide (y.toNat < a))
  places : IR c 64 64 t.places (suffixOrder (u ++ [0]))

section
variable {c : Cfg} {k : Nat} {u : List (BitVec 64)} {t : TextIndex}

theorem textNew_ok (hk : k ≤ 64) (hx : ∀ x ∈ u, x.toNat < 2 ^ k) (hf : Fits c.usz 64 ((u.length + 1) * 64))
    (hg : Fits c.usz 64 (2 ^ k * 64)) (hu : blocksFor 64 (u.length + 1) + 8 < 2 ^ c.usz) :
    ∃ t, textNew c k u = .ok t ∧ TextRep c k u t := by
  have hs : (u.length + 1) * 64 < 2 ^ 64 := by have := hf.lt (by omega); have := c.usz_le; omega
  have hl : (suffixOrder (u ++ [0])).length = u.length + 1 := by rw [suffixOrder_length]; simp
  have hml : ((suffixOrder (u ++ [0])).map (symbolBefore (u ++ [0]))).length = u.length + 1 := by rw [List.length_map, hl]
  have hsym : ∀ x ∈ (suffixOrder (u ++ [0])).map (symbolBefore (u ++ [0])), x.toNat < 2 ^ k := by
    intro x hx'
    obtain ⟨i, hi, rfl⟩ := List.mem_map.1 hx'
    rw [mem_suffixOrder] at hi
    unfold symbolBefore
    split
    · exact Nat.two_pow_pos k
    · rw [List.getD_eq_getElem?_getD, List.getElem?_eq_getElem (by omega : i - 1 < _)]
      have := List.getElem_mem (by omega : i - 1 < (u ++ [0]).length)
      rcases List.mem_append.1 this with h | h
      · exact hx _ h
      · rw [Option.getD_some, List.mem_singleton.1 h]; exact Nat.two_pow_pos k
  obtain ⟨b, h1, -, h2, h3⟩ := C159_wavelet c hk _ hsym (by rw [hml]; exact hf.mono (by omega)) (by rw [hml]; exact hu)
  obtain ⟨v0, h4, h5⟩ := ivInit_ok c isBlk64 (k := 64) (by omega) (Nat.le_refl _) (.new : IvInit 64) trivial
  have h4 : IV.new 64 64 = .ok v0 := h4
  obtain ⟨v1, h6, h7⟩ := pushSyms_ok c (xs := (List.range (2 ^ k)).map fun a => BitVec.ofNat 64 ((u ++ [0]).countP fun (x : BitVec 64) =>
    decide (x.toNat < a))) h5 (by simpa [IvInit.elems] using hg)
  obtain ⟨v2, h8, h9⟩ := pushSyms_ok c (xs := (suffixOrder (u ++ [0])).map (BitVec.ofNat 64)) h5
    (by rw [List.length_map, hl]; simpa [IvInit.elems] using hf)
  refine ⟨⟨b, v1, v2⟩, ?_, ⟨hs, ?_, ?_, ?_, ?_⟩⟩
  · unfold textNew
    simp only [h1, h4, h6, h8, Res.ok_bind]
  · intro i hi
    have := h2 i (by rw [List.length_map]; exact hi)
    rw [List.getElem_map] at this
    exact this
  · intro i hi x hx'
    have := (h3 0 i (Nat.zero_le _) (by rw [hml]; exact hi)).1 x hx'
    rw [List.drop_zero] at this
    exact this
  · have e : ((IvInit.new : IvInit 64).elems 64) ++ ((List.range (2 ^ k)).map fun a => BitVec.ofNat 64 ((u ++ [0]).countP fun (x : BitVec 64) =>
        decide (x.toNat < a))).map BitVec.toNat = (List.range (2 ^ k)).map fun a => (u ++ [0]).countP fun (y : BitVec 64) => decide (y.toNat < a) := by
      rw [List.map_map]
      show [] ++ _ = _
      rw [List.nil_append]
      apply List.map_congr_left
      intro a _
      have : (u ++ [0]).countP (fun (y : BitVec 64) => decide (y.toNat < a)) ≤ (u ++ [0]).length := List.countP_le_length
      rw [List.length_append, List.length_singleton] at this
      simp only [Function.comp, BitVec.toNat_ofNat]
      exact Nat.mod_eq_of_lt (by omega)
    rw [← e]; exact h7
  · have e : ((IvInit.new : IvInit 64).elems 64) ++ ((suffixOrder (u ++ [0])).map (BitVec.ofNat 64)).map BitVec.toNat =
        suffixOrder (u ++ [0]) := by
      rw [List.map_map]
      show [] ++ _ = _
      rw [List.nil_append]
      conv => rhs; rw [← List.map_id (suffixOrder (u ++ [0]))]
      apply List.map_congr_left
      intro i hi
      rw [mem_suffixOrder, List.length_append, List.length_singleton] at hi
      simp only [Function.comp, BitVec.toNat_ofNat, id]
      exact Nat.mod_eq_of_lt (by omega)
    rw [← e]; exact h9

theorem TextRep.back_ok (h : TextRep c k u t) {x : BitVec 64} (hx : x.toNat < 2 ^ k) {i : Nat} (hi : i ≤ u.length + 1) :
    t.back c x i = .ok (((u ++ [0]).countP fun (y : BitVec 64) => decide (y.toNat < x.toNat)) +
      (((suffixOrder (u ++ [0])).map (symbolBefore (u ++ [0]))).take i).count x) := by
  obtain ⟨f, h1, h2⟩ := h.smaller.get_ok isBlk64 (i := x.toNat) (by simpa using hx)
  rw [List.getElem_map, List.getElem_range] at h2
  have h3 : (u ++ [0]).countP (fun (y : BitVec 64) => decide (y.toNat < x.toNat)) ≤ (u ++ [0]).length := List.countP_le_length
  have h4 : (((suffixOrder (u ++ [0])).map (symbolBefore (u ++ [0]))).take i).count x ≤ _ := List.count_le_length
  rw [List.length_append, List.length_singleton] at h3
  rw [List.length_take] at h4
  have := h.short
  unfold TextIndex.back
  rw [h1, Res.ok_bind, h.cnt i hi x hx, Res.ok_bind, h2, addN_ok (by omega)]

theorem TextRep.narrow_ok (h : TextRep c k u t) : ∀ (p q : List (BitVec 64)), (∀ x ∈ p, 0 < x.toNat ∧ x.toNat < 2 ^ k) →
    t.narrow c p (below164 (u ++ [0]) q) (upto164 (u ++ [0]) q) =
      .ok (below164 (u ++ [0]) (p.reverse ++ q), upto164 (u ++ [0]) (p.reverse ++ q))
  | [], q, _ => rfl
  | x :: p, q, hp => by
    obtain ⟨h0, h1⟩ := hp x List.mem_cons_self
    have hx : x ≠ 0 := by rintro rfl; simp at h0
    have hu := upto_le (u ++ [0]) q
    have hb := below_le_upto (u ++ [0]) q
    rw [List.length_append, List.length_singleton] at hu
    rw [TextIndex.narrow, h.back_ok h1 (by omega), Res.ok_bind, h.back_ok h1 hu, Res.ok_bind, ← below_cons u q hx, ← upto_cons u q hx,
      h.narrow_ok p (x :: q) fun y hy => hp y (List.mem_cons_of_mem _ hy)]
    simp

theorem TextRep.narrow_all (h : TextRep c k u t) {p : List (BitVec 64)} (hp : ∀ x ∈ p, 0 < x.toNat ∧ x.toNat < 2 ^ k) :
    t.narrow c p.reverse 0 t.places.len = .ok (below164 (u ++ [0]) p, upto164 (u ++ [0]) p) := by
  have h1 := h.narrow_ok p.reverse [] fun x hx => hp x (List.mem_reverse.1 hx)
  have h2 : below164 (u ++ [0]) [] = 0 := List.countP_eq_zero.2 fun i _ => by simp [lexLe]
  have h3 : upto164 (u ++ [0]) [] = t.places.len := by
    have : t.places.len = (suffixOrder (u ++ [0])).length := h.places.len
    rw [this]
    exact List.countP_eq_length.2 fun i _ => by simp [lexLe]
  rw [h2, h3, List.reverse_reverse, List.append_nil] at h1
  exact h1

theorem TextRep.find_ok (h : TextRep c k u t) {p : List (BitVec 64)} (hp : ∀ x ∈ p, 0 < x.toNat ∧ x.toNat < 2 ^ k) :
    t.find c p = .ok ((suffixOrder (u ++ [0])).filter fun i => decide (p <+: (u ++ [0]).drop i)) ∧
    t.count c p = .ok ((suffixOrder (u ++ [0])).filter fun i => decide (p <+: (u ++ [0]).drop i)).length := by
  have hle := below_le_upto (u ++ [0]) p
  have hu := upto_le (u ++ [0]) p
  have hl := suffixOrder_length (u ++ [0])
  rw [order_filter]
  constructor
  · unfold TextIndex.find
    rw [h.narrow_all hp, Res.ok_bind]
    obtain ⟨l, h1, h2⟩ := forRange_inv (s := ([] : List Nat)) (f := fun j out => (do
        let p ← t.places.get c j
        .ok (out ++ [p.toNat]) : Res (List Nat)))
      (fun j out => out = ((suffixOrder (u ++ [0])).take j).drop (below164 (u ++ [0]) p)) hle
      (by rw [List.drop_eq_nil_of_le (by rw [List.length_take]; omega)])
      (fun j out h1 h2 h3 => by
        have hj : j < (suffixOrder (u ++ [0])).length := by omega
        obtain ⟨y, h4, h5⟩ := h.places.get_ok isBlk64 hj
        refine ⟨_, by rw [h4, Res.ok_bind], ?_⟩
        rw [h3, h5, List.take_succ_eq_append_getElem hj, List.drop_append_of_le_length (by rw [List.length_take]; omega)])
    rw [← h2]; exact h1
  · unfold TextIndex.count
    rw [h.narrow_all hp, Res.ok_bind]
    show subN c 64 _ _ = _
    rw [subN_ok hle, List.length_drop, List.length_take]
    congr 2; omega

theorem below_last (u : List (BitVec 64)) : below164 (u ++ [0]) ((u ++ [0]).drop u.length) = 0 := by
  apply List.countP_eq_zero.2
  intro i hi
  rw [List.drop_eq_getElem_cons (mem_suffixOrder.1 hi), List.drop_append_of_le_length (Nat.le_refl _), List.drop_length]
  generalize (u ++ [0])[i]'(mem_suffixOrder.1 hi) = y
  simp only [List.nil_append, lexLe, Bool.not_eq_true', Bool.or_eq_false_iff, decide_eq_false_iff_not, Bool.and_true, not_and]
  intro h1 h2
  have : (0 : BitVec 64) = y := BitVec.eq_of_toNat_eq (by have : (0 : BitVec 64).toNat = 0 := rfl; omega)
  simp [this] at h2

theorem TextRep.text_ok (h : TextRep c k u t) (hx : ∀ x ∈ u, 0 < x.toNat ∧ x.toNat < 2 ^ k) : ∀ j, j ≤ u.length →
    t.text c (below164 (u ++ [0]) ((u ++ [0]).drop j)) (u.drop j) = .ok u := by
  intro j
  induction j with
  | zero =>
    intro hj
    obtain ⟨h1, h2⟩ := order_at (t := u ++ [0]) (j := 0) (by simp)
    rw [TextIndex.text, h.get _ h1, Res.ok_bind, h2]
    simp [symbolBefore]
  | succ j ih =>
    intro hj
    obtain ⟨h1, h2⟩ := order_at (t := u ++ [0]) (j := j + 1) (by simp; omega)
    have hj' : j < u.length := hj
    have hs : symbolBefore (u ++ [0]) (j + 1) = u[j] := by
      unfold symbolBefore
      rw [if_neg (by omega), Nat.add_sub_cancel, List.getD_eq_getElem?_getD, List.getElem?_append_left hj', List.getElem?_eq_getElem hj']
      rfl
    obtain ⟨h3, h4⟩ := hx _ (List.getElem_mem hj')
    have h5 : u[j] ≠ 0 := by intro e; rw [e] at h3; simp at h3
    rw [suffixOrder_length, List.length_append, List.length_singleton] at h1
    have h6 := ih (by omega)
    rw [List.drop_eq_getElem_cons hj', List.drop_eq_getElem_cons (show j < (u ++ [0]).length by simp; omega),
      List.getElem_append_left hj', below_cons u _ h5] at h6
    rw [TextIndex.text, h.get _ (by rw [suffixOrder_length]; simpa using h1), Res.ok_bind, h2, hs, if_neg h5,
      h.back_ok h4 (by omega), Res.ok_bind]
    exact h6
end

/-- **C164.** Of a text of symbols `1 .. 2^k` an index can be made that gives for every pattern of such symbols the places where it
occurs, each once, and their number; and from which the text can be read back. -/
theorem C164_text_search (c : Cfg) {k : Nat} (hk : k ≤ 64) (text : List (BitVec 64)) (hx : ∀ x ∈ text, 0 < x.toNat ∧ x.toNat < 2 ^ k)
    (hf : Fits c.usz 64 ((text.length + 1) * 64)) (hg : Fits c.usz 64 (2 ^ k * 64))
    (hu : blocksFor 64 (text.length + 1) + 8 < 2 ^ c.usz) :
    ∃ t, textNew c k text = .ok t ∧
      (∀ p : List (BitVec 64), (∀ x ∈ p, 0 < x.toNat ∧ x.toNat < 2 ^ k) → ∃ l, t.find c p = .ok l ∧ l.Nodup ∧
        (∀ i, i ∈ l ↔ i ≤ text.length ∧ p <+: text.drop i) ∧ t.count c p = .ok l.length) ∧
      t.text c 0 [] = .ok text := by
  obtain ⟨t, h1, h2⟩ := textNew_ok hk (fun x h => (hx x h).2) hf hg hu
  refine ⟨t, h1, fun p hp => ?_, ?_⟩
  · obtain ⟨h3, h4⟩ := h2.find_ok hp
    refine ⟨_, h3, ?_, ?_, h4⟩
    · exact ((suffixOrder_perm _).nodup_iff.2 List.nodup_range).filter _
    · intro i
      rw [List.mem_filter, mem_suffixOrder, decide_eq_true_eq, List.length_append, List.length_singleton]
      constructor
      · rintro ⟨h5, h6⟩
        refine ⟨by omega, ?_⟩
        rw [List.drop_append_of_le_length (by omega), List.prefix_concat_iff] at h6
        rcases h6 with h6 | h6
        · have := (hp 0 (by rw [h6]; simp)).1
          simp at this
        · exact h6
      · rintro ⟨h5, h6⟩
        refine ⟨by omega, ?_⟩
        rw [List.drop_append_of_le_length (by omega)]
        exact h6.trans (List.prefix_append _ _)
  · have := h2.text_ok hx text.length (Nat.le_refl _)
    rwa [below_last, List.drop_length] at this

end Succinct
