import Verif.Props.Coding
import Verif.Props.Transcode
/-!
# Sets kept as coded gaps

A use of the coding module: a strictly increasing list of integers is written as the codes of the distances between its members. The
members come back by adding up, one is looked for by reading no further than necessary, and the common members of two sets are found by
reading both once.
-/
namespace Succinct
open Spec

/-- What is written: how many integers are left out before each member, from `next` on. -/
def Spec.gapsFrom : Nat → List Nat → List Nat
  | _, [] => []
  | next, x :: xs => (x - next) :: Spec.gapsFrom (x + 1) xs

variable (c : Cfg) (K : Code)

/-- `for x in xs { code.encode(sink, x - next)?; next = x + 1 }` -/
def gapsWrite (W : BitWrite σ) : Nat → List Nat → SM σ Unit
  | _, [] => pure ()
  | next, x :: xs => do
    let d ← SM.lift (subN c 64 x next)
    K.encode W d
    let next ← SM.lift (addN c 64 x 1)
    gapsWrite W next xs

/-- `code.decode(source)?.map(|d| next + d)` -/
def gapsNext (R : BitRead σ) (next : Nat) : SM σ (Option Nat) := do
  match ← K.decode R with
  | some d => do
    let x ← SM.lift (addN c 64 next d)
    pure (some x)
  | none => pure none

/-- `while let Some(x) = gaps_next(source, next)? { out.push(x); next = x + 1 }` -/
def gapsRead (R : BitRead σ) (next : Nat) (out : List Nat) : SM σ (List Nat) := do
  match ← gapsNext c K R next with
  | some x => do
    let next ← SM.lift (addN c 64 x 1)
    gapsRead R next (out ++ [x])
  | none => pure out
partial_fixpoint

/-- `while let Some(x) = gaps_next(source, next)? { if x >= y { return Ok(x == y) } next = x + 1 } Ok(false)` -/
def gapsContains (R : BitRead σ) (y : Nat) (next : Nat) : SM σ Bool := do
  match ← gapsNext c K R next with
  | some x =>
    if y ≤ x then pure (x == y) else do
      let next ← SM.lift (addN c 64 x 1)
      gapsContains R y next
  | none => pure false
partial_fixpoint

/-- The common members of two sets, read side by side from the members `x` and `y` on: the smaller of the two is passed over. -/
def gapsMeet (K2 : Code) (R : BitRead σ) (R2 : BitRead τ) (x y : Option Nat) (out : List Nat) : SM (σ × τ) (List Nat) :=
  match x, y with
  | some a, some b =>
    if a < b then do
      let next ← SM.lift (addN c 64 a 1)
      let x ← onSource (gapsNext c K R next)
      gapsMeet K2 R R2 x (some b) out
    else if b < a then do
      let next ← SM.lift (addN c 64 b 1)
      let y ← onSink (gapsNext c K2 R2 next)
      gapsMeet K2 R R2 (some a) y out
    else do
      let next ← SM.lift (addN c 64 a 1)
      let x ← onSource (gapsNext c K R next)
      let y ← onSink (gapsNext c K2 R2 next)
      gapsMeet K2 R R2 x y (out ++ [a])
  | _, _ => pure out
partial_fixpoint

/-- The whole of it, both sources at their beginning. -/
def gapsCommon (K2 : Code) (R : BitRead σ) (R2 : BitRead τ) : SM (σ × τ) (List Nat) := do
  let x ← onSource (gapsNext c K R 0)
  let y ← onSink (gapsNext c K2 R2 0)
  gapsMeet c K K2 R R2 x y []

/-! ### Proofs -/
variable {c K}

/-- The list increases from `next` on, below the greatest integer, and its gaps are in the domain. -/
def GapsOk (D : Nat → Prop) : Nat → List Nat → Prop
  | _, [] => True
  | next, x :: xs => next ≤ x ∧ x + 1 < 2 ^ 64 ∧ D (x - next) ∧ GapsOk D (x + 1) xs

theorem gapsOk_of {D : Nat → Prop} {xs : List Nat} : ∀ {next : Nat}, (∀ x ∈ xs, next ≤ x) → xs.Pairwise (· < ·) →
    (∀ x ∈ xs, x < 2 ^ 64 - 1) → (∀ d ∈ gapsFrom next xs, D d) → GapsOk D next xs := by
  induction xs with
  | nil => intros; trivial
  | cons x xs ih =>
    intro next h0 h1 h2 h3
    rw [List.pairwise_cons] at h1
    have := h2 x (by simp)
    refine ⟨h0 x (by simp), by omega, h3 _ (by simp [gapsFrom]), ih (fun y hy => h1.1 y hy) h1.2 (fun y hy => h2 y (by simp [hy])) ?_⟩
    intro d hd
    exact h3 d (by simp [gapsFrom, hd])

theorem GapsOk.ge {D : Nat → Prop} {xs : List Nat} : ∀ {next : Nat}, GapsOk D next xs → ∀ x ∈ xs, next ≤ x := by
  induction xs with
  | nil => simp
  | cons x xs ih =>
    intro next h y hy
    rcases List.mem_cons.1 hy with rfl | hy
    · exact h.1
    · have := ih h.2.2.2 y hy
      have := h.1
      omega

theorem gapsWrite_eq {D : Nat → Prop} (W : BitWrite σ) {xs : List Nat} :
    ∀ {next : Nat}, GapsOk D next xs → gapsWrite c K W next xs = encodeAll K W (gapsFrom next xs) := by
  induction xs with
  | nil => intros; rfl
  | cons x xs ih =>
    intro next h
    funext s
    rw [gapsWrite, gapsFrom, encodeAll, subN_ok h.1, SM.bind_run_ok (SM.lift_ok _ s), addN_ok h.2.1, ← ih h.2.2.2]
    rfl

theorem GapsOk.dom {D : Nat → Prop} {xs : List Nat} : ∀ {next : Nat}, GapsOk D next xs → ∀ d ∈ gapsFrom next xs, D d := by
  induction xs with
  | nil => intro _ _ d hd; simp [gapsFrom] at hd
  | cons x xs ih =>
    intro next h d hd
    rcases List.mem_cons.1 hd with rfl | hd
    · exact h.2.2.1
    · exact ih h.2.2.2 d hd

/-- What the next step finds. -/
theorem gapsNext_some {D : Nat → Prop} {word : Nat → List Bool} (hK : Implements K D word) {R : BitRead σ}
    {Rep : σ → List Bool → Prop} (hR : LawfulSource R Rep) {next x : Nat} {xs : List Nat} (h : GapsOk D next (x :: xs)) {s : σ}
    (hs : Rep s ((gapsFrom next (x :: xs)).flatMap word)) :
    ∃ s', gapsNext c K R next s = .ok (.ok (some x), s') ∧ Rep s' ((gapsFrom (x + 1) xs).flatMap word) := by
  rw [gapsFrom, List.flatMap_cons] at hs
  obtain ⟨s1, h1, h2⟩ := hR.reads _ hs
  refine ⟨s1, ?_, h2⟩
  have h3 := h.1
  have h4 := h.2.1
  rw [gapsNext, SM.bind_run_ok (hK.decodes _ h.2.2.1 R s s1 h1)]
  show (do let x ← SM.lift (addN c 64 next (x - next)); pure (some x) : SM σ (Option Nat)) s1 = _
  rw [addN_ok (by omega), SM.bind_run_ok (SM.lift_ok _ s1), SM.pure_run, show next + (x - next) = x by omega]

theorem gapsNext_none {D : Nat → Prop} {word : Nat → List Bool} (hK : Implements K D word) {R : BitRead σ}
    {Rep : σ → List Bool → Prop} (hR : LawfulSource R Rep) {next : Nat} {s : σ} (hs : Rep s []) :
    ∃ s', gapsNext c K R next s = .ok (.ok none, s') ∧ Rep s' [] := by
  obtain ⟨h1, h2⟩ := hR.noBit hs
  obtain ⟨s1, h3, h4⟩ := h2 (Except.ok (none : Option Nat))
  refine ⟨s1, ?_, h4⟩
  rw [gapsNext, SM.bind_run_ok ((hK.ends R s h1).trans h3)]
  rfl

/-- Both together: the first member, if there is one. -/
theorem gapsNext_head {D : Nat → Prop} {word : Nat → List Bool} (hK : Implements K D word) {R : BitRead σ}
    {Rep : σ → List Bool → Prop} (hR : LawfulSource R Rep) {next : Nat} {xs : List Nat} (h : GapsOk D next xs) {s : σ}
    (hs : Rep s ((gapsFrom next xs).flatMap word)) :
    ∃ s', gapsNext c K R next s = .ok (.ok xs.head?, s') ∧
      Rep s' ((gapsFrom ((xs.head?.getD 0) + 1) xs.tail).flatMap word) := by
  cases xs with
  | nil => exact gapsNext_none hK hR hs
  | cons x xs => exact gapsNext_some hK hR h hs

theorem gapsRead_ok {D : Nat → Prop} {word : Nat → List Bool} (hK : Implements K D word) {R : BitRead σ}
    {Rep : σ → List Bool → Prop} (hR : LawfulSource R Rep) (xs : List Nat) : ∀ {next : Nat} (out : List Nat) {s : σ},
    GapsOk D next xs → Rep s ((gapsFrom next xs).flatMap word) →
    ∃ s', gapsRead c K R next out s = .ok (.ok (out ++ xs), s') ∧ Rep s' [] := by
  induction xs with
  | nil =>
    intro next out s _ hs
    obtain ⟨s1, h1, h2⟩ := gapsNext_none (c := c) (next := next) hK hR hs
    refine ⟨s1, ?_, h2⟩
    rw [gapsRead, SM.bind_run_ok h1, List.append_nil]
    rfl
  | cons x xs ih =>
    intro next out s h hs
    obtain ⟨s1, h1, h2⟩ := gapsNext_some (c := c) hK hR h hs
    obtain ⟨s2, h3, h4⟩ := ih (out ++ [x]) h.2.2.2 h2
    refine ⟨s2, ?_, h4⟩
    rw [gapsRead, SM.bind_run_ok h1]
    show (do let next ← SM.lift (addN c 64 x 1); gapsRead c K R next (out ++ [x]) : SM σ (List Nat)) s1 = _
    rw [addN_ok h.2.1, SM.bind_run_ok (SM.lift_ok _ s1), h3, List.append_assoc]
    rfl

theorem gapsContains_ok {D : Nat → Prop} {word : Nat → List Bool} (hK : Implements K D word) {R : BitRead σ}
    {Rep : σ → List Bool → Prop} (hR : LawfulSource R Rep) (y : Nat) (xs : List Nat) : ∀ {next : Nat} {s : σ},
    GapsOk D next xs → Rep s ((gapsFrom next xs).flatMap word) →
    ∃ s', gapsContains c K R y next s = .ok (.ok (decide (y ∈ xs)), s') ∧
      Rep s' (((gapsFrom next xs).drop (xs.countP (fun x => decide (x < y)) + 1)).flatMap word) := by
  induction xs with
  | nil =>
    intro next s _ hs
    obtain ⟨s1, h1, h2⟩ := gapsNext_none (c := c) (next := next) hK hR hs
    refine ⟨s1, ?_, h2⟩
    rw [gapsContains, SM.bind_run_ok h1]
    rfl
  | cons x xs ih =>
    intro next s h hs
    obtain ⟨s1, h1, h2⟩ := gapsNext_some (c := c) hK hR h hs
    rw [gapsContains, SM.bind_run_ok h1]
    show ∃ s', (if y ≤ x then pure (x == y) else do
      let next ← SM.lift (addN c 64 x 1)
      gapsContains c K R y next : SM σ Bool) s1 = _ ∧ _
    by_cases hy : y ≤ x
    · have h5 := h.2.2.2.ge
      have hno : ∀ z ∈ xs, ¬ z < y := fun z hz => by have := h5 z hz; omega
      refine ⟨s1, ?_, ?_⟩
      · rw [if_pos hy, SM.pure_run]
        have : (x == y) = decide (y ∈ x :: xs) := by
          by_cases e : x = y
          · simp [e]
          · have : y ∉ xs := fun hm => by have := h5 y hm; omega
            simp [e, this, Ne.symm e]
        rw [this]
      · have h6 : xs.countP (fun z => decide (z < y)) = 0 := List.countP_eq_zero.2 (fun z hz => by simpa using hno z hz)
        rw [List.countP_cons, h6, if_neg (by simp; omega)]
        exact h2
    · obtain ⟨s2, h3, h4⟩ := ih h.2.2.2 h2
      refine ⟨s2, ?_, ?_⟩
      · rw [if_neg hy, addN_ok h.2.1, SM.bind_run_ok (SM.lift_ok _ s1), h3]
        have : y ≠ x := by omega
        simp [this]
      · rw [List.countP_cons, if_pos (by simp; omega), gapsFrom, List.drop_succ_cons]
        exact h4

theorem onSource_ok {m : SM σ α} {s s' : σ} {t : τ} {a : α} (h : m s = .ok (.ok a, s')) :
    onSource m (s, t) = .ok (.ok a, (s', t)) := by
  rw [onSource]
  simp only [h]
  rfl

theorem onSink_ok {m : SM τ α} {s : σ} {t t' : τ} {a : α} (h : m t = .ok (.ok a, t')) :
    onSink m (s, t) = .ok (.ok a, (s, t')) := by
  rw [onSink]
  simp only [h]
  rfl

theorem gapsMeet_ok {K2 : Code} {D D2 : Nat → Prop} {word word2 : Nat → List Bool} (hK : Implements K D word)
    (hK2 : Implements K2 D2 word2) {R : BitRead σ} {R2 : BitRead τ} {Rep : σ → List Bool → Prop} {Rep2 : τ → List Bool → Prop}
    (hR : LawfulSource R Rep) (hR2 : LawfulSource R2 Rep2) (n : Nat) : ∀ (xs ys : List Nat) {m m2 : Nat} (out : List Nat) {s : σ} {t : τ},
    xs.length + ys.length ≤ n → GapsOk D m xs → GapsOk D2 m2 ys →
    Rep s ((gapsFrom ((xs.head?.getD 0) + 1) xs.tail).flatMap word) →
    Rep2 t ((gapsFrom ((ys.head?.getD 0) + 1) ys.tail).flatMap word2) →
    ∃ st, gapsMeet c K K2 R R2 xs.head? ys.head? out (s, t) = .ok (.ok (out ++ xs.filter (fun x => decide (x ∈ ys))), st) := by
  induction n with
  | zero =>
    intro xs ys m m2 out s t hl _ _ _ _
    have : xs = [] := List.length_eq_zero_iff.1 (by omega)
    subst this
    refine ⟨(s, t), ?_⟩
    rw [gapsMeet] <;> simp [SM.pure_run]
  | succ n ih =>
    intro xs ys m m2 out s t hl h h' hs ht
    match xs, ys with
    | [], ys =>
      refine ⟨(s, t), ?_⟩
      rw [gapsMeet] <;> simp [SM.pure_run]
    | x :: xs, [] =>
      refine ⟨(s, t), ?_⟩
      rw [gapsMeet] <;> simp [SM.pure_run]
    | x :: xs, y :: ys =>
      simp only [List.length_cons] at hl
      simp only [List.head?_cons, List.tail_cons, Option.getD_some] at hs ht ⊢
      rw [gapsMeet]
      have gx := h.2.2.2.ge
      have gy := h'.2.2.2.ge
      by_cases h1 : x < y
      · obtain ⟨s1, e1, r1⟩ := gapsNext_head (c := c) hK hR h.2.2.2 hs
        obtain ⟨st, e2⟩ := ih xs (y :: ys) out (t := t) (by simp only [List.length_cons]; omega) h.2.2.2 h' r1 ht
        refine ⟨st, ?_⟩
        simp only [if_pos h1]
        rw [addN_ok h.2.1, SM.bind_run_ok (SM.lift_ok _ _), SM.bind_run_ok (onSource_ok e1)]
        have hx : x ∉ y :: ys := fun hm => by
          rcases List.mem_cons.1 hm with e | hm
          · omega
          · have := gy x hm; omega
        rw [List.filter_cons_of_neg (by simpa using hx)]
        exact e2
      · by_cases h2 : y < x
        · obtain ⟨t1, e1, r1⟩ := gapsNext_head (c := c) hK2 hR2 h'.2.2.2 ht
          obtain ⟨st, e2⟩ := ih (x :: xs) ys out (s := s) (by simp only [List.length_cons]; omega) h h'.2.2.2 hs r1
          refine ⟨st, ?_⟩
          simp only [if_neg h1, if_pos h2]
          rw [addN_ok h'.2.1, SM.bind_run_ok (SM.lift_ok _ _), SM.bind_run_ok (onSink_ok e1)]
          have : (x :: xs).filter (fun z => decide (z ∈ y :: ys)) = (x :: xs).filter (fun z => decide (z ∈ ys)) := by
            refine List.filter_congr fun z hz => ?_
            have : y < z := by
              rcases List.mem_cons.1 hz with rfl | hz
              · exact h2
              · have := gx z hz; omega
            have : z ≠ y := by omega
            simp [this]
          rw [this]
          exact e2
        · have e : x = y := by omega
          subst e
          obtain ⟨s1, e1, r1⟩ := gapsNext_head (c := c) hK hR h.2.2.2 hs
          obtain ⟨t1, e3, r3⟩ := gapsNext_head (c := c) hK2 hR2 h'.2.2.2 ht
          obtain ⟨st, e2⟩ := ih xs ys (out ++ [x]) (by omega) h.2.2.2 h'.2.2.2 r1 r3
          refine ⟨st, ?_⟩
          simp only [if_neg h1]
          rw [addN_ok h.2.1, SM.bind_run_ok (SM.lift_ok _ _), SM.bind_run_ok (onSource_ok e1), SM.bind_run_ok (onSink_ok e3), e2]
          have : xs.filter (fun z => decide (z ∈ x :: ys)) = xs.filter (fun z => decide (z ∈ ys)) := by
            refine List.filter_congr fun z hz => ?_
            have := gx z hz
            have : z ≠ x := by omega
            simp [this]
          rw [List.filter_cons_of_pos (by simp), this, List.append_assoc]
          rfl

/-- C162: a set written as coded gaps, and read again. -/
theorem C162_gaps (c : Cfg) (f : Bool) {K : Code} {D : Nat → Prop} {word : Nat → List Bool} (hK : CodeOf c f K D word)
    (xs : List Nat) (hi : xs.Pairwise (· < ·)) (hx : ∀ x ∈ xs, x < 2 ^ 64 - 1) (hD : ∀ d ∈ gapsFrom 0 xs, D d)
    {W : BitWrite σ} {RepW : σ → List Bool → Prop} {Fit : Nat → Prop} (hW : LawfulSink W RepW Fit)
    (hm : ∀ {m n}, Fit n → m ≤ n → Fit m) {R : BitRead τ} {RepR : τ → List Bool → Prop} (hR : LawfulSource R RepR)
    {s : σ} {l : List Bool} (hs : RepW s l) (hf : Fit (l.length + ((gapsFrom 0 xs).flatMap word).length)) :
    ∃ s', gapsWrite c K W 0 xs s = .ok (.ok (), s') ∧ RepW s' (l ++ (gapsFrom 0 xs).flatMap word) ∧
      ∀ t, RepR t ((gapsFrom 0 xs).flatMap word) →
        (∃ t', gapsRead c K R 0 [] t = .ok (.ok xs, t') ∧ RepR t' []) ∧
        ∀ y, ∃ t', gapsContains c K R y 0 t = .ok (.ok (decide (y ∈ xs)), t') ∧
          RepR t' (((gapsFrom 0 xs).drop (xs.countP (fun x => decide (x < y)) + 1)).flatMap word) := by
  have hI := C62_all c f hK
  have hg : GapsOk D 0 xs := gapsOk_of (fun _ _ => Nat.zero_le _) hi hx hD
  obtain ⟨s', h1, h2⟩ := hW.writeAll hm ((gapsFrom 0 xs).flatMap word) hs hf
  refine ⟨s', ?_, h2, fun t ht => ⟨gapsRead_ok hI hR xs [] hg ht, fun y => gapsContains_ok hI hR y xs hg ht⟩⟩
  rw [gapsWrite_eq W hg, encodeAll_eq hI.encodes W _ hD]
  exact h1

/-- C162: the common members of two sets, each with its own code and source. -/
theorem C162_common (c : Cfg) (f f2 : Bool) {K K2 : Code} {D D2 : Nat → Prop} {word word2 : Nat → List Bool} (hK : CodeOf c f K D word)
    (hK2 : CodeOf c f2 K2 D2 word2) (xs ys : List Nat) (hi : xs.Pairwise (· < ·)) (hx : ∀ x ∈ xs, x < 2 ^ 64 - 1)
    (hD : ∀ d ∈ gapsFrom 0 xs, D d) (hi2 : ys.Pairwise (· < ·)) (hy : ∀ y ∈ ys, y < 2 ^ 64 - 1) (hD2 : ∀ d ∈ gapsFrom 0 ys, D2 d)
    {R : BitRead σ} {Rep : σ → List Bool → Prop} (hR : LawfulSource R Rep) {R2 : BitRead τ} {Rep2 : τ → List Bool → Prop}
    (hR2 : LawfulSource R2 Rep2) {s : σ} {t : τ} (hs : Rep s ((gapsFrom 0 xs).flatMap word))
    (ht : Rep2 t ((gapsFrom 0 ys).flatMap word2)) :
    ∃ st, gapsCommon c K K2 R R2 (s, t) = .ok (.ok (xs.filter (fun x => decide (x ∈ ys))), st) := by
  have hI := C62_all c f hK
  have hI2 := C62_all c f2 hK2
  have hg : GapsOk D 0 xs := gapsOk_of (fun _ _ => Nat.zero_le _) hi hx hD
  have hg2 : GapsOk D2 0 ys := gapsOk_of (fun _ _ => Nat.zero_le _) hi2 hy hD2
  obtain ⟨s1, e1, r1⟩ := gapsNext_head (c := c) hI hR hg hs
  obtain ⟨t1, e2, r2⟩ := gapsNext_head (c := c) hI2 hR2 hg2 ht
  obtain ⟨st, e3⟩ := gapsMeet_ok (c := c) hI hI2 hR hR2 _ xs ys [] (Nat.le_refl _) hg hg2 r1 r2
  refine ⟨st, ?_⟩
  rw [gapsCommon, SM.bind_run_ok (onSource_ok e1), SM.bind_run_ok (onSink_ok e2), e3]
  rfl

end Succinct
