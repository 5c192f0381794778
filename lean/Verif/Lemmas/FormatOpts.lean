import Verif.Model.FormatOpts
import Verif.Lemmas.Format
/-! Lemmas about text formatted with options: numbers, lists and structures can be read back. -/
namespace Succinct
open Spec
namespace FmtOpts

/-! ### Digits -/

/-- 10 or 16 -/
def base (o : FmtOpts) : Nat := if o.hex.isNone then 10 else 16

/-- One digit. -/
def digit (o : FmtOpts) (d : Nat) : Char := if o.hex = some true then d.digitChar.toUpper else d.digitChar

/-- The digits of the base. -/
def isDigit (o : FmtOpts) (x : Char) : Bool := (List.range o.base).any fun d => o.digit d == x

theorem base_ge (o : FmtOpts) : 10 ≤ o.base ∧ o.base ≤ 16 := by
  unfold base; split <;> omega

theorem digits_eq (o : FmtOpts) (n : Nat) :
    o.digits n = if n < o.base then [o.digit n] else o.digits (n / o.base) ++ [o.digit (n % o.base)] := by
  obtain ⟨al, hex, wd, fl, an, pl, ze⟩ := o
  unfold digits digit base
  rcases hex with _ | _ | _
  · simp only [Option.isNone_none, if_true, reduceCtorEq, if_false]
    exact Nat.toDigits_eq_if (by decide)
  · simp only [Option.isNone_some, Bool.false_eq_true, if_false, Option.some.injEq]
    exact Nat.toDigits_eq_if (by decide)
  · simp only [Option.isNone_some, Bool.false_eq_true, if_false, if_true]
    rw [Nat.toDigits_eq_if (by decide)]
    split <;> simp

theorem digit_inj (o : FmtOpts) {a b : Nat} (ha : a < o.base) (hb : b < o.base) (h : o.digit a = o.digit b) : a = b := by
  obtain ⟨al, hex, wd, fl, an, pl, ze⟩ := o
  have key : ∀ a < 16, ∀ b < 16, (Nat.digitChar a = Nat.digitChar b → a = b) ∧
      ((Nat.digitChar a).toUpper = (Nat.digitChar b).toUpper → a = b) := by decide +kernel
  have h1 := (base_ge ⟨al, hex, wd, fl, an, pl, ze⟩).2
  have := key a (by omega) b (by omega)
  unfold digit at h
  rcases hex with _ | _ | _
  · exact this.1 h
  · exact this.1 h
  · exact this.2 h

theorem isDigit_digit (o : FmtOpts) {d : Nat} (h : d < o.base) : o.isDigit (o.digit d) = true := by
  unfold isDigit
  rw [List.any_eq_true]
  exact ⟨d, by simpa using h, by simp⟩

theorem of_isDigit (o : FmtOpts) {x : Char} (h : o.isDigit x = true) : ∃ d, d < o.base ∧ o.digit d = x := by
  unfold isDigit at h
  rw [List.any_eq_true] at h
  obtain ⟨d, hd, e⟩ := h
  exact ⟨d, by simpa using hd, by simpa using e⟩

theorem digits_isDigit (o : FmtOpts) (n : Nat) : ∀ x ∈ o.digits n, o.isDigit x = true := by
  induction n using Nat.strongRecOn with
  | ind n ih =>
  have hb := (base_ge o).1
  intro x hx
  rw [digits_eq] at hx
  split at hx
  · rename_i h
    rw [List.mem_singleton.1 hx]
    exact isDigit_digit o h
  · rename_i h
    rcases List.mem_append.1 hx with hx | hx
    · exact ih _ (Nat.div_lt_self (by omega) (by omega)) x hx
    · rw [List.mem_singleton.1 hx]
      exact isDigit_digit o (Nat.mod_lt _ (by omega))

theorem digits_ne_nil (o : FmtOpts) (n : Nat) : o.digits n ≠ [] := by
  rw [digits_eq]; split <;> simp

theorem digit_zero (o : FmtOpts) : o.digit 0 = '0' := by
  obtain ⟨al, hex, wd, fl, an, pl, ze⟩ := o
  rcases hex with _ | _ | _ <;> rfl

/-- Which number a text of digits stands for. -/
private def value (o : FmtOpts) (l : Text) : Nat :=
  l.foldl (fun a x => o.base * a + ((List.range o.base).find? fun d => o.digit d == x).getD 0) 0

private theorem find_digit (o : FmtOpts) {d : Nat} (h : d < o.base) :
    ((List.range o.base).find? fun e => o.digit e == o.digit d).getD 0 = d := by
  cases hf : (List.range o.base).find? fun e => o.digit e == o.digit d with
  | none =>
    rw [List.find?_eq_none] at hf
    exact absurd (by simp) (hf d (by simpa using h))
  | some e =>
    have h1 := List.find?_some hf
    have h2 := List.mem_of_find?_eq_some hf
    simp at h1 h2
    exact digit_inj o h2 h h1

private theorem value_snoc (o : FmtOpts) (l : Text) {d : Nat} (h : d < o.base) : value o (l ++ [o.digit d]) = o.base * value o l + d := by
  unfold value
  rw [List.foldl_append]
  show _ + _ = _
  rw [find_digit o h]

private theorem value_digits (o : FmtOpts) (n : Nat) : value o (o.digits n) = n := by
  induction n using Nat.strongRecOn with
  | ind n ih =>
  have hb := (base_ge o).1
  rw [digits_eq]
  split
  · rename_i h
    have := value_snoc o [] h
    simpa [value] using this
  · rw [value_snoc o _ (Nat.mod_lt _ (by omega)), ih _ (Nat.div_lt_self (by omega) (by omega))]
    exact Nat.div_add_mod n o.base

private theorem value_zeros (o : FmtOpts) (k : Nat) (l : Text) : value o (List.replicate k '0' ++ l) = value o l := by
  induction k with
  | zero => rfl
  | succ k ih =>
    rw [← ih]
    unfold value
    have hb := (base_ge o).1
    rw [List.replicate_succ, List.cons_append, List.foldl_cons]
    have := find_digit o (d := 0) (by omega)
    rw [digit_zero] at this
    rw [this]
    rfl

theorem digits_zeros_inj (o : FmtOpts) {k k' n m : Nat} (h : List.replicate k '0' ++ o.digits n = List.replicate k' '0' ++ o.digits m) :
    n = m := by
  have := congrArg (value o) h
  rwa [value_zeros, value_zeros, value_digits, value_digits] at this

theorem digits_inj (o : FmtOpts) {n m : Nat} (h : o.digits n = o.digits m) : n = m :=
  digits_zeros_inj o (k := 0) (k' := 0) (by simpa using h)

/-- Text that does not begin with a digit of the base. -/
def NoDigit (o : FmtOpts) (l : Text) : Prop := ∀ x r, l = x :: r → o.isDigit x = false

theorem noDigit_cons {o : FmtOpts} {x : Char} {r : Text} (h : o.isDigit x = false) : o.NoDigit (x :: r) := by
  rintro x' r' e
  cases e; exact h

theorem runs_eq (o : FmtOpts) {a b r r' : Text} (hr : o.NoDigit r) (hr' : o.NoDigit r') (ha : ∀ x ∈ a, o.isDigit x = true)
    (hb : ∀ x ∈ b, o.isDigit x = true) (h : a ++ r = b ++ r') : a = b ∧ r = r' := by
  induction a generalizing b with
  | nil =>
    cases b with
    | nil => exact ⟨rfl, h⟩
    | cons d b =>
      have := hr d (b ++ r') (by simpa using h)
      rw [hb d (by simp)] at this; cases this
  | cons d a ih =>
    cases b with
    | nil =>
      have := hr' d (a ++ r) (by simpa using h.symm)
      rw [ha d (by simp)] at this; cases this
    | cons d' b =>
      simp only [List.cons_append, List.cons.injEq] at h
      obtain ⟨e1, e2⟩ := ih (fun x hx => ha x (by simp [hx])) (fun x hx => hb x (by simp [hx])) h.2
      exact ⟨by rw [h.1, e1], e2⟩

theorem not_digit (o : FmtOpts) : o.isDigit '+' = false ∧ o.isDigit 'x' = false ∧ o.isDigit ',' = false ∧ o.isDigit ' ' = false ∧
    o.isDigit ')' = false ∧ o.isDigit ']' = false ∧ o.isDigit '0' = true := by
  obtain ⟨al, hex, wd, fl, an, pl, ze⟩ := o
  rcases hex with _ | _ | _ <;> exact ⟨rfl, rfl, rfl, rfl, rfl, rfl, rfl⟩

/-! ### Numbers -/

/-- The padding runs into the digits: it is made of digits, there is room for it beside more than one digit, and it stands behind
the digits, or before them with nothing in between (where only zeros do no harm). -/
def Mixes (o : FmtOpts) : Prop :=
  o.zero = false ∧ o.isDigit o.fill = true ∧ o.lead.length + 2 ≤ o.width.getD 0 ∧
    (o.align = some .left ∨ o.align = some .center ∨ (o.lead = [] ∧ o.fill ≠ '0'))

theorem lead_cases (o : FmtOpts) : o.lead = [] ∨ o.lead = ['+'] ∨ o.lead = ['0', 'x'] ∨ o.lead = ['+', '0', 'x'] := by
  unfold lead
  cases o.plus <;> cases o.alternate && o.hex.isSome <;> simp

/-- Padding before the number: if it cannot be confused with what follows, both are told apart. -/
theorem front_eq (o : FmtOpts) (h : o.isDigit o.fill = false ∨ o.lead ≠ []) {a a' n m : Nat} {r r' : Text} :
    List.replicate a o.fill ++ (o.lead ++ (o.digits n ++ r)) = List.replicate a' o.fill ++ (o.lead ++ (o.digits m ++ r')) →
    a = a' ∧ o.digits n ++ r = o.digits m ++ r' := by
  obtain ⟨hp, hx, -, -, -, -, h0⟩ := not_digit o
  obtain ⟨d, ds, hd⟩ : ∃ d ds, o.digits n = d :: ds := by
    cases e : o.digits n with
    | nil => exact absurd e (digits_ne_nil o n)
    | cons d ds => exact ⟨d, ds, rfl⟩
  obtain ⟨d', ds', hd'⟩ : ∃ d ds, o.digits m = d :: ds := by
    cases e : o.digits m with
    | nil => exact absurd e (digits_ne_nil o m)
    | cons d ds => exact ⟨d, ds, rfl⟩
  have hdd : o.isDigit d = true := digits_isDigit o n d (by rw [hd]; simp)
  have hdd' : o.isDigit d' = true := digits_isDigit o m d' (by rw [hd']; simp)
  -- with one more fill character on one side
  have key : ∀ {e e' : Char} {t t' : Text} (j : Nat), o.isDigit e = true → o.isDigit e' = true →
      o.lead ++ (e :: t) ≠ List.replicate (j + 1) o.fill ++ (o.lead ++ (e' :: t')) := by
    intro e e' t t' j he he' hh
    rw [List.replicate_succ, List.cons_append] at hh
    rcases lead_cases o with hl | hl | hl | hl <;> rw [hl] at hh h
    · rcases h with h | h
      · rw [List.nil_append] at hh
        rw [← (List.cons.inj hh).1, he] at h; cases h
      · exact h rfl
    · have h1 := (List.cons.inj hh).1
      have h2 := (List.cons.inj hh).2
      cases j with
      | zero =>
        simp at h2
        rw [h2.1, hp] at he; cases he
      | succ j =>
        rw [List.replicate_succ] at h2
        simp at h2
        rw [h2.1, ← h1, hp] at he; cases he
    · have h1 := (List.cons.inj hh).1
      have h2 := (List.cons.inj hh).2
      rw [← h1] at h2
      cases j with
      | zero => simp at h2
      | succ j => rw [List.replicate_succ] at h2; simp at h2
    · have h1 := (List.cons.inj hh).1
      have h2 := (List.cons.inj hh).2
      rw [← h1] at h2
      cases j with
      | zero => simp at h2
      | succ j => rw [List.replicate_succ] at h2; simp at h2
  intro hh
  rw [hd, hd'] at hh ⊢
  rcases Nat.lt_trichotomy a a' with hlt | rfl | hlt
  · obtain ⟨j, rfl⟩ : ∃ j, a' = a + (j + 1) := ⟨a' - a - 1, by omega⟩
    rw [← List.replicate_append_replicate, List.append_assoc] at hh
    exact absurd (List.append_cancel_left hh) (key j hdd hdd')
  · exact ⟨rfl, List.append_cancel_left (List.append_cancel_left hh)⟩
  · obtain ⟨j, rfl⟩ : ∃ j, a = a' + (j + 1) := ⟨a - a' - 1, by omega⟩
    rw [← List.replicate_append_replicate, List.append_assoc] at hh
    exact absurd (List.append_cancel_left hh).symm (key j hdd' hdd)

theorem int_delim (o : FmtOpts) (ho : ¬ o.Mixes) {n m : Nat} {r r' : Text} (hr : o.NoDigit r) (hr' : o.NoDigit r')
    (h : o.int n ++ r = o.int m ++ r') : n = m ∧ r = r' := by
  obtain ⟨-, -, -, -, -, -, h0⟩ := not_digit o
  have hz : ∀ k n, ∀ x ∈ List.replicate k '0' ++ o.digits n, o.isDigit x = true := by
    intro k n x hx
    rcases List.mem_append.1 hx with hx | hx
    · rw [(List.mem_replicate.1 hx).2]; exact h0
    · exact digits_isDigit o n x hx
  have hD := digits_isDigit o
  have hpos : ∀ n, 1 ≤ (o.digits n).length := fun n => by
    have := digits_ne_nil o n
    cases e : o.digits n with
    | nil => exact absurd e this
    | cons => simp
  have fin : ∀ {t t' : Text} , o.NoDigit t → o.NoDigit t' → o.digits n ++ t = o.digits m ++ t' → n = m ∧ t = t' := by
    intro t t' ht ht' e
    obtain ⟨e1, e2⟩ := runs_eq o ht ht' (hD n) (hD m) e
    exact ⟨digits_inj o e1, e2⟩
  unfold int at h
  simp only [List.length_append] at h
  cases hzero : o.zero with
  | true =>
    simp only [hzero, if_true, List.append_assoc] at h
    have h := List.append_cancel_left h
    rw [← List.append_assoc, ← List.append_assoc] at h
    obtain ⟨e1, e2⟩ := runs_eq o hr hr' (hz _ n) (hz _ m) h
    exact ⟨digits_zeros_inj o e1, e2⟩
  | false =>
    simp only [hzero, Bool.false_eq_true, if_false, List.append_assoc] at h
    by_cases hw : o.lead.length + 2 ≤ o.width.getD 0
    · by_cases hf : o.isDigit o.fill = true
      · have hright : ∀ k, o.padding k = (k, 0) := by
          intro k
          unfold padding
          cases ha : o.align with
          | none => rfl
          | some a =>
            cases a with
            | right => rfl
            | left => exact absurd ⟨hzero, hf, hw, .inl ha⟩ ho
            | center => exact absurd ⟨hzero, hf, hw, .inr (.inl ha)⟩ ho
        simp only [hright, List.replicate_zero, List.nil_append] at h
        by_cases hl : o.lead = []
        · have h48 : o.fill = '0' := Classical.byContradiction fun e => ho ⟨hzero, hf, hw, .inr (.inr ⟨hl, e⟩)⟩
          rw [hl, h48, List.nil_append, List.nil_append, ← List.append_assoc, ← List.append_assoc] at h
          obtain ⟨e1, e2⟩ := runs_eq o hr hr' (hz _ n) (hz _ m) h
          exact ⟨digits_zeros_inj o e1, e2⟩
        · obtain ⟨-, e⟩ := front_eq o (.inr hl) h
          exact fin hr hr' e
      · have hf : o.isDigit o.fill = false := by simpa using hf
        obtain ⟨-, e⟩ := front_eq o (.inl hf) h
        have hnd : ∀ k {t : Text}, o.NoDigit t → o.NoDigit (List.replicate k o.fill ++ t) := by
          intro k t ht
          cases k with
          | zero => exact ht
          | succ k => rw [List.replicate_succ]; exact noDigit_cons hf
        obtain ⟨rfl, e2⟩ := fin (hnd _ hr) (hnd _ hr') e
        exact ⟨rfl, List.append_cancel_left e2⟩
    · have h1 := hpos n
      have h2 := hpos m
      have h4 : o.padding 0 = (0, 0) := by unfold padding; split <;> rfl
      rw [show o.width.getD 0 - (o.lead.length + (o.digits n).length) = 0 by omega,
        show o.width.getD 0 - (o.lead.length + (o.digits m).length) = 0 by omega, h4] at h
      simp only [List.replicate_zero, List.nil_append] at h
      exact fin hr hr' (List.append_cancel_left h)

/-- Whenever the padding runs into the digits, there are two numbers with the same text. -/
theorem int_mixed (o : FmtOpts) (ho : o.Mixes) : ∃ n m, n < m ∧ m < 512 ∧ o.int n = o.int m := by
  obtain ⟨hzero, hf, hw, ha⟩ := ho
  obtain ⟨hb1, hb2⟩ := base_ge o
  obtain ⟨d, hd, hdf⟩ := of_isDigit o hf
  have e1 : ∀ n, n < o.base → o.digits n = [o.digit n] := fun n hn => by rw [digits_eq, if_pos hn]
  have e2 : ∀ a b, 0 < a → a < o.base → b < o.base → o.digits (a * o.base + b) = [o.digit a, o.digit b] := by
    intro a b h0 h1 h2
    have hge : o.base ≤ a * o.base := Nat.le_mul_of_pos_left _ h0
    rw [digits_eq, if_neg (by omega), show (a * o.base + b) / o.base = a by
      rw [Nat.mul_comm, Nat.mul_add_div (by omega), Nat.div_eq_of_lt h2, Nat.add_zero],
      show (a * o.base + b) % o.base = b by rw [Nat.mul_comm, Nat.mul_add_mod, Nat.mod_eq_of_lt h2], e1 a h1]
    rfl
  have e3 : ∀ b, b < o.base → o.digits (o.base * o.base + b) = [o.digit 1, o.digit 0, o.digit b] := by
    intro b h2
    have hge : o.base ≤ o.base * o.base := Nat.le_mul_of_pos_left _ (by omega)
    rw [digits_eq, if_neg (by omega), show (o.base * o.base + b) / o.base = o.base by
      rw [Nat.mul_add_div (by omega), Nat.div_eq_of_lt h2, Nat.add_zero],
      show (o.base * o.base + b) % o.base = b by rw [Nat.mul_add_mod, Nat.mod_eq_of_lt h2]]
    have := e2 1 0 (by omega) (by omega) (by omega)
    rw [show 1 * o.base + 0 = o.base by omega] at this
    rw [this]
    rfl
  have hbb : o.base * o.base ≤ 256 := Nat.le_trans (Nat.mul_le_mul hb2 hb2) (by omega)
  have hint : ∀ n, o.int n = List.replicate (o.padding (o.width.getD 0 - (o.lead ++ o.digits n).length)).1 o.fill ++
      (o.lead ++ o.digits n) ++ List.replicate (o.padding (o.width.getD 0 - (o.lead ++ o.digits n).length)).2 o.fill := by
    intro n; unfold int; simp [hzero]
  obtain ⟨k, hk⟩ : ∃ k, o.width.getD 0 = o.lead.length + 2 + k := ⟨_, (Nat.add_sub_cancel' hw).symm⟩
  have hrev : ∀ k, List.replicate (k + 1) o.fill = o.fill :: List.replicate k o.fill := fun k => List.replicate_succ
  have hsn : ∀ k, List.replicate (k + 1) o.fill = List.replicate k o.fill ++ [o.fill] := fun k => List.replicate_succ'
  have hlen1 : o.width.getD 0 - (o.lead ++ o.digits 1).length = k + 1 := by
    rw [e1 1 (by omega)]; simp; omega
  have hlen2 : ∀ a b, 0 < a → a < o.base → b < o.base →
      o.width.getD 0 - (o.lead ++ o.digits (a * o.base + b)).length = k := by
    intro a b h0 h1 h2
    rw [e2 a b h0 h1 h2]; simp; omega
  by_cases hl : o.align = some .left
  · refine ⟨1, 1 * o.base + d, by omega, by omega, ?_⟩
    rw [hint, hint, hlen1, hlen2 1 d (by omega) (by omega) hd, e1 1 (by omega), e2 1 d (by omega) (by omega) hd]
    unfold padding
    simp only [hl]
    rw [hdf, hrev]
    simp
  · by_cases hc : o.align = some .center
    · by_cases hodd : k % 2 = 0
      · refine ⟨1, 1 * o.base + d, by omega, by omega, ?_⟩
        rw [hint, hint, hlen1, hlen2 1 d (by omega) (by omega) hd, e1 1 (by omega), e2 1 d (by omega) (by omega) hd]
        unfold padding
        simp only [hc]
        rw [show (k + 1) / 2 = k / 2 by omega, show (k + 1 + 1) / 2 = k / 2 + 1 by omega, hdf, hrev]
        simp
      · refine ⟨1 * o.base + 0, o.base * o.base + d, ?_, by omega, ?_⟩
        · have : o.base ≤ o.base * o.base := Nat.le_mul_of_pos_left _ (by omega)
          by_cases h0 : d = 0
          · have : o.base * 2 ≤ o.base * o.base := Nat.mul_le_mul_left _ (by omega)
            omega
          · omega
        · have hlen3 : o.width.getD 0 - (o.lead ++ o.digits (o.base * o.base + d)).length = k - 1 := by
            rw [e3 d hd]; simp; omega
          rw [hint, hint, hlen2 1 0 (by omega) (by omega) (by omega), hlen3, e3 d hd, e2 1 0 (by omega) (by omega) (by omega)]
          unfold padding
          simp only [hc]
          rw [show (k - 1) / 2 = k / 2 by omega, show (k + 1) / 2 = (k - 1 + 1) / 2 + 1 by omega, hdf, hrev]
          simp
    · have hright : ∀ k, o.padding k = (k, 0) := by
        intro k
        unfold padding
        cases ha : o.align with
        | none => rfl
        | some a => cases a <;> simp_all
      have ⟨hl0, hf0⟩ : o.lead = [] ∧ o.fill ≠ '0' := by
        rcases ha with ha | ha | ha
        · exact absurd ha hl
        · exact absurd ha hc
        · exact ha
      have hd0 : 0 < d := by
        rcases Nat.eq_zero_or_pos d with rfl | h
        · rw [digit_zero] at hdf; exact absurd hdf.symm hf0
        · exact h
      refine ⟨1, d * o.base + 1, ?_, ?_, ?_⟩
      · have : o.base ≤ d * o.base := Nat.le_mul_of_pos_left _ hd0
        omega
      · have : d * o.base ≤ o.base * o.base := Nat.mul_le_mul_right _ (by omega)
        omega
      · rw [hint, hint, hlen1, hlen2 d 1 hd0 hd (by omega), e1 1 (by omega), e2 d 1 hd0 hd (by omega)]
        simp only [hright, hl0]
        rw [hdf, hsn]
        simp

/-! ### Indentation -/

/-- Indented text tells what it is made of and where it ends, if it ends with a whole line and the next line is not indented. -/
theorem indent_delim (a : Text) : ∀ (b : Text) (f : Bool) (x y : Char) (r r' : Text), x ≠ ' ' → y ≠ ' ' →
    (a = [] → f = true) → (∀ z, a.getLast? = some z → z = '\n') → (b = [] → f = true) → (∀ z, b.getLast? = some z → z = '\n') →
    indent f a ++ x :: r = indent f b ++ y :: r' → a = b ∧ x = y ∧ r = r' := by
  induction a with
  | nil =>
    intro b f x y r r' hx hy ha _ hb _ h
    cases b with
    | nil => cases h; exact ⟨rfl, rfl, rfl⟩
    | cons u b =>
      rw [ha rfl] at h
      simp [indent] at h
      exact absurd h.1 hx
  | cons v a ih =>
    intro b f x y r r' hx hy ha ha' hb hb' h
    have hnext : ∀ (l : Text) (v : Char), (∀ z, (v :: l).getLast? = some z → z = '\n') →
        (l = [] → (v == '\n') = true) ∧ ∀ z, l.getLast? = some z → z = '\n' := by
      intro l v hl
      constructor
      · intro e
        rw [e] at hl
        have := hl v rfl
        simp [this]
      · intro z hz
        cases l with
        | nil => cases hz
        | cons q l => exact hl z (by rw [List.getLast?_cons_cons]; exact hz)
    obtain ⟨n1, n2⟩ := hnext a v ha'
    cases b with
    | nil =>
      rw [hb rfl] at h
      simp [indent] at h
      exact absurd h.1.symm hy
    | cons u b =>
      obtain ⟨m1, m2⟩ := hnext b u hb'
      have h' : v = u ∧ indent (v == '\n') a ++ x :: r = indent (u == '\n') b ++ y :: r' := by
        cases f <;> simpa [indent] using h
      obtain ⟨rfl, h'⟩ := h'
      obtain ⟨rfl, e⟩ := ih b _ x y r r' hx hy n1 n2 m1 m2 h'
      exact ⟨rfl, e⟩

theorem flat_last (ts : List Text) : ∀ z, (ts.flatMap fun t => t ++ [',', '\n']).getLast? = some z → z = '\n' := by
  intro z hz
  rcases List.eq_nil_or_concat ts with rfl | ⟨ts, t, rfl⟩
  · cases hz
  · rw [List.concat_eq_append, List.flatMap_append] at hz
    simp [List.getLast?_append] at hz
    exact hz.symm

theorem lines_delim {ts us : List Text} {x y : Char} {r r' : Text} (hx : x ≠ ' ') (hy : y ≠ ' ')
    (h : lines ts ++ x :: r = lines us ++ y :: r') :
    (ts.flatMap fun t => t ++ [',', '\n']) = (us.flatMap fun t => t ++ [',', '\n']) ∧ x = y ∧ r = r' :=
  indent_delim _ _ true x y r r' hx hy (fun _ => rfl) (flat_last ts) (fun _ => rfl) (flat_last us) h

/-! ### Items -/

/-- Two texts that can be told apart, each followed by text of a certain kind. -/
def Apart (F : Text → Prop) (t t' : Text) : Prop :=
  ∀ r r', F r → F r' → t ++ r = t' ++ r' → t = t' ∧ r = r'

theorem Apart.mono {F G : Text → Prop} {t t' : Text} (h : Apart F t t') (hG : ∀ r, G r → F r) : Apart G t t' :=
  fun r r' h1 h2 => h r r' (hG _ h1) (hG _ h2)

/-- Text that begins with one of these characters. -/
def Begins (xs : List Char) (r : Text) : Prop := ∃ x q, x ∈ xs ∧ r = x :: q

theorem begins_no (o : FmtOpts) {r : Text} (h : Begins [',', ' ', ')', ']'] r) : o.NoDigit r := by
  obtain ⟨-, -, h1, h2, h3, h4, -⟩ := not_digit o
  obtain ⟨x, q, hx, rfl⟩ := h
  apply noDigit_cons
  simp at hx
  rcases hx with rfl | rfl | rfl | rfl <;> assumption

theorem Begins.mono {xs ys : List Char} {r : Text} (h : Begins xs r) (hs : ∀ x ∈ xs, x ∈ ys) : Begins ys r := by
  obtain ⟨x, q, hx, rfl⟩ := h
  exact ⟨x, q, hs x hx, rfl⟩

theorem int_inj (o : FmtOpts) (ho : ¬ o.Mixes) {n m : Nat} (h : o.int n = o.int m) : n = m :=
  (int_delim o ho (r := []) (r' := []) (fun _ _ e => by cases e) (fun _ _ e => by cases e) (by rw [h])).1

theorem int_apart (o : FmtOpts) (ho : ¬ o.Mixes) (n m : Nat) : Apart (Begins [',', ' ', ')', ']']) (o.int n) (o.int m) := by
  intro r r' hr hr' h
  obtain ⟨rfl, e⟩ := int_delim o ho (begins_no o hr) (begins_no o hr') h
  exact ⟨rfl, e⟩

/-- No number looks like the end of a list, even if it is padded with closing brackets. -/
theorem int_ne_end (o : FmtOpts) (n : Nat) {r : Text} (hr : Begins [',', ' '] r) (q : Text) : o.int n ++ q ≠ ']' :: r := by
  obtain ⟨x, r, hx, rfl⟩ := hr
  obtain ⟨hp, hx', h1, h2, -, h4, h0⟩ := not_digit o
  have hxd : o.isDigit x = false := by
    simp at hx; rcases hx with rfl | rfl <;> assumption
  obtain ⟨d, ds, hd⟩ : ∃ d ds, o.digits n = d :: ds := by
    cases e : o.digits n with
    | nil => exact absurd e (digits_ne_nil o n)
    | cons d ds => exact ⟨d, ds, rfl⟩
  have hdd : o.isDigit d = true := digits_isDigit o n d (by rw [hd]; simp)
  -- what stands behind the first padding
  have key : ∀ q, ∃ y t, o.lead ++ (o.digits n ++ q) = y :: t ∧ y ≠ ']' ∧ y ≠ x := by
    intro q
    have hpx : '+' ≠ x := by
      intro e; rw [← e] at hx; revert hx; decide
    have h0x : '0' ≠ x := by
      intro e; rw [← e] at hx; revert hx; decide
    rcases lead_cases o with hl | hl | hl | hl <;> rw [hl]
    · refine ⟨d, ds ++ q, by rw [hd]; rfl, ?_, ?_⟩
      · intro e; rw [e, h4] at hdd; cases hdd
      · intro e; rw [e, hxd] at hdd; cases hdd
    · exact ⟨'+', _, rfl, by decide, hpx⟩
    · exact ⟨'0', _, rfl, by decide, h0x⟩
    · exact ⟨'+', _, rfl, by decide, hpx⟩
  intro h
  unfold int at h
  simp only at h
  split at h
  · simp only [List.append_assoc] at h
    generalize o.width.getD 0 - (o.lead ++ o.digits n).length = k at h
    cases k with
    | zero =>
      obtain ⟨y, t, e, hy, -⟩ := key q
      simp only [List.replicate_zero, List.nil_append] at h
      rw [e] at h
      exact hy (List.cons.inj h).1
    | succ k =>
      rcases lead_cases o with hl | hl | hl | hl <;> rw [hl] at h <;> simp [List.replicate_succ] at h
  · simp only [List.append_assoc] at h
    generalize (o.padding _).1 = a at h
    generalize List.replicate _ o.fill ++ q = q at h
    obtain ⟨y, t, e, hy, hyx⟩ := key q
    rw [e] at h
    match a with
    | 0 => exact hy (List.cons.inj h).1
    | 1 =>
      have := (List.cons.inj h).2
      exact hyx (List.cons.inj this).1
    | a + 2 =>
      rw [List.replicate_succ, List.replicate_succ] at h
      have h1 := (List.cons.inj h).1
      have h2 := (List.cons.inj (List.cons.inj h).2).1
      rw [h1] at h2
      rw [← h2] at hx
      revert hx; decide

/-- Two lists of texts of the same length that can be told apart one by one. -/
inductive Aparts (F : Text → Prop) : List Text → List Text → Prop
  | nil : Aparts F [] []
  | cons : Apart F t t' → Aparts F ts us → Aparts F (t :: ts) (t' :: us)

theorem Apart.prefix {F : Text → Prop} {t t' : Text} (h : Apart F t t') (p : Text) : Apart F (p ++ t) (p ++ t') := by
  intro r r' h1 h2 e
  rw [List.append_assoc, List.append_assoc] at e
  obtain ⟨e1, e2⟩ := h r r' h1 h2 (List.append_cancel_left e)
  exact ⟨by rw [e1], e2⟩

theorem commas_cons (t u : Text) (us : List Text) : commas (t :: u :: us) = t ++ [',', ' '] ++ commas (u :: us) := rfl

theorem commas_aparts {ts us : List Text} (h : Aparts (Begins [',', ' ']) ts us) : ∀ {r r' : Text},
    commas ts ++ ' ' :: r = commas us ++ ' ' :: r' → ts = us ∧ r = r' := by
  induction h with
  | nil => intro r r' e; cases e; exact ⟨rfl, rfl⟩
  | @cons t t' ts us h hs ih =>
    intro r r' e
    cases hs with
    | nil =>
      obtain ⟨rfl, e⟩ := h _ _ (by exact ⟨_, _, by simp, rfl⟩) (by exact ⟨_, _, by simp, rfl⟩) e
      exact ⟨rfl, by simpa using e⟩
    | @cons v v' vs vs' h' hs' =>
      rw [commas_cons, commas_cons, List.append_assoc, List.append_assoc, List.append_assoc, List.append_assoc] at e
      obtain ⟨rfl, e'⟩ := h _ _ (by exact ⟨_, _, by simp, rfl⟩) (by exact ⟨_, _, by simp, rfl⟩) e
      obtain ⟨e1, e2⟩ := ih (List.append_cancel_left e')
      exact ⟨by rw [e1], e2⟩

theorem flat_aparts {ts us : List Text} (h : Aparts (Begins [',', ' ']) ts us)
    (e : (ts.flatMap fun t => t ++ [',', '\n']) = us.flatMap fun t => t ++ [',', '\n']) : ts = us := by
  induction h with
  | nil => rfl
  | @cons t t' ts us h hs ih =>
    rw [List.flatMap_cons, List.flatMap_cons, List.append_assoc, List.append_assoc] at e
    obtain ⟨rfl, e'⟩ := h _ _ (by exact ⟨_, _, by simp, rfl⟩) (by exact ⟨_, _, by simp, rfl⟩) e
    rw [ih (List.append_cancel_left e')]

/-- Structures with the same names can be told apart, whatever follows, if their fields can. -/
theorem struct_delim (o : FmtOpts) (name : String) (names : List String) {ts us : List Text}
    (hl : ts.length = names.length) (hl' : us.length = names.length)
    (h : Aparts (Begins [',', ' ']) ts us) {r r' : Text}
    (e : o.struct name (names.zip ts) ++ r = o.struct name (names.zip us) ++ r') : ts = us ∧ r = r' := by
  have hA : ∀ (names : List String) {ts us : List Text}, ts.length = names.length → us.length = names.length →
      Aparts (Begins [',', ' ']) ts us →
      Aparts (Begins [',', ' ']) ((names.zip ts).map fun f => f.1.toList ++ ([':', ' '] ++ f.2))
        ((names.zip us).map fun f => f.1.toList ++ ([':', ' '] ++ f.2)) := by
    intro names
    induction names with
    | nil =>
      intro ts us _ _ _
      exact .nil
    | cons n names ih =>
      intro ts us h1 h2 h
      cases h with
      | nil => exact .nil
      | cons h hs => exact .cons ((h.prefix _).prefix _) (ih (by simpa using h1) (by simpa using h2) hs)
  have hI : ∀ (names : List String) {ts us : List Text}, ts.length = names.length → us.length = names.length →
      ((names.zip ts).map fun f => f.1.toList ++ ([':', ' '] ++ f.2)) =
        ((names.zip us).map fun f => f.1.toList ++ ([':', ' '] ++ f.2)) → ts = us := by
    intro names
    induction names with
    | nil =>
      intro ts us h1 h2 _
      rw [List.eq_nil_of_length_eq_zero h1, List.eq_nil_of_length_eq_zero h2]
    | cons n names ih =>
      intro ts us h1 h2 e
      cases ts with
      | nil => cases h1
      | cons t ts =>
        cases us with
        | nil => cases h2
        | cons u us =>
          rw [List.zip_cons_cons, List.zip_cons_cons, List.map_cons, List.map_cons] at e
          rw [show t = u from List.append_cancel_left (List.append_cancel_left (List.cons.inj e).1), ih (by simpa using h1) (by simpa using h2) (List.cons.inj e).2]
  have hA := hA names hl hl' h
  unfold struct at e
  simp only at e
  split at e
  · simp only [List.append_assoc] at e
    obtain ⟨e1, -, e2⟩ := lines_delim (by decide) (by decide) (List.append_cancel_left (List.append_cancel_left e))
    exact ⟨hI names hl hl' (flat_aparts hA e1), e2⟩
  · simp only [List.append_assoc] at e
    obtain ⟨e1, e2⟩ := commas_aparts hA (List.append_cancel_left (List.append_cancel_left e))
    exact ⟨hI names hl hl' e1, by simpa using e2⟩

/-- Tuples with one field likewise. -/
theorem tuple_delim (o : FmtOpts) (name : String) {t t' : Text} (h : Apart (Begins [',', ')']) t t') {r r' : Text}
    (e : o.tuple name t ++ r = o.tuple name t' ++ r') : t = t' ∧ r = r' := by
  unfold tuple at e
  split at e
  · simp only [List.append_assoc] at e
    obtain ⟨e1, -, e2⟩ := lines_delim (by decide) (by decide) (List.append_cancel_left (List.append_cancel_left e))
    simp only [List.flatMap_cons, List.flatMap_nil, List.append_nil] at e1
    obtain ⟨rfl, -⟩ := h _ _ (by exact ⟨_, _, by simp, rfl⟩) (by exact ⟨_, _, by simp, rfl⟩) e1
    exact ⟨rfl, e2⟩
  · simp only [List.append_assoc] at e
    obtain ⟨rfl, e'⟩ := h _ _ (by exact ⟨_, _, by simp, rfl⟩) (by exact ⟨_, _, by simp, rfl⟩) (List.append_cancel_left (List.append_cancel_left e))
    exact ⟨rfl, List.append_cancel_left e'⟩

/-- Lists likewise, of any lengths, if what follows cannot be taken for the first item. -/
theorem list_delim (o : FmtOpts) {f : α → Text} (hf : ∀ a b, Apart (Begins [',', ']']) (f a) (f b)) (hi : ∀ a b, f a = f b → a = b)
    {xs ys : List α} {r r' : Text} (hr : ∀ a q, f a ++ q ≠ ']' :: r) (hr' : ∀ a q, f a ++ q ≠ ']' :: r')
    (e : o.list (xs.map f) ++ r = o.list (ys.map f) ++ r') : xs = ys ∧ r = r' := by
  unfold list at e
  split at e
  · cases xs with
    | nil =>
      cases ys with
      | nil => exact ⟨rfl, by simpa using e⟩
      | cons y ys => simp at e
    | cons x xs =>
      cases ys with
      | nil => simp at e
      | cons y ys =>
        rw [if_neg (by simp), if_neg (by simp)] at e
        simp only [List.append_assoc] at e
        obtain ⟨e1, -, e2⟩ := lines_delim (by decide) (by decide) (List.append_cancel_left e)
        refine ⟨?_, e2⟩
        clear e e2
        have key : ∀ (xs ys : List α), ((xs.map f).flatMap fun t => t ++ [',', '\n']) = ((ys.map f).flatMap fun t => t ++ [',', '\n']) →
            xs = ys := by
          intro xs
          induction xs with
          | nil =>
            intro ys e
            cases ys with
            | nil => rfl
            | cons y ys => simp at e
          | cons x xs ih =>
            intro ys e
            cases ys with
            | nil => simp at e
            | cons y ys =>
              rw [List.map_cons, List.map_cons, List.flatMap_cons, List.flatMap_cons, List.append_assoc, List.append_assoc] at e
              obtain ⟨e1, e2⟩ := hf x y _ _ (by exact ⟨_, _, by simp, rfl⟩) (by exact ⟨_, _, by simp, rfl⟩) e
              rw [hi x y e1, ih ys (List.append_cancel_left e2)]
        exact key _ _ e1
  · have hb : ∀ (zs : List α) (z : α) (s : Text), ∃ q, commas ((z :: zs).map f) ++ s = f z ++ q := by
      intro zs z s
      cases zs with
      | nil => exact ⟨s, rfl⟩
      | cons v vs => exact ⟨[',', ' '] ++ (commas ((v :: vs).map f) ++ s), by
          rw [List.map_cons, List.map_cons, commas_cons]; simp only [List.append_assoc]⟩
    have key : ∀ (xs ys : List α) (x y : α), commas ((x :: xs).map f) ++ ']' :: r = commas ((y :: ys).map f) ++ ']' :: r' →
        x :: xs = y :: ys ∧ r = r' := by
      intro xs
      induction xs with
      | nil =>
        intro ys x y e
        cases ys with
        | nil =>
          obtain ⟨e1, e2⟩ := hf x y _ _ (by exact ⟨_, _, by simp, rfl⟩) (by exact ⟨_, _, by simp, rfl⟩) e
          exact ⟨by rw [hi _ _ e1], by simpa using e2⟩
        | cons v vs =>
          rw [List.map_cons, List.map_cons, List.map_cons, commas_cons, List.append_assoc, List.append_assoc] at e
          obtain ⟨-, e2⟩ := hf x y _ _ (by exact ⟨_, _, by simp, rfl⟩) (by exact ⟨_, _, by simp, rfl⟩) e
          simp at e2
      | cons u us ih =>
        intro ys x y e
        cases ys with
        | nil =>
          rw [List.map_cons, List.map_cons, List.map_cons, commas_cons, List.append_assoc, List.append_assoc] at e
          obtain ⟨-, e2⟩ := hf x y _ _ (by exact ⟨_, _, by simp, rfl⟩) (by exact ⟨_, _, by simp, rfl⟩) e
          simp at e2
        | cons v vs =>
          rw [List.map_cons, List.map_cons, List.map_cons, List.map_cons, commas_cons, commas_cons, List.append_assoc,
            List.append_assoc, List.append_assoc, List.append_assoc] at e
          obtain ⟨e1, e2⟩ := hf x y _ _ (by exact ⟨_, _, by simp, rfl⟩) (by exact ⟨_, _, by simp, rfl⟩) e
          obtain ⟨e3, e4⟩ := ih vs u v (List.append_cancel_left e2)
          exact ⟨by rw [hi _ _ e1, e3], e4⟩
    simp only [List.append_assoc] at e
    have e := List.append_cancel_left e
    cases xs with
    | nil =>
      cases ys with
      | nil => exact ⟨rfl, by simpa [commas] using e⟩
      | cons y ys =>
        obtain ⟨q, hq⟩ := hb ys y ([']'] ++ r')
        rw [hq] at e
        exact absurd e.symm (hr y q)
    | cons x xs =>
      cases ys with
      | nil =>
        obtain ⟨q, hq⟩ := hb xs x ([']'] ++ r)
        rw [hq] at e
        exact absurd e (hr' x q)
      | cons y ys => exact key xs ys x y e

end FmtOpts
end Succinct
