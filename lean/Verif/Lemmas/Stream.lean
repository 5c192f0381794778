import Verif.StreamLaw
import Verif.Lemmas.Law
import Verif.Lemmas.Defaults
/-! Lemmas about bit streams. -/
namespace Succinct
open Spec

theorem SM.lift_ok_bind (a : α) (f : α → SM σ β) : (SM.lift (.ok a) >>= f) = f a := rfl
theorem SM.lift_panic_bind (f : α → SM σ β) : (SM.lift (.panic : Res α) >>= f) = fun _ => .panic := rfl
theorem SM.pure_bind (a : α) (f : α → SM σ β) : ((pure a : SM σ α) >>= f) = f a := rfl
theorem SM.bind_assoc (x : SM σ α) (f : α → SM σ β) (g : β → SM σ γ) :
    (x >>= f) >>= g = x >>= fun a => f a >>= g := by
  funext s
  simp only [SM.bind_run]
  cases x s with
  | ok p => obtain ⟨r, s'⟩ := p; cases r <;> rfl
  | panic => rfl
  | diverge => rfl
theorem SM.bind_pure (x : SM σ α) : (x >>= fun a => (pure a : SM σ α)) = x := by
  funext s
  simp only [SM.bind_run]
  cases x s with
  | ok p => obtain ⟨r, s'⟩ := p; cases r <;> rfl
  | panic => rfl
  | diverge => rfl
theorem SM.bind_unit (x : SM σ Unit) : (x >>= fun _ => (pure () : SM σ Unit)) = x := SM.bind_pure x

/-! ### `writeAll` -/

theorem writeAll_append (W : BitWrite σ) (a b : List Bool) :
    writeAll W (a ++ b) = (do writeAll W a; writeAll W b) := by
  induction a with
  | nil => rfl
  | cons x a ih => simp only [List.cons_append, writeAll, ih, SM.bind_assoc]

theorem writeAll_singleton (W : BitWrite σ) (b : Bool) : writeAll W [b] = W.writeBit b := SM.bind_unit _

theorem LawfulSink.writeAll {W : BitWrite σ} {Rep : σ → List Bool → Prop} {Fit : Nat → Prop}
    (hW : LawfulSink W Rep Fit) (hm : ∀ {m n}, Fit n → m ≤ n → Fit m) (bs : List Bool) {s : σ} {l : List Bool}
    (hs : Rep s l) (hf : Fit (l.length + bs.length)) :
    ∃ s', writeAll W bs s = .ok (.ok (), s') ∧ Rep s' (l ++ bs) := by
  induction bs generalizing s l with
  | nil => exact ⟨s, rfl, by simpa using hs⟩
  | cons b bs ih =>
    obtain ⟨s1, h1, hR1⟩ := hW.write hs b (hm hf (by simp))
    obtain ⟨s2, h2, hR2⟩ := ih hR1 (hm hf (by simp; omega))
    exact ⟨s2, by rw [Succinct.writeAll, SM.bind_run_ok h1, h2], by simpa using hR2⟩

/-! ### `Reads` -/

theorem Reads.append {R : BitRead σ} {s s1 s2 : σ} {a b : List Bool} (h1 : Reads R s a s1) (h2 : Reads R s1 b s2) :
    Reads R s (a ++ b) s2 := by
  induction h1 with
  | nil => exact h2
  | cons h _ ih => exact .cons h (ih h2)

theorem Reads.split {R : BitRead σ} {s s2 : σ} {a b : List Bool} (h : Reads R s (a ++ b) s2) :
    ∃ s1, Reads R s a s1 ∧ Reads R s1 b s2 := by
  induction a generalizing s with
  | nil => exact ⟨s, .nil s, h⟩
  | cons x a ih =>
    cases h with
    | cons h1 h2 =>
      obtain ⟨s1, ha, hb⟩ := ih h2
      exact ⟨s1, .cons h1 ha, hb⟩

theorem LawfulSource.reads {R : BitRead σ} {Rep : σ → List Bool → Prop} (hR : LawfulSource R Rep) (bs : List Bool)
    {s : σ} {l : List Bool} (hs : Rep s (bs ++ l)) : ∃ s', Reads R s bs s' ∧ Rep s' l := by
  induction bs generalizing s with
  | nil => exact ⟨s, .nil s, hs⟩
  | cons b bs ih =>
    obtain ⟨s1, h1, hs1⟩ := hR.some hs
    obtain ⟨s2, h2, hs2⟩ := ih hs1
    exact ⟨s2, .cons h1 h2, hs2⟩

theorem stopWith_none (eof : Except IoErr α) (s : σ) :
    stopWith eof (.ok (.ok none, s)) = .ok (eof, s) := rfl

/-- A first step of a reader whose source does not deliver a bit. -/
theorem bind_noBit {R : BitRead σ} {f : Option Bool → SM σ α} {s : σ} {eof : Except IoErr α}
    (h : NoBit (R.readBit s)) (hf : ∀ s, f none s = .ok (eof, s)) : (R.readBit >>= f) s = stopWith eof (R.readBit s) := by
  rw [SM.bind_run]
  cases hr : R.readBit s with
  | panic => rfl
  | diverge => rfl
  | ok p =>
    obtain ⟨r, s'⟩ := p
    cases r with
    | error e => rfl
    | ok o =>
      cases o with
      | none => exact hf s'
      | some b => exact absurd hr (h b s')

theorem outOfBits_run (s : σ) : (outOfBits : SM σ α) s = .ok (.error .unexpectedEof, s) := rfl

/-! ### `write_int` -/

theorem shrI_getLsbD {c : Cfg} (sg : Bool) (x : BitVec w) (hw : 1 < w) :
    ∃ y, shrI c sg x 1 = .ok y ∧
      ∀ i, (i < w → y.getLsbD i = if i + 1 < w then x.getLsbD (i + 1) else (sg && x.msb)) := by
  unfold shrI
  rw [if_pos hw]
  refine ⟨_, rfl, fun i hi => ?_⟩
  cases sg
  · simp only [Bool.false_eq_true, ↓reduceIte, BitVec.getLsbD_ushiftRight, Bool.false_and]
    split
    · rw [Nat.add_comm]
    · rw [BitVec.getLsbD_of_ge x _ (by omega)]
  · simp only [↓reduceIte, BitVec.getLsbD_sshiftRight, Bool.true_and]
    rw [Nat.add_comm 1 i]
    simp [show ¬ w ≤ i by omega]

/-- Bit `i` of the infinite two's complement expansion. -/
def intBit (sg : Bool) (v : BitVec w) (i : Nat) : Bool := if i < w then v.getLsbD i else sg && v.msb

theorem writeIntLoop_eq (c : Cfg) (sg : Bool) (W : BitWrite σ) (hw : 1 < w) (n : Nat) (v : BitVec w) :
    writeIntLoop c sg W n v = writeAll W ((List.range n).map (intBit sg v)) := by
  induction n generalizing v with
  | zero => rfl
  | succ n ih =>
    obtain ⟨y, hy, hbits⟩ := shrI_getLsbD (c := c) sg v hw
    rw [writeIntLoop, List.range_succ_eq_map, List.map_cons, List.map_map, writeAll, hy, SM.lift_ok_bind, ih,
      and_one_ne_zero v (by omega)]
    have h0 : intBit sg v 0 = v.getLsbD 0 := by simp [intBit, show 0 < w by omega]
    have hm : y.msb = (sg && v.msb) := by
      rw [BitVec.msb_eq_getLsbD_last, hbits _ (by omega), if_neg (by omega)]
    have h1 : ∀ i, intBit sg y i = intBit sg v (i + 1) := by
      intro i
      unfold intBit
      by_cases hi : i < w
      · rw [if_pos hi, hbits i hi]
      · rw [if_neg hi, if_neg (by omega), hm]; cases sg <;> simp
    rw [h0, show intBit sg y = intBit sg v ∘ Nat.succ from funext h1]

theorem testBit_intVal (sg : Bool) (v : BitVec w) (n i : Nat) (hi : i < n) :
    ((intVal sg v) % 2 ^ n).toNat.testBit i = intBit sg v i := by
  unfold intVal intBit
  cases sg
  · simp only [Bool.false_eq_true, ↓reduceIte, Bool.false_and]
    have : (((v.toNat : Nat) : Int) % 2 ^ n).toNat = v.toNat % 2 ^ n := by norm_cast
    rw [this, Nat.testBit_mod_two_pow]
    simp only [hi, decide_true, Bool.true_and]
    split
    · rfl
    · exact v.getLsbD_of_ge i (by omega)
  · simp only [↓reduceIte, Bool.true_and]
    have h1 : (v.toInt % 2 ^ n).toNat = (v.signExtend n).toNat := by
      rw [BitVec.signExtend, BitVec.toNat_ofInt]
      norm_cast
    rw [h1]
    show (v.signExtend n).getLsbD i = _
    rw [BitVec.getLsbD_signExtend]
    simp [hi]

/-- Reading back the two's complement expansion gives the value modulo `2^n`. -/
theorem ofNat_intVal (sg : Bool) (v : BitVec w) (n : Nat) :
    BitVec.ofNat w ((intVal sg v) % 2 ^ n).toNat = BitVec.ofNat w (v.toNat % 2 ^ n) := by
  apply BitVec.eq_of_getLsbD_eq
  intro i hi
  rw [BitVec.getLsbD_ofNat, BitVec.getLsbD_ofNat]
  congr 1
  by_cases h : i < n
  · rw [testBit_intVal sg v n i h, Nat.testBit_mod_two_pow]
    simp [intBit, hi, h]
    rfl
  · have h2 : 0 ≤ intVal sg v % 2 ^ n := Int.emod_nonneg _ (Int.ne_of_gt (Int.pow_pos (by decide)))
    have h3 : intVal sg v % 2 ^ n < 2 ^ n := Int.emod_lt_of_pos _ (Int.pow_pos (by decide))
    have h4 : (intVal sg v % 2 ^ n).toNat < 2 ^ n := by
      apply Int.ofNat_lt.1
      rw [Int.toNat_of_nonneg h2]
      push_cast
      exact h3
    rw [Nat.testBit_lt_two_pow (Nat.lt_of_lt_of_le h4 (Nat.pow_le_pow_right (n := 2) (by omega) (by omega))),
      Nat.testBit_mod_two_pow]
    simp [h]

theorem writeInt_eq (c : Cfg) (sg : Bool) (W : BitWrite σ) (hw : 1 < w) (n : Nat) (v : BitVec w) :
    writeInt c sg W n v = writeAll W (natBits n ((intVal sg v) % 2 ^ n).toNat) := by
  rw [writeInt, writeIntLoop_eq c sg W hw]
  congr 1
  unfold natBits
  apply List.map_congr_left
  intro i hi
  rw [testBit_intVal sg v n i (by simpa using hi)]

theorem writeInt_unsigned (c : Cfg) (W : BitWrite σ) (hw : 1 < w) (n : Nat) (v : BitVec w) :
    writeInt c false W n v = writeAll W (natBits n v.toNat) := by
  rw [writeInt_eq c false W hw]
  congr 1
  apply natBits_congr
  have : (((v.toNat : Nat) : Int) % 2 ^ n).toNat = v.toNat % 2 ^ n := by norm_cast
  simp only [intVal, Bool.false_eq_true, ↓reduceIte]
  rw [this, Nat.mod_mod]

/-! ### `read_int` -/

theorem readIntLoop_reads (c : Cfg) (R : BitRead σ) (hw : 1 < w) {s s' : σ} {bits : List Bool}
    (h : Reads R s bits s') (k : Nat) (res : BitVec w) (hres : res.toNat < 2 ^ k) (cons : Bool) :
    readIntLoop c R bits.length res ((1 : BitVec w) <<< k) cons s =
      .ok (.ok (some (BitVec.ofNat w (res.toNat + 2 ^ k * bitsVal bits))), s') := by
  induction h generalizing k res cons with
  | nil s => simp [readIntLoop, SM.pure_run, bitsVal]
  | @cons s s1 s2 b bs h1 _ ih =>
    rw [List.length_cons, readIntLoop, SM.bind_run_ok h1]
    simp only [shlB_ok hw, SM.lift_ok_bind]
    rw [show ((1 : BitVec w) <<< k) <<< 1 = (1 : BitVec w) <<< (k + 1) by rw [BitVec.shiftLeft_add]]
    have hv : (if b then res ||| (1 : BitVec w) <<< k else res) = BitVec.ofNat w (res.toNat + 2 ^ k * b.toNat) := by
      cases b
      · simp
      · apply BitVec.eq_of_toNat_eq
        have h2 : res.toNat + 2 ^ k = 2 ^ k ||| res.toNat := by
          have := Nat.two_pow_add_eq_or_of_lt hres 1
          rw [Nat.mul_one] at this
          rw [Nat.add_comm, this]
        simp only [↓reduceIte, Bool.toNat_true, Nat.mul_one, BitVec.toNat_ofNat, h2]
        rw [BitVec.toNat_or, Nat.or_mod_two_pow, Nat.or_comm, Nat.mod_eq_of_lt res.isLt]
        congr 1
        rw [BitVec.toNat_shiftLeft, Nat.shiftLeft_eq]
        simp [show 1 % 2 ^ w = 1 from Nat.mod_eq_of_lt (Nat.one_lt_two_pow (by omega))]
    rw [hv]
    have hb : b.toNat ≤ 1 := Bool.toNat_le b
    have hpow : 2 ^ (k + 1) = 2 ^ k + 2 ^ k := by rw [Nat.pow_succ]; omega
    have hmul : 2 ^ k * b.toNat ≤ 2 ^ k := by
      have := Nat.mul_le_mul_left (2 ^ k) hb
      omega
    have hlt : (BitVec.ofNat w (res.toNat + 2 ^ k * b.toNat)).toNat < 2 ^ (k + 1) := by
      rw [BitVec.toNat_ofNat]
      exact Nat.lt_of_le_of_lt (Nat.mod_le _ _) (by omega)
    rw [ih (k + 1) _ hlt true]
    congr 4
    apply BitVec.eq_of_toNat_eq
    rw [BitVec.toNat_ofNat, BitVec.toNat_ofNat, BitVec.toNat_ofNat, Nat.mod_add_mod, bitsVal]
    congr 1
    rw [Nat.mul_add, ← Nat.mul_assoc, Nat.pow_succ]
    omega

theorem readInt_reads (c : Cfg) (R : BitRead σ) (hw : 1 < w) {s s' : σ} {bits : List Bool} {n : Nat}
    (h : Reads R s bits s') (hn : bits.length = n) :
    readInt c R w n s = .ok (.ok (some (BitVec.ofNat w (bitsVal bits))), s') := by
  subst hn
  have := readIntLoop_reads c R hw h 0 (0 : BitVec w) (by simp) false
  simpa [readInt] using this

theorem readIntLoop_stop (c : Cfg) (R : BitRead σ) (hw : 1 < w) {s s' : σ} {bits : List Bool}
    (h : Reads R s bits s') (hs : NoBit (R.readBit s')) (n : Nat) (hn : bits.length < n) (res mask : BitVec w)
    (cons : Bool) :
    readIntLoop c R n res mask cons s =
      stopWith (if bits = [] ∧ cons = false then .ok none else .error .unexpectedEof) (R.readBit s') := by
  induction h generalizing n res mask cons with
  | nil s =>
    obtain ⟨n, rfl⟩ : ∃ m, n = m + 1 := ⟨n - 1, by simp at hn; omega⟩
    rw [readIntLoop]
    apply bind_noBit hs
    intro s
    cases cons <;> rfl
  | @cons s s1 s2 b bs h1 _ ih =>
    obtain ⟨n, rfl⟩ : ∃ m, n = m + 1 := ⟨n - 1, by simp at hn; omega⟩
    rw [readIntLoop, SM.bind_run_ok h1]
    simp only [shlB_ok hw, SM.lift_ok_bind]
    rw [ih hs n (by simpa using hn)]
    simp

theorem readInt_stop (c : Cfg) (R : BitRead σ) (hw : 1 < w) {s s' : σ} {bits : List Bool}
    (h : Reads R s bits s') (hs : NoBit (R.readBit s')) {n : Nat} (hn : bits.length < n) :
    readInt c R w n s =
      stopWith (if bits = [] then .ok none else .error .unexpectedEof) (R.readBit s') := by
  have := readIntLoop_stop c R hw h hs n hn (0 : BitVec w) 1 false
  simpa [readInt] using this

/-! ### big-endian -/

theorem bitsVal_append (a b : List Bool) : bitsVal (a ++ b) = bitsVal a + 2 ^ a.length * bitsVal b := by
  induction a with
  | nil => simp [bitsVal]
  | cons x a ih =>
    simp only [List.cons_append, bitsVal, ih, List.length_cons, Nat.pow_succ]
    rw [Nat.mul_add, ← Nat.mul_assoc, Nat.mul_comm 2 (2 ^ a.length)]
    omega

theorem readIntBeLoop_reads (c : Cfg) (R : BitRead σ) (hw : 1 < w) {s s' : σ} {bits : List Bool}
    (h : Reads R s bits s') (res : BitVec w) (cons : Bool) :
    readIntBeLoop c R bits.length res cons s =
      .ok (.ok (some (BitVec.ofNat w (res.toNat * 2 ^ bits.length + bitsVal bits.reverse))), s') := by
  induction h generalizing res cons with
  | nil s => simp [readIntBeLoop, SM.pure_run, bitsVal]
  | @cons s s1 s2 b bs h1 _ ih =>
    rw [List.length_cons, readIntBeLoop, SM.bind_run_ok h1]
    simp only [shlB_ok hw, SM.lift_ok_bind]
    rw [ih]
    congr 4
    have hv : (if b then res <<< 1 ||| 1 else res <<< 1) = BitVec.ofNat w (res.toNat * 2 + b.toNat) := by
      apply BitVec.eq_of_getLsbD_eq
      intro i hi
      have e : BitVec.getLsbD (BitVec.ofNat w (res.toNat * 2 + b.toNat)) i =
          (res.toNat * 2 + b.toNat).testBit i := by
        rw [BitVec.getLsbD_ofNat]; simp [hi]
      rw [e]
      rcases i with _ | i
      · cases b <;> simp [show 0 < w by omega, Nat.testBit_zero]
      · rw [Nat.testBit_succ, show (res.toNat * 2 + b.toNat) / 2 = res.toNat by
          cases b <;> simp <;> omega]
        cases b <;> simp [hi] <;> rfl
    apply BitVec.eq_of_toNat_eq
    rw [hv, BitVec.toNat_ofNat, BitVec.toNat_ofNat, BitVec.toNat_ofNat, List.reverse_cons, bitsVal_append,
      List.length_reverse]
    rw [Nat.add_mod, Nat.mod_mul_mod, ← Nat.add_mod]
    congr 1
    rw [Nat.pow_succ, Nat.add_mul, bitsVal, bitsVal, Nat.mul_zero, Nat.add_zero, Nat.mul_comm (2 ^ bs.length) 2,
      Nat.mul_assoc, Nat.mul_comm (2 ^ bs.length) b.toNat]
    omega

theorem readIntBe_reads (c : Cfg) (R : BitRead σ) (hw : 1 < w) {s s' : σ} {bits : List Bool} {n : Nat}
    (h : Reads R s bits s') (hn : bits.length = n) :
    readIntBe c R w n s = .ok (.ok (some (BitVec.ofNat w (bitsVal bits.reverse))), s') := by
  subst hn
  have := readIntBeLoop_reads c R hw h (0 : BitVec w) false
  simpa [readIntBe] using this

theorem readIntBeLoop_stop (c : Cfg) (R : BitRead σ) (hw : 1 < w) {s s' : σ} {bits : List Bool}
    (h : Reads R s bits s') (hs : NoBit (R.readBit s')) (n : Nat) (hn : bits.length < n) (res : BitVec w)
    (cons : Bool) :
    readIntBeLoop c R n res cons s =
      stopWith (if bits = [] ∧ cons = false then .ok none else .error .unexpectedEof) (R.readBit s') := by
  induction h generalizing n res cons with
  | nil s =>
    obtain ⟨n, rfl⟩ : ∃ m, n = m + 1 := ⟨n - 1, by simp at hn; omega⟩
    rw [readIntBeLoop]
    apply bind_noBit hs
    intro s
    cases cons <;> rfl
  | @cons s s1 s2 b bs h1 _ ih =>
    obtain ⟨n, rfl⟩ : ∃ m, n = m + 1 := ⟨n - 1, by simp at hn; omega⟩
    rw [readIntBeLoop, SM.bind_run_ok h1]
    simp only [shlB_ok hw, SM.lift_ok_bind]
    rw [ih hs n (by simpa using hn)]
    simp

theorem readIntBe_stop (c : Cfg) (R : BitRead σ) (hw : 1 < w) {s s' : σ} {bits : List Bool}
    (h : Reads R s bits s') (hs : NoBit (R.readBit s')) {n : Nat} (hn : bits.length < n) :
    readIntBe c R w n s =
      stopWith (if bits = [] then .ok none else .error .unexpectedEof) (R.readBit s') := by
  have := readIntBeLoop_stop c R hw h hs n hn (0 : BitVec w) false
  simpa [readIntBe] using this

theorem natBits_succ_reverse (n x : Nat) : (natBits (n + 1) x).reverse = x.testBit n :: (natBits n x).reverse := by
  simp [natBits, List.range_succ]

theorem writeIntBeLoop_eq (c : Cfg) (sg : Bool) (W : BitWrite σ) (hw : 1 < w) (v : BitVec w) (n : Nat)
    (hn : n < w) (hsg : sg = true → n + 1 < w) :
    writeIntBeLoop c sg W v (n + 1) ((1 : BitVec w) <<< n) = writeAll W (natBits (n + 1) v.toNat).reverse := by
  induction n with
  | zero =>
    have e := and_nth_ne_zero (x := v) (k := 0) (by omega)
    rw [writeIntBeLoop, natBits_succ_reverse, writeAll]
    obtain ⟨y, hy, -⟩ := shrI_getLsbD (c := c) sg ((1 : BitVec w) <<< 0) hw
    rw [hy, SM.lift_ok_bind, e]
    rfl
  | succ n ih =>
    have e := and_nth_ne_zero (x := v) (k := n + 1) (by omega)
    rw [writeIntBeLoop, natBits_succ_reverse, writeAll, e]
    obtain ⟨y, hy, hbits⟩ := shrI_getLsbD (c := c) sg ((1 : BitVec w) <<< (n + 1)) hw
    have hmsb : (sg && ((1 : BitVec w) <<< (n + 1)).msb) = false := by
      cases sg
      · rfl
      · have := hsg rfl
        rw [Bool.true_and, BitVec.msb_eq_getLsbD_last]
        simp [BitVec.getLsbD_shiftLeft, BitVec.getLsbD_one]
        omega
    have hy' : y = (1 : BitVec w) <<< n := by
      apply BitVec.eq_of_getLsbD_eq
      intro i hi
      rw [hbits i hi, hmsb]
      simp only [BitVec.getLsbD_shiftLeft, hi, decide_true, Bool.true_and]
      by_cases h2 : i + 1 < w
      · rw [if_pos h2]
        simp only [h2, decide_true, Bool.true_and]
        by_cases h3 : i < n
        · simp [h3]
        · simp only [h3, show ¬ i + 1 < n + 1 by omega, decide_false, Bool.not_false, Bool.true_and]
          congr 1; omega
      · rw [if_neg h2]
        have : ¬ i < n := by omega
        simp only [this, decide_false, Bool.not_false, Bool.true_and]
        rw [show (1 : BitVec w) = 1#w from rfl, BitVec.getLsbD_one]
        simp
        omega
    rw [hy, SM.lift_ok_bind, hy', ih (by omega) (fun h => by have := hsg h; omega)]
    rfl

theorem writeIntBe_eq (c : Cfg) (sg : Bool) (W : BitWrite σ) (hw : 1 < w) (v : BitVec w) {n : Nat}
    (h1 : 1 ≤ n) (hn : n ≤ w) (hsg : sg = true → n < w) :
    writeIntBe c sg W n v = writeAll W (natBits n v.toNat).reverse := by
  obtain ⟨n, rfl⟩ : ∃ m, n = m + 1 := ⟨n - 1, by omega⟩
  rw [writeIntBe, subN_ok (by omega), SM.lift_ok_bind, Nat.add_sub_cancel, shlB_ok (by omega), SM.lift_ok_bind]
  exact writeIntBeLoop_eq c sg W hw v n (by omega) hsg

end Succinct
