/-!
# The fragment of Rust semantics the model is written in

Nothing in this file models code from `/repo`; it fixes the meaning of the Rust constructs the
repository's code is written with: panics, loops, machine integers, build configuration and `io::Result`.
-/

namespace Succinct

/-- Outcome of a Rust computation: a value, a panic, or a computation that never returns. -/
inductive Res (α : Type u) where
  | ok (a : α)
  | panic
  | diverge
deriving DecidableEq, Repr

namespace Res

@[inline] protected def bind (x : Res α) (f : α → Res β) : Res β :=
  match x with
  | ok a => f a
  | panic => panic
  | diverge => diverge

instance : Monad Res where
  pure := Res.ok
  bind := Res.bind

@[simp] theorem ok_bind (a : α) (f : α → Res β) : (Res.ok a >>= f) = f a := rfl
@[simp] theorem panic_bind (f : α → Res β) : ((Res.panic : Res α) >>= f) = Res.panic := rfl
@[simp] theorem diverge_bind (f : α → Res β) : ((Res.diverge : Res α) >>= f) = Res.diverge := rfl

theorem of_bind_ok {x : Res α} {f : α → Res β} {y : β} (h : (x >>= f) = .ok y) : ∃ a, x = .ok a ∧ f a = .ok y := by
  cases x with
  | ok a => exact ⟨a, rfl, h⟩
  | panic => cases h
  | diverge => cases h
@[simp] theorem pure_eq (a : α) : (pure a : Res α) = Res.ok a := rfl
@[simp] theorem map_ok (f : α → β) (a : α) : f <$> (Res.ok a) = Res.ok (f a) := rfl
@[simp] theorem map_panic (f : α → β) : f <$> (Res.panic : Res α) = Res.panic := rfl
@[simp] theorem map_diverge (f : α → β) : f <$> (Res.diverge : Res α) = Res.diverge := rfl

instance : LawfulMonad Res := LawfulMonad.mk'
  (id_map := by intro α x; cases x <;> rfl)
  (pure_bind := by intros; rfl)
  (bind_assoc := by intro α β γ x f g; cases x <;> rfl)

/-- Did the computation return a value? -/
def isOk : Res α → Bool
  | ok _ => true
  | _ => false

section Order
open Lean.Order

/-- `diverge` is the least element: this is what lets `while` loops be `partial_fixpoint`s. -/
instance : PartialOrder (Res α) := inferInstanceAs (PartialOrder (FlatOrder (Res.diverge : Res α)))
instance : CCPO (Res α) := inferInstanceAs (CCPO (FlatOrder (Res.diverge : Res α)))
instance : MonoBind Res where
  bind_mono_left h := by
    cases h
    · exact FlatOrder.rel.bot
    · exact FlatOrder.rel.refl
  bind_mono_right {_ _ a _ _} h := by
    cases a with
    | ok a => exact h a
    | panic => exact FlatOrder.rel.refl
    | diverge => exact FlatOrder.rel.refl

end Order
end Res

/-- Pointer width of the target (`cfg(target_pointer_width)`). -/
inductive Ptr where
  | p32
  | p64
deriving DecidableEq, Repr

/-- Build configuration: `debug`, whether overflow checks are on (`overflow-checks` of the cargo profile); the target;
`asserts`, whether `debug_assert!` is on (`debug-assertions`). Cargo's dev and test profiles have both, its release
profile neither, and a profile may set each on its own. -/
structure Cfg where
  debug : Bool
  ptr : Ptr
  asserts : Bool
deriving DecidableEq, Repr

/-- Number of bits of `usize`. -/
def Cfg.usz (c : Cfg) : Nat := match c.ptr with | .p32 => 32 | .p64 => 64

theorem Cfg.usz_cases (c : Cfg) : c.usz = 32 ∨ c.usz = 64 := by
  unfold Cfg.usz; cases c.ptr <;> simp

theorem Cfg.usz_le (c : Cfg) : c.usz ≤ 64 := by rcases c.usz_cases with h | h <;> omega

/-- `assert!(p)` -/
def assertR (p : Prop) [Decidable p] : Res Unit := if p then .ok () else .panic

/-- `debug_assert!(p)` -/
def debugAssert (c : Cfg) (p : Prop) [Decidable p] : Res Unit :=
  if c.asserts then assertR p else .ok ()

@[simp] theorem assertR_true {p : Prop} [Decidable p] (h : p) : assertR p = .ok () := by simp [assertR, h]
@[simp] theorem assertR_false {p : Prop} [Decidable p] (h : ¬p) : assertR p = .panic := by simp [assertR, h]
@[simp] theorem debugAssert_true {c : Cfg} {p : Prop} [Decidable p] (h : p) : debugAssert c p = .ok () := by
  simp [debugAssert, h]

/-- What an overflowing arithmetic operation does: panic with overflow checks, wrap without. -/
def overflow (c : Cfg) (wrapped : α) : Res α := if c.debug then .panic else .ok wrapped

/-- `a + b` on an unsigned integer of `bits` bits -/
def addN (c : Cfg) (bits a b : Nat) : Res Nat :=
  if a + b < 2 ^ bits then .ok (a + b) else overflow c ((a + b) % 2 ^ bits)

/-- `a - b` on an unsigned integer of `bits` bits -/
def subN (c : Cfg) (bits a b : Nat) : Res Nat :=
  if b ≤ a then .ok (a - b) else overflow c ((a + 2 ^ bits - b) % 2 ^ bits)

/-- `a * b` on an unsigned integer of `bits` bits -/
def mulN (c : Cfg) (bits a b : Nat) : Res Nat :=
  if a * b < 2 ^ bits then .ok (a * b) else overflow c ((a * b) % 2 ^ bits)

/-- `a / b`: panics in every build when `b = 0` -/
def divN (a b : Nat) : Res Nat := if b = 0 then .panic else .ok (a / b)

/-- `a % b`: panics in every build when `b = 0` -/
def remN (a b : Nat) : Res Nat := if b = 0 then .panic else .ok (a % b)

/-- `a << k`: an over-long shift panics with overflow checks and is masked without; lost high bits are
never reported -/
def shlN (c : Cfg) (bits a k : Nat) : Res Nat :=
  if k < bits then .ok ((a <<< k) % 2 ^ bits) else overflow c ((a <<< (k % bits)) % 2 ^ bits)

/-- `a >> k` -/
def shrN (c : Cfg) (bits a k : Nat) : Res Nat :=
  if k < bits then .ok (a >>> k) else overflow c (a >>> (k % bits))

/-- `a.checked_add(b)` -/
def checkedAdd (bits a b : Nat) : Option Nat := if a + b < 2 ^ bits then some (a + b) else none
/-- `a.checked_mul(b)` -/
def checkedMul (bits a b : Nat) : Option Nat := if a * b < 2 ^ bits then some (a * b) else none

/-- `x as usize` -/
def asUsize (c : Cfg) (x : Nat) : Nat := x % 2 ^ c.usz
/-- `x.to_usize()` (num_traits `ToPrimitive`) -/
def toUsize (c : Cfg) (x : Nat) : Option Nat := if x < 2 ^ c.usz then some x else none

/-- `opt.expect(..)` / `opt.unwrap()` -/
def expectR : Option α → Res α
  | some a => .ok a
  | none => .panic

@[simp] theorem expectR_some (a : α) : expectR (some a) = .ok a := rfl
@[simp] theorem expectR_none : expectR (none : Option α) = .panic := rfl

theorem addN_ok {c : Cfg} {bits a b : Nat} (h : a + b < 2 ^ bits) : addN c bits a b = .ok (a + b) := by
  simp [addN, h]
theorem subN_ok {c : Cfg} {bits a b : Nat} (h : b ≤ a) : subN c bits a b = .ok (a - b) := by
  simp [subN, h]
theorem mulN_ok {c : Cfg} {bits a b : Nat} (h : a * b < 2 ^ bits) : mulN c bits a b = .ok (a * b) := by
  simp [mulN, h]
theorem divN_ok {a b : Nat} (h : 0 < b) : divN a b = .ok (a / b) := by
  simp [divN]; omega
theorem remN_ok {a b : Nat} (h : 0 < b) : remN a b = .ok (a % b) := by
  simp [remN]; omega
theorem shrN_ok {c : Cfg} {bits a k : Nat} (h : k < bits) : shrN c bits a k = .ok (a / 2 ^ k) := by
  simp [shrN, h, Nat.shiftRight_eq_div_pow]
theorem shlN_ok {c : Cfg} {bits a k : Nat} (h : k < bits) (h2 : a * 2 ^ k < 2 ^ bits) :
    shlN c bits a k = .ok (a * 2 ^ k) := by
  simp [shlN, h, Nat.shiftLeft_eq, Nat.mod_eq_of_lt h2]

/-! ### Operations on blocks (unsigned integers used as bit patterns) -/

/-- `x << k` on a block -/
def shlB (c : Cfg) (x : BitVec w) (k : Nat) : Res (BitVec w) :=
  if k < w then .ok (x <<< k) else overflow c (x <<< (k % w))
/-- `x >> k` on a block -/
def shrB (c : Cfg) (x : BitVec w) (k : Nat) : Res (BitVec w) :=
  if k < w then .ok (x >>> k) else overflow c (x >>> (k % w))
/-- `x + y` on a block -/
def addB (c : Cfg) (x y : BitVec w) : Res (BitVec w) :=
  if x.toNat + y.toNat < 2 ^ w then .ok (x + y) else overflow c (x + y)
/-- `x - y` on a block -/
def subB (c : Cfg) (x y : BitVec w) : Res (BitVec w) :=
  if y.toNat ≤ x.toNat then .ok (x - y) else overflow c (x - y)
/-- `x * y` on a block -/
def mulB (c : Cfg) (x y : BitVec w) : Res (BitVec w) :=
  if x.toNat * y.toNat < 2 ^ w then .ok (x * y) else overflow c (x * y)

theorem shlB_ok {c : Cfg} {x : BitVec w} {k : Nat} (h : k < w) : shlB c x k = .ok (x <<< k) := by
  simp [shlB, h]
theorem shrB_ok {c : Cfg} {x : BitVec w} {k : Nat} (h : k < w) : shrB c x k = .ok (x >>> k) := by
  simp [shrB, h]

/-- The primitive `leading_zeros()` of an unsigned integer of `bits` bits holding `n`. -/
def leadingZeros (bits n : Nat) : Nat := if n = 0 then bits else bits - 1 - n.log2

/-- The primitive `count_ones()` of a block. -/
def countOnes (x : BitVec w) : Nat := (List.range w).countP (fun i => x.getLsbD i)

/-! ### Loops -/

/-- `n` iterations of a loop body, with index `i, i+1, …`. -/
def forLoop (n i : Nat) (s : σ) (f : Nat → σ → Res σ) : Res σ :=
  match n with
  | 0 => .ok s
  | n + 1 => do
    let s ← f i s
    forLoop n (i + 1) s f

/-- `for i in lo .. hi { body }` with loop-carried state `s`. -/
def forRange (lo hi : Nat) (s : σ) (f : Nat → σ → Res σ) : Res σ := forLoop (hi - lo) lo s f

/-- Loop invariant rule. -/
theorem forLoop_inv {n i : Nat} {s : σ} {f : Nat → σ → Res σ} (P : Nat → σ → Prop)
    (h0 : P i s)
    (hs : ∀ k s, i ≤ k → k < i + n → P k s → ∃ s', f k s = .ok s' ∧ P (k + 1) s') :
    ∃ s', forLoop n i s f = .ok s' ∧ P (i + n) s' := by
  induction n generalizing i s with
  | zero => exact ⟨s, rfl, h0⟩
  | succ n ih =>
    obtain ⟨s1, h1, hp1⟩ := hs i s (Nat.le_refl _) (by omega) h0
    obtain ⟨s2, h2, hp2⟩ := ih hp1 (fun k s hk hk' => hs k s (by omega) (by omega))
    exact ⟨s2, by simp [forLoop, h1, h2], by rwa [show i + (n + 1) = i + 1 + n by omega]⟩

theorem forRange_inv {lo hi : Nat} {s : σ} {f : Nat → σ → Res σ} (P : Nat → σ → Prop)
    (hle : lo ≤ hi) (h0 : P lo s)
    (hs : ∀ k s, lo ≤ k → k < hi → P k s → ∃ s', f k s = .ok s' ∧ P (k + 1) s') :
    ∃ s', forRange lo hi s f = .ok s' ∧ P hi s' := by
  have := forLoop_inv (n := hi - lo) (i := lo) (s := s) (f := f) P h0
    (fun k s hk hk' => hs k s hk (by omega))
  rwa [show lo + (hi - lo) = hi by omega] at this

/-! ### `std::io::Result` and bit streams -/

/-- The `io::ErrorKind`s the crate produces, and `other` for errors produced by a user's
sink or source (identified by a number). -/
inductive IoErr where
  | unexpectedEof
  | invalidData
  | notFound
  | other (code : Nat)
deriving DecidableEq, Repr

/-- A method taking `&mut S` and returning `io::Result<A>`: the state after the call is visible
even when the call returned `Err`. -/
def SM (σ : Type) (α : Type) : Type := σ → Res (Except IoErr α × σ)

namespace SM

@[inline] protected def bind (x : SM σ α) (f : α → SM σ β) : SM σ β := fun s => do
  match ← x s with
  | (.ok a, s') => f a s'
  | (.error e, s') => .ok (.error e, s')

/-- `>>=` is Rust's `try!(..)` / `?`. -/
instance : Monad (SM σ) where
  pure a := fun s => .ok (.ok a, s)
  bind := SM.bind

/-- `return Err(e)` -/
def fail (e : IoErr) : SM σ α := fun s => .ok (.error e, s)
/-- run a pure computation that may panic -/
def lift (x : Res α) : SM σ α := fun s => do let a ← x; .ok (.ok a, s)

theorem pure_run (a : α) (s : σ) : (pure a : SM σ α) s = .ok (.ok a, s) := rfl
theorem bind_run (x : SM σ α) (f : α → SM σ β) (s : σ) :
    (x >>= f) s = (x s >>= fun p => match p with
      | (.ok a, s') => f a s'
      | (.error e, s') => .ok (.error e, s')) := rfl
theorem fail_run (e : IoErr) (s : σ) : (fail e : SM σ α) s = .ok (.error e, s) := rfl
theorem lift_ok (a : α) (s : σ) : (lift (.ok a) : SM σ α) s = .ok (.ok a, s) := rfl
theorem lift_panic (s : σ) : (lift .panic : SM σ α) s = .panic := rfl
theorem bind_run_ok {x : SM σ α} {f : α → SM σ β} {s s' : σ} {a : α} (h : x s = .ok (.ok a, s')) :
    (x >>= f) s = f a s' := by simp [bind_run, h]
theorem bind_run_err {x : SM σ α} {f : α → SM σ β} {s s' : σ} {e : IoErr}
    (h : x s = .ok (.error e, s')) : (x >>= f) s = .ok (.error e, s') := by simp [bind_run, h]
theorem bind_run_panic {x : SM σ α} {f : α → SM σ β} {s : σ}
    (h : x s = .panic) : (x >>= f) s = .panic := by simp [bind_run, h]

section Order
open Lean.Order
instance : PartialOrder (SM σ α) := inferInstanceAs (PartialOrder (σ → Res (Except IoErr α × σ)))
instance : CCPO (SM σ α) := inferInstanceAs (CCPO (σ → Res (Except IoErr α × σ)))
instance : MonoBind (SM σ) where
  bind_mono_left h := by
    intro s
    exact MonoBind.bind_mono_left (h s)
  bind_mono_right {_ _ a _ _} h := by
    intro s
    apply MonoBind.bind_mono_right (m := Res)
    rintro ⟨r, s'⟩
    cases r with
    | ok a => exact h a s'
    | error e => exact PartialOrder.rel_refl
end Order
end SM

end Succinct
