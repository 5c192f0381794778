import Verif.Props.Select
import Verif.Props.Nesting
/-!
# C103: types built with the exported adapter macros

macros.rs:34-133 exports macros that give a type with a suitable field the methods of that field. Here the field is an
arbitrary function from the type, so the theorems cover every type a user may build with the macros, however often
nested.
-/
namespace Succinct
open Spec

/-- The contract of select support: `k`-th occurrences, for every `k` but `u64::MAX` (see C44). -/
structure SelectLaw (o : SelectOps S) (s : S) (bits : List Bool) : Prop where
  select1 : ∀ k, k + 1 < 2 ^ 64 → ∃ x, o.select1 s k = .ok x ∧ IsSelect true bits k x
  select0 : ∀ k, k + 1 < 2 ^ 64 → ∃ x, o.select0 s k = .ok x ∧ IsSelect false bits k x
  select : ∀ k, k + 1 < 2 ^ 64 → ∀ v, ∃ x, o.select s k v = .ok x ∧ IsSelect v bits k x

/-- `BinSearchSelect` keeps the contract over every lawful rank structure. -/
theorem BinSearchSelect.law (c : Cfg) {r : RankOps S} {s : S} (hr : RankLaw r s bits) :
    SelectLaw (BinSearchSelect.ops c r) (.new s) bits :=
  ⟨fun _ hk => (C44_select_partial c hr hk).1, fun _ hk => (C44_select_partial c hr hk).2.1,
    fun _ hk => (C44_select_partial c hr hk).2.2⟩

/-- C103. The bit-vector macro gives a transparent wrapper, and so a lawful vector with the field's bits, whatever
reading contract the field keeps. -/
theorem C103_bit_vec (field : T → S) (o : BitVecOps w S) :
    Transparent field (adaptBitVec field o) o ∧ ∀ {c l R}, Level.Law c l o R →
      Level.Law c l (adaptBitVec field o) (fun t => R (field t)) := by
  have h : Transparent field (adaptBitVec field o) o :=
    fun _ => ⟨rfl, rfl, fun _ => rfl, fun _ => rfl, fun _ _ => rfl⟩
  exact ⟨h, fun hl => hl.adapt h⟩

/-- C103. The rank macros answer as the field does, for every argument: in range, out of range, panicking or not. So the
wrapper keeps the rank contract exactly when the field does. -/
theorem C103_rank (field : T → S) (r : RankOps S) (t : T) :
    ((∀ p v, (adaptRank field r).rank t p v = r.rank (field t) p v) ∧
      (∀ p, (adaptRank field r).rank1 t p = r.rank1 (field t) p) ∧
      (∀ p, (adaptRank field r).rank0 t p = r.rank0 (field t) p) ∧
      (adaptRank field r).limit t = r.limit (field t)) ∧
    ∀ bits, RankLaw (adaptRank field r) t bits ↔ RankLaw r (field t) bits :=
  ⟨⟨fun _ _ => rfl, fun _ => rfl, fun _ => rfl, rfl⟩,
    fun _ => ⟨fun h => ⟨h.small, h.limit, h.rank1, h.rank0, h.rank⟩, fun h => ⟨h.small, h.limit, h.rank1, h.rank0, h.rank⟩⟩⟩

/-- C103. The select macros answer as the field does, for every argument, and keep the select contract exactly when the
field does. -/
theorem C103_select (field : T → S) (o : SelectOps S) (t : T) :
    ((∀ k v, (adaptSelect field o).select t k v = o.select (field t) k v) ∧
      (∀ k, (adaptSelect field o).select1 t k = o.select1 (field t) k) ∧
      (∀ k, (adaptSelect field o).select0 t k = o.select0 (field t) k)) ∧
    ∀ bits, SelectLaw (adaptSelect field o) t bits ↔ SelectLaw o (field t) bits :=
  ⟨⟨fun _ _ => rfl, fun _ => rfl, fun _ => rfl⟩,
    fun _ => ⟨fun h => ⟨h.select1, h.select0, h.select⟩, fun h => ⟨h.select1, h.select0, h.select⟩⟩⟩

/-- C103. Wrapping twice is wrapping once with the composed field. -/
theorem C103_compose (f : U → T) (g : T → S) (o : BitVecOps w S) (r : RankOps S) (q : SelectOps S) :
    adaptBitVec f (adaptBitVec g o) = adaptBitVec (g ∘ f) o ∧ adaptRank f (adaptRank g r) = adaptRank (g ∘ f) r ∧
    adaptSelect f (adaptSelect g q) = adaptSelect (g ∘ f) q := ⟨rfl, rfl, rfl⟩

/-- C103. The crate's own use of the macros: `BinSearchSelect` is its field for rank. -/
theorem C103_bin_search_select (r : RankOps S) (o : BitVecOps w S) :
    BinSearchSelect.rankOps r = adaptRank BinSearchSelect.rankSupport r ∧
    BinSearchSelect.bitVec o = adaptBitVec BinSearchSelect.rankSupport o := ⟨rfl, rfl⟩

/-- C103. `BinSearchSelect` over a wrapper finds what it finds over the field: for every index, and whether or not the
field keeps any contract. -/
theorem C103_search_through (c : Cfg) (field : T → S) (r : RankOps S) (t : T) (k : Nat) (v : Bool) :
    BinSearchSelect.select c (adaptRank field r) (.new t) k v = BinSearchSelect.select c r (.new (field t)) k v ∧
    BinSearchSelect.select1 c (adaptRank field r) (.new t) k = BinSearchSelect.select1 c r (.new (field t)) k ∧
    BinSearchSelect.select0 c (adaptRank field r) (.new t) k = BinSearchSelect.select0 c r (.new (field t)) k :=
  ⟨rfl, rfl, rfl⟩

/-- C103. The whole of it: a user's type `T` over `BinSearchSelect` over a lawful rank structure, all three groups of
methods from the macros, answers reads, rank and select about the same bits; and `select` inverts `rank`. -/
theorem C103_tower (c : Cfg) {field : T → BinSearchSelect S} {r : RankOps S} {t : T} {s : S} (ht : field t = .new s)
    (hr : RankLaw r s bits) :
    RankLaw (adaptRank field (BinSearchSelect.rankOps r)) t bits ∧
    SelectLaw (adaptSelect field (BinSearchSelect.ops c r)) t bits ∧
    ∀ p v, bits[p]? = some v → ∃ k, (adaptRank field (BinSearchSelect.rankOps r)).rank t p v = .ok (k + 1) ∧
      (adaptSelect field (BinSearchSelect.ops c r)).select t k v = .ok (some p) := by
  refine ⟨((C103_rank field _ t).2 bits).2 (ht ▸ C42_bin_search_rank hr),
    ((C103_select field _ t).2 bits).2 (ht ▸ BinSearchSelect.law c hr), fun p v hp => ?_⟩
  obtain ⟨k, h1, h2⟩ := C45_select_of_rank c hr hp
  refine ⟨k, ?_, ?_⟩
  · show (BinSearchSelect.rankOps r).rank (field t) p v = _
    rw [ht]; exact h1
  · show BinSearchSelect.select c r (field t) k v = _
    rw [ht]; exact h2

example (c : Cfg) : ∃ k, (adaptRank (fun t : Nat × BinSearchSelect (BitVec 8) => t.2)
      (BinSearchSelect.rankOps (primRank c 8))).rank (7, .new 0b10110100) 5 true = .ok (k + 1) ∧
    (adaptSelect (fun t : Nat × BinSearchSelect (BitVec 8) => t.2)
      (BinSearchSelect.ops c (primRank c 8))).select (7, .new 0b10110100) k true = .ok (some 5) :=
  (C103_tower c rfl (C36_words c isBlk8 0b10110100)).2.2 5 true (by decide)

/-! Each theorem of this file that has hypotheses is applied to concrete data in `Verif/Instances/Adapt.lean`. -/

end Succinct
