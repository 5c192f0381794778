import Verif.Props.Search
import Verif.Props.BitVecTrait
import Verif.Props.BitVector
import Verif.Props.Directory
/-!
Property C153: rank and select over a vector that has changed since the directory was built.

The bit store of a rank structure cannot be changed through the structure, but a type of the user can change behind a shared
reference (cells, a memory map). The directory then describes the bits of the past. A changed store is modelled as the same
structure with another state of the bit store; the types and dictionaries are arbitrary.
-/
namespace Succinct
namespace Spec

/-- The bits a query for position `p` sees: those of the past before the block of `w` bits of `p`, the present ones from there. -/
def mixed (w : Nat) (old new : List Bool) (p : Nat) : List Bool := old.take (p / w * w) ++ new.drop (p / w * w)

/-- in how many of the first `n` places two lists differ -/
def differ (old new : List Bool) (n : Nat) : Nat := ((old.take n).zip (new.take n)).countP (fun x => x.1 != x.2)

end Spec
open Spec

/-- ones of the bits seen -/
theorem ones_mixed {w : Nat} {old new : List Bool} {p : Nat} (ho : p < old.length) :
    ones (mixed w old new p) (p + 1) = ones old (p / w * w) + ones (new.drop (p / w * w)) (p % w + 1) := by
  have h := Nat.div_add_mod p w
  rw [Nat.mul_comm] at h
  unfold mixed ones
  have h2 : (old.take (p / w * w)).length = p / w * w := by rw [List.length_take]; omega
  rw [List.take_append, h2, List.take_of_length_le (by omega), List.count_append, show p + 1 - p / w * w = p % w + 1 by omega]

theorem length_mixed {w : Nat} {old new : List Bool} {p : Nat} (ho : p < old.length) :
    (mixed w old new p).length = p / w * w + (new.length - p / w * w) := by
  have h := Nat.div_add_mod p w
  rw [Nat.mul_comm] at h
  unfold mixed
  rw [List.length_append, List.length_take, List.length_drop, Nat.min_eq_left (by omega)]

/-- within the block, the ones of the present -/
theorem ones_window {w : Nat} {new : List Bool} {p : Nat} :
    ones new (p + 1) = ones new (p / w * w) + ones (new.drop (p / w * w)) (p % w + 1) := by
  have h := Nat.div_add_mod p w
  rw [Nat.mul_comm] at h
  conv => lhs; rw [show p + 1 = p / w * w + (p % w + 1) by omega]
  rw [ones_add]
  rfl

theorem BlocksOf.ones_here {o : BitVecOps w S} (h : BlocksOf o s bits blk) {p : Nat} (hw : 0 < w) (hp : p < bits.length) :
    ones (bits.drop (p / w * w)) (p % w + 1) = ones (blockBits (blk (p / w))) (p % w + 1) := by
  have h1 := Nat.div_add_mod p w
  rw [Nat.mul_comm] at h1
  have := Nat.mod_lt p hw
  unfold ones
  rw [h.window (by omega) (by omega)]

section
variable {S : Type} {c : Cfg}

/-- `Rank9` with the directory of the past. -/
theorem rank9_stale {o : BitVecOps 64 S} {r : Rank9 S} {t : S} {old new : List Bool} {blk blk' : Nat → BitVec 64}
    (hf : Fits c.usz 64 old.length) (hblk : BlocksOf o r.bitStore old blk) (hblk' : BlocksOf o t new blk')
    (hr : Rank9Ok blk (blocksFor 64 old.length) r) {p : Nat} (hp : p < old.length) (hp' : p < new.length) :
    Rank9.rank1 c o { r with bitStore := t } p = .ok (ones (mixed 64 old new p) (p + 1)) := by
  have hlt := hf.lt (by omega : 0 < 64)
  have hpw : p / 64 < blocksFor 64 old.length := by rw [lt_blocksFor (by omega)]; omega
  have hpw' : p / 64 < blocksFor 64 new.length := by rw [lt_blocksFor (by omega)]; omega
  have hu := hf.2
  have hbb : p / 512 = p / 64 / 8 := by omega
  have hlen := hr.len
  have hq : p / 64 / 8 < r.counts.length := by omega
  have hc := hr.cells _ _ (List.getElem?_eq_getElem hq)
  have hl1 := hc.level1
  have hl2 := hc.level2 (p / 64 % 8) (by omega) (by omega)
  rw [show 8 * (p / 64 / 8) + p / 64 % 8 = p / 64 by omega] at hl2
  have hmono := prefixOnes_mono blk (show 8 * (p / 64 / 8) ≤ p / 64 by omega)
  have hmix := ones_mixed (w := 64) (new := new) hp
  rw [hblk.ones_mul (by omega), hblk'.ones_here (by omega) hp'] at hmix
  have hle : ones (mixed 64 old new p) (p + 1) ≤ p + 1 := ones_le _ _
  unfold Rank9.rank1 toUsize vecGet
  dsimp only
  rw [if_pos (by omega), expectR_some, Res.ok_bind, if_pos (by omega), expectR_some, Res.ok_bind, hbb,
    List.getElem?_eq_getElem hq, expectR_some, Res.ok_bind,
    level2Get_ok c _ (by omega), Res.ok_bind, hblk'.get _ hpw', Res.ok_bind, primRank1_ok c isBlk64 _ (by omega), Res.ok_bind,
    hl1, hl2, addN_ok (by omega), Res.ok_bind, addN_ok (by omega), hmix]
  congr 1
  omega

/-- `JacobsonRank` with the directories of the past. -/
theorem jacobson_stale {w : Nat} {o : BitVecOps w S} {R : S → List Bool → Prop} (hw : IsBlk w) (hl : BVLaw c o R) {j : Jacobson S} {t : S}
    {old new : List Bool} {blk blk' : Nat → BitVec w} (hR : R j.bitStore old) (hR' : R t new) (hblk : BlocksOf o j.bitStore old blk)
    (hblk' : BlocksOf o t new blk') (hj : JacobsonOk c w S blk (blocksFor w old.length) spl kl ks j) {p : Nat} (hp : p < old.length)
    (hp' : p < new.length) : Jacobson.rank1 c o { j with bitStore := t } p = .ok (ones (mixed w old new p) (p + 1)) := by
  have hwp := hw.pos
  have hsp := hj.pos
  have hf := hl.fits hR
  have hlt := hf.lt hwp
  have hpw : p / w < blocksFor w old.length := by
    rw [lt_blocksFor hwp]
    have := Nat.div_mul_le_self p w; omega
  have hpw' : p / w < blocksFor w new.length := by
    rw [lt_blocksFor hwp]
    have := Nat.div_mul_le_self p w; omega
  have hdd : p / (w * spl) = p / w / spl := (Nat.div_div_eq_div_mul p w spl).symm
  have hceil : p / w / spl < (blocksFor w old.length + spl - 1) / spl := by
    have h1 := div_facts (i := p / w) hsp
    rw [Nat.lt_iff_add_one_le, Nat.le_div_iff_mul_le hsp, Nat.succ_mul]
    omega
  obtain ⟨x, hx, hxv⟩ := hj.large.get_ok isBlk64 (i := p / w / spl) (by
    rw [List.length_append, List.length_map, List.length_range]; omega)
  obtain ⟨y, hy, hyv⟩ := hj.small.get_ok isBlk64 (i := p / w) (by
    rw [List.length_append, List.length_map, List.length_range]; omega)
  rw [List.getElem_append_left (by rw [List.length_map, List.length_range]; exact hceil), List.getElem_map, List.getElem_range] at hxv
  rw [List.getElem_append_left (by rw [List.length_map, List.length_range]; exact hpw), List.getElem_map, List.getElem_range] at hyv
  have hmono := prefixOnes_mono blk (div_facts (i := p / w) hsp).1
  have hmix := ones_mixed (w := w) (new := new) hp
  rw [hblk.ones_mul (by have := Nat.div_mul_le_self p w; omega), hblk'.ones_here hwp hp'] at hmix
  have hle : ones (mixed w old new p) (p + 1) ≤ p + 1 := ones_le _ _
  unfold Jacobson.rank1
  dsimp only
  rw [hl.bitLen hR', Res.ok_bind, assertR_true hp', Res.ok_bind, hj.size, divN_ok (Nat.mul_pos hwp hsp), Res.ok_bind,
    addrNew_ok c hw (hf.div_lt hwp hp), Res.ok_bind, hdd, hx, Res.ok_bind]
  simp only
  rw [hy, Res.ok_bind, hblk'.get _ hpw', Res.ok_bind, primRank1_ok c hw _ (Nat.mod_lt _ hwp), Res.ok_bind, hxv, hyv,
    addN_ok (by omega), Res.ok_bind, addN_ok (by omega), hmix]
  congr 1
  omega

/-- What a rank structure with the directory of the past answers. -/
structure StaleRank (w : Nat) (r : RankOps T) (s : T) (old new : List Bool) : Prop where
  limit : r.limit s = .ok new.length
  rank1 : ∀ p, p < old.length → p < new.length → r.rank1 s p = .ok (ones (mixed w old new p) (p + 1))
  rank0 : ∀ p, p < old.length → p < new.length → r.rank0 s p = .ok (zeros (mixed w old new p) (p + 1))
  rank : ∀ p v, p < old.length → p < new.length → r.rank s p v = .ok (occ v (mixed w old new p) (p + 1))

theorem staleRank_of_rank1 {w : Nat} {limit : T → Res Nat} {rank1 : T → Nat → Res Nat} {s : T} {old new : List Bool}
    (hn : new.length < 2 ^ 64) (hl : limit s = .ok new.length)
    (h : ∀ p, p < old.length → p < new.length → rank1 s p = .ok (ones (mixed w old new p) (p + 1))) :
    StaleRank w (rankOps c limit rank1) s old new := by
  have h0 : ∀ p, p < old.length → p < new.length → dfltRank0 c rank1 s p = .ok (zeros (mixed w old new p) (p + 1)) := by
    intro p hp hp'
    have hle : ones (mixed w old new p) (p + 1) ≤ p + 1 := ones_le _ _
    unfold dfltRank0
    rw [h p hp hp', addN_ok (by omega)]
    simp only [Res.ok_bind]
    rw [subN_ok hle, zeros_eq _ (by
      have := Nat.div_mul_le_self p w
      rw [length_mixed hp]; omega)]
  refine ⟨hl, h, h0, fun p v hp hp' => ?_⟩
  cases v
  · exact (h0 p hp hp')
  · exact h p hp hp'

/-- C153 for `Rank9`. Built over `old`, asked when the vector holds `new`: a query inside both answers as for the vector that agrees
with `old` before the word of the position and with `new` from there on. -/
theorem C153_rank9 {o : BitVecOps 64 S} {R : S → List Bool → Prop} (hl : BVLaw c o R) (hbl : BVBlockRead o R) {s t : S}
    {old new : List Bool} (hR : R s old) (hR' : R t new) (hu : blocksFor 64 old.length + 8 < 2 ^ c.usz) :
    ∃ r, Rank9.new c o s = .ok r ∧ StaleRank 64 (Rank9.ops c o) { r with bitStore := t } old new := by
  obtain ⟨blk, r, hblk, hr, hs, hok⟩ := rank9_new_ok hbl hR (hl.fits hR) hu
  subst hs
  obtain ⟨blk', hblk'⟩ := hbl.blocks (by omega) hR'
  exact ⟨r, hr, staleRank_of_rank1 (by have := (hl.fits hR').lt (w := 64) (by omega); omega) (hl.bitLen hR')
    fun p hp hp' => rank9_stale (hl.fits hR) hblk hblk' hok hp hp'⟩

/-- C153 for `JacobsonRank`. -/
theorem C153_jacobson {w : Nat} {o : BitVecOps w S} {R : S → List Bool → Prop} (hw : IsBlk w) (hl : BVLaw c o R) (hbl : BVBlockRead o R)
    (hpad : BVPadLaw o R) {s t : S} {old new : List Bool} (hR : R s old) (hR' : R t new) (hmem : InMemory c.usz old.length)
    (h2 : 2 ≤ old.length) :
    ∃ j, Jacobson.new c o s = .ok j ∧ StaleRank w (Jacobson.ops c o) { j with bitStore := t } old new := by
  obtain ⟨blk, j, lg, spl, kl, ks, hblk, hj, hs, hok, -⟩ := jacobson_new_ok hw hl hbl hpad hR hmem h2
  subst hs
  obtain ⟨blk', hblk'⟩ := hbl.blocks hw.pos hR'
  exact ⟨j, hj, staleRank_of_rank1 (by have := (hl.fits hR').lt hw.pos; omega) (hl.bitLen hR')
    fun p hp hp' => jacobson_stale hw hl hR hR' hblk hblk' hok hp hp'⟩

/-! ### How wrong, and when right -/

theorem ones_differ (old new : List Bool) (n : Nat) (ho : n ≤ old.length) (hn : n ≤ new.length) :
    ones old n ≤ ones new n + differ old new n ∧ ones new n ≤ ones old n + differ old new n := by
  unfold ones differ
  have h : (old.take n).length = (new.take n).length := by rw [List.length_take, List.length_take]; omega
  generalize old.take n = a at *
  generalize new.take n = b at *
  induction a generalizing b with
  | nil => cases b with
    | nil => simp
    | cons => simp at h
  | cons x a ih =>
    cases b with
    | nil => simp at h
    | cons y b =>
      have := ih b (by simpa using h)
      simp only [List.zip_cons_cons, List.countP_cons, List.count_cons]
      cases x <;> cases y <;> simp <;> omega

/-- C153. The answer is off by at most the number of bits that changed before the block of the position. -/
theorem C153_error {w : Nat} {r : RankOps T} {s : T} {old new : List Bool} (h : StaleRank w r s old new) (hlen : old.length = new.length)
    {p : Nat} (hp : p < new.length) :
    ∃ x, r.rank1 s p = .ok x ∧ x ≤ ones new (p + 1) + differ old new (p / w * w) ∧ ones new (p + 1) ≤ x + differ old new (p / w * w) := by
  have hq := Nat.div_mul_le_self p w
  have h1 := ones_differ old new (p / w * w) (by omega) (by omega)
  have h2 := ones_mixed (w := w) (new := new) (hlen ▸ hp : p < old.length)
  have h3 := ones_window (w := w) (new := new) (p := p)
  refine ⟨_, h.rank1 p (by omega) hp, ?_, ?_⟩ <;> omega

/-- C153. All ranks are right for the new bits exactly if each block but the last has as many ones as before; the last block may
have changed at will. -/
theorem C153_right {w : Nat} {r : RankOps T} {s : T} {old new : List Bool} (hw : 0 < w) (h : StaleRank w r s old new)
    (hlen : old.length = new.length) :
    (∀ p < new.length, r.rank1 s p = .ok (ones new (p + 1))) ↔
      ∀ i, (i + 1) * w < new.length → ((old.drop (i * w)).take w).count true = ((new.drop (i * w)).take w).count true := by
  have key : ∀ p < new.length, (r.rank1 s p = .ok (ones new (p + 1)) ↔ ones old (p / w * w) = ones new (p / w * w)) := by
    intro p hp
    have h2 := ones_mixed (w := w) (new := new) (hlen ▸ hp : p < old.length)
    have h3 := ones_window (w := w) (new := new) (p := p)
    rw [h.rank1 p (by omega) hp]
    constructor
    · intro e
      have e := Res.ok.inj e
      omega
    · intro e
      rw [h2, h3, e]
  have step : ∀ (l : List Bool) i, ones l ((i + 1) * w) = ones l (i * w) + ((l.drop (i * w)).take w).count true := by
    intro l i
    rw [Nat.succ_mul, ones_add]
  constructor
  · intro hall i hi
    have e : ∀ k, k * w < new.length → ones old (k * w) = ones new (k * w) := by
      intro k hk
      have := (key (k * w) hk).1 (hall _ hk)
      rwa [Nat.mul_div_cancel _ hw] at this
    have h1 := e (i + 1) hi
    have h2 := e i (by rw [Nat.succ_mul] at hi; omega)
    rw [step, step] at h1
    omega
  · intro hall p hp
    rw [key p hp]
    have : ∀ k, k * w < new.length → ones old (k * w) = ones new (k * w) := by
      intro k
      induction k with
      | zero => intro _; simp [ones]
      | succ k ih =>
        intro hk
        rw [step, step, ih (by rw [Nat.succ_mul] at hk; omega), hall k hk]
    exact this _ (by have := Nat.div_mul_le_self p w; omega)

/-- C153. In that case the structure is a correct one for the new bits (and by C44 select on top of it is right as well). -/
theorem C153_still_right {w : Nat} {c : Cfg} {limit : T → Res Nat} {rank1 : T → Nat → Res Nat} {s : T} {old new : List Bool} (hw : 0 < w)
    (h : StaleRank w (rankOps c limit rank1) s old new) (hlen : old.length = new.length) (hn : new.length < 2 ^ 64)
    (hsame : ∀ i, (i + 1) * w < new.length → ((old.drop (i * w)).take w).count true = ((new.drop (i * w)).take w).count true) :
    RankLaw (rankOps c limit rank1) s new :=
  rankLaw_of_rank1 c hn h.limit ((C153_right hw h hlen).2 hsame)

/-! ### Select -/

theorem occ_mixed {w : Nat} {old new : List Bool} {p : Nat} (v : Bool) (ho : p < old.length) :
    occ v (mixed w old new p) (p + 1) = occ v old (p / w * w) + occ v (new.drop (p / w * w)) (p % w + 1) := by
  have h := Nat.div_add_mod p w
  rw [Nat.mul_comm] at h
  unfold mixed occ
  have h2 : (old.take (p / w * w)).length = p / w * w := by rw [List.length_take]; omega
  rw [List.take_append, h2, List.take_of_length_le (by omega), List.count_append, show p + 1 - p / w * w = p % w + 1 by omega]

/-- The answer of select with a directory of the past: a place where the answer of rank gets past `k`. It is a place with the value
looked for, unless it is the first of a block. `None` only if the answer of rank at the last place is at most `k`. -/
def StaleSelect (w : Nat) (v : Bool) (old new : List Bool) (k : Nat) : Option Nat → Prop
  | some d => d < new.length ∧ k < occ v (mixed w old new d) (d + 1) ∧ (d = 0 ∨ occ v (mixed w old new (d - 1)) d ≤ k) ∧
      (d % w ≠ 0 → new[d]? = some v)
  | none => new.length = 0 ∨ occ v (mixed w old new (new.length - 1)) new.length ≤ k

theorem select_stale {w : Nat} {c : Cfg} {r : RankOps T} {s : T} {old new : List Bool} (hw : 0 < w) (h : StaleRank w r s old new)
    (hlen : old.length = new.length) (hn : new.length < 2 ^ 64) {k : Nat} (hk : k + 1 < 2 ^ 64) (v : Bool) {rank : T → Nat → Res Nat}
    (hr : ∀ p < new.length, rank s p = .ok (occ v (mixed w old new p) (p + 1))) :
    ∃ x, BinSearchSelect.selectBy c r rank (.new s) k = .ok x ∧ StaleSelect w v old new k x := by
  obtain ⟨x, n, h1, -, -, h2⟩ := C89_any_function c (bits := 64) (start := 0) (limit := new.length) (value := k + 1)
    (f := fun i => rank s i) (g := fun p => occ v (mixed w old new p) (p + 1)) (by decide) hn (fun i _ hi => hr i hi) 64
    (by omega)
  refine ⟨x, ?_, ?_⟩
  · unfold BinSearchSelect.selectBy
    show (do let n ← r.limit s; _) = _
    rw [h.limit, Res.ok_bind, addN_ok hk]
    exact h1
  · cases x with
    | none =>
      rcases h2 with h2 | h2
      · exact .inl (by omega)
      · rcases Nat.eq_zero_or_pos new.length with h0 | h0
        · exact .inl h0
        · right
          rw [show new.length - 1 + 1 = new.length by omega] at h2
          omega
    | some d =>
      obtain ⟨-, hd, h3, h4⟩ := h2
      dsimp only at h3 h4
      have h5 : d = 0 ∨ occ v (mixed w old new (d - 1)) d ≤ k := by
        rcases h4 with h4 | h4
        · exact .inl h4
        · rcases Nat.eq_zero_or_pos d with h0 | h0
          · exact .inl h0
          · right
            rw [show d - 1 + 1 = d by omega] at h4
            omega
      refine ⟨hd, by omega, h5, fun hm => ?_⟩
      rcases h5 with h5 | h5
      · subst h5; simp at hm
      obtain ⟨q, m, hm', hdq, h6, h7⟩ := divmod_cases w d hw
      rw [h7] at hm
      have e1 : (d - 1) / w = q := by
        rw [show d - 1 = q * w + (m - 1) by omega, Nat.mul_comm q w, Nat.mul_add_div hw, Nat.div_eq_of_lt (by omega)]; rfl
      have e2 : (d - 1) % w = m - 1 := by
        rw [show d - 1 = q * w + (m - 1) by omega, Nat.mul_comm q w, Nat.mul_add_mod, Nat.mod_eq_of_lt (by omega)]
      have h8 := occ_mixed (w := w) (old := old) (new := new) (p := d) v (by omega)
      have h9 := occ_mixed (w := w) (old := old) (new := new) (p := d - 1) v (by omega)
      rw [h6, h7] at h8
      rw [e1, e2, show d - 1 + 1 = d by omega, show m - 1 + 1 = m by omega] at h9
      have h10 : occ v (new.drop (q * w)) (m + 1) = occ v (new.drop (q * w)) m + occ v ((new.drop (q * w)).drop m) 1 := by
        unfold occ
        rw [List.take_add, List.count_append]
      have h11 : 0 < occ v ((new.drop (q * w)).drop m) 1 := by omega
      unfold occ at h11
      rw [List.drop_drop, ← hdq] at h11
      rw [List.count_pos_iff] at h11
      rw [List.drop_eq_getElem_cons hd, List.take_succ_cons, List.take_zero, List.mem_singleton] at h11
      rw [List.getElem?_eq_getElem hd, h11]

/-- C153 for select by binary search, over any structure with a directory of the past. -/
theorem C153_select {w : Nat} {c : Cfg} {r : RankOps T} {s : T} {old new : List Bool} (hw : 0 < w) (h : StaleRank w r s old new)
    (hlen : old.length = new.length) (hn : new.length < 2 ^ 64) {k : Nat} (hk : k + 1 < 2 ^ 64) :
    (∃ x, BinSearchSelect.select1 c r (.new s) k = .ok x ∧ StaleSelect w true old new k x) ∧
    (∃ x, BinSearchSelect.select0 c r (.new s) k = .ok x ∧ StaleSelect w false old new k x) ∧
    ∀ v, ∃ x, BinSearchSelect.select c r (.new s) k v = .ok x ∧ StaleSelect w v old new k x :=
  ⟨select_stale hw h hlen hn hk true fun p hp => h.rank1 p (by omega) hp,
   select_stale hw h hlen hn hk false fun p hp => h.rank0 p (by omega) hp,
   fun v => select_stale hw h hlen hn hk v fun p hp => h.rank p v (by omega) hp⟩

end
/-- rank over bytes that have changed -/
def staleQuery (c : Cfg) (old new : List (BitVec 8)) (p : Nat) : Res Nat := do
  let j ← Jacobson.new c (vecBitVec c 8) old
  (Jacobson.ops c (vecBitVec c 8)).rank1 { j with bitStore := new } p

/-- and select on top of it -/
def staleSelect (c : Cfg) (old new : List (BitVec 8)) (k : Nat) : Res (Option Nat) := do
  let j ← Jacobson.new c (vecBitVec c 8) old
  (BinSearchSelect.ops c (Jacobson.ops c (vecBitVec c 8))).select1 (.new { j with bitStore := new }) k

/-- Ranks that go down from one block to the next, as the theorem says. -/
example (c : Cfg) : (List.range 24).map (staleQuery c [0x0f, 0xf0, 0xff] [0xff, 0x00, 0x55]) =
    [1, 2, 3, 4, 5, 6, 7, 8, 4, 4, 4, 4, 4, 4, 4, 4, 9, 9, 10, 10, 11, 11, 12, 12].map .ok := by
  cases c with | mk d p a => cases d <;> cases p <;> cases a <;> decide +kernel

example : (List.range 24).map (fun p =>
      ones (mixed 8 (arrayBits [0x0f#8, 0xf0#8, 0xff#8]) (arrayBits [0xff#8, 0x00#8, 0x55#8]) p) (p + 1)) =
    [1, 2, 3, 4, 5, 6, 7, 8, 4, 4, 4, 4, 4, 4, 4, 4, 9, 9, 10, 10, 11, 11, 12, 12] := by decide +kernel

/-- The ones of the first two blocks have moved within their blocks, those of the last block have changed: all ranks are right. -/
example (c : Cfg) : (List.range 24).map (staleQuery c [0x0f, 0xf0, 0xff] [0xf0, 0x0f, 0x55]) =
    (List.range 24).map fun p => .ok (ones (arrayBits [0xf0#8, 0x0f#8, 0x55#8]) (p + 1)) := by
  cases c with | mk d p a => cases d <;> cases p <;> cases a <;> decide +kernel

/-- Select may name the first place of a block although there is no one in the block. -/
example : staleSelect ⟨true, .p64, true⟩ [0xff#8, 0xff#8, 0xff#8] [0x01#8, 0x00#8, 0x00#8] 3 = .ok (some 8) ∧
    (arrayBits [0x01#8, 0x00#8, 0x00#8])[8]? = some false := by
  obtain ⟨j, hj, h⟩ := C153_jacobson (c := ⟨true, .p64, true⟩) isBlk8 (C12_block_array _ isBlk8).1 (C12_block_array _ isBlk8).2.1.toBVBlockRead
    (C12_block_array _ isBlk8).2.2.1 (s := [0xff#8, 0xff#8, 0xff#8]) (t := [0x01#8, 0x00#8, 0x00#8]) ⟨rfl, by decide⟩ ⟨rfl, by decide⟩
    (by decide) (by decide)
  refine ⟨?_, by decide⟩
  unfold staleSelect
  rw [hj, Res.ok_bind]
  obtain ⟨x, hx, hx'⟩ := (C153_select (c := ⟨true, .p64, true⟩) (by decide) h rfl (by decide) (k := 3) (by decide)).1
  refine hx.trans ?_
  cases x with
  | none => exact absurd hx' (by unfold StaleSelect; decide +kernel)
  | some d =>
    have : ∀ d < 24, StaleSelect 8 true (arrayBits [0xff#8, 0xff#8, 0xff#8]) (arrayBits [0x01#8, 0x00#8, 0x00#8]) 3 (some d) → d = 8 := by
      unfold StaleSelect; decide +kernel
    rw [this d hx'.1 hx']

/-! Each theorem of this file that has hypotheses is applied to concrete data in `Verif/Instances/Stale.lean`. -/

end Succinct
