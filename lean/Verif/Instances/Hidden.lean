import Verif.Instances.Data
import Verif.Props.Hidden
/-! `Verif.Props.Hidden`: each theorem applied to concrete data, see `Verif.Instances.Data`. -/
namespace Succinct.Ex
open Succinct Spec

example := C137_codes false (C62_gamma_delta cfg false).2 (C137_cache (bvBitVecPush cfg 8)) (bv_pushVec cfg isBlk8) fits_mono (s := ⟨bv, none⟩) ⟨rfl, fun _ _ h => by cases h⟩
    ((bv_reach cfg).rep isBlk8) [5, 38, 1] (by decide) (by decide) 2
example := C137_defaults cfg (C137_cache (bvBitVecPush cfg 8))
example := C137_jacobson cfg (C137_cache (bvBitVecPush cfg 8)).toAlike
example := C137_jacobson_correct isBlk8 (C137_cache (bvBitVecPush cfg 8)).toAlike (bv_law cfg isBlk8) (bv_block cfg isBlk8).toBVBlockRead (bv_pad cfg isBlk8)
    (s := ⟨bv, none⟩) ⟨rfl, fun _ _ h => by cases h⟩ ((bv_reach cfg).rep isBlk8) (by decide) (by decide) [.rank1 9, .rank0 4, .limit] [6, 2, 10] (by decide)
example := C137_rank9 cfg (C137_cache (bvBitVecPush cfg 64)).toAlike
example := C137_rank9_correct (C137_cache (bvBitVecPush cfg 64)).toAlike (bv_law cfg isBlk64) (bv_block cfg isBlk64).toBVBlockRead
    (s := ⟨bv70, none⟩) ⟨rfl, fun _ _ h => by cases h⟩ ((bv70_reach cfg).rep isBlk64) (by decide) [.rank1 66, .rank0 4, .limit] [23, 3, 70] (by decide +kernel)
example := C137_select cfg (C137_rank9 cfg (C137_cache (bvBitVecPush cfg 64)).toAlike).2 5
example := C137_select_correct (c := cfg) (S := Rank9 (Cached 64 (VB 64))) (R := Hidden.Rank9Rel (Cached.Rel (bvBitVec cfg 64))) (o := Rank9.ops cfg (bvBitVec cfg 64))
    (((C137_still cfg (w := 64)).2.2.2.1 (bvBitVec cfg 64)).2 ▸ (C137_rank9 cfg (C137_cache (bvBitVecPush cfg 64)).toAlike).2)
    (s := ⟨⟨bv70, none⟩, r9.counts⟩) (t := r9) ⟨⟨rfl, fun _ _ h => by cases h⟩, rfl⟩ r9_law (k := 5) (by decide) true
example := C137_slice_new (C137_cache (bvBitVecPush cfg 8)).toAlike (.range 2 9) (s := ⟨bv, none⟩) (t := bv) ⟨rfl, fun _ _ h => by cases h⟩

end Succinct.Ex
