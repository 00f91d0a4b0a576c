import Verif.HBuild
import Verif.Svd

/-! # The compressors of the library as low-rank generators of the builder

Constructor of `LowRankMatrix` (lrmat.hpp 25-33) around `fullACA`, `partialACA`, `sympartialACA` and `SVD`. -/

namespace Htool

/-- `LowRankMatrix(A, LRGenerator, t, s, rank, epsilon)` (lrmat.hpp 25-33): with a required rank 0 the factors are empty, otherwise the compressor is
called with default constructed matrices. `comp` is `copy_low_rank_approximation`. -/
def lrCtor {K : Type*} [Zero K] (reqrank : ℤ) (comp : (ℕ → ℕ → K) → (ℕ × ℕ) → (ℕ × ℕ) → Mat K → Mat K → ℤ × Mat K × Mat K) : LRGen K := fun gen t s =>
  let r : LR K := if reqrank = 0 then ⟨(Mat.mk' 0 0 0).resize t.2 0 0, (Mat.mk' 0 0 0).resize 0 s.2 0⟩
    else ⟨(comp gen t s (Mat.mk' 0 0 0) (Mat.mk' 0 0 0)).2.1, (comp gen t s (Mat.mk' 0 0 0) (Mat.mk' 0 0 0)).2.2⟩
  ⟨r.U.nc, r.U.nr, r.V.nc, r.U.get, r.V.get⟩

/-- The factors returned by a loop which ends (`fullACA`, `partialACA` and `sympartialACA` do: C29, C30). -/
def acaResult {K : Type*} (U V : Mat K) (r : Option (ℤ × Mat K × Mat K)) : ℤ × Mat K × Mat K := r.getD (-1, U, V)

/-- Low-rank generator of the builder with `fullACA` (fullACA.hpp 45-92). -/
def lrFullACA {K F : Type*} [Field K] [StarRing K] [Field F] [LinearOrder F] [IsStrictOrderedRing F] (μ : Modulus K F) (eps : F) (reqrank : ℤ) : LRGen K :=
  lrCtor reqrank fun gen t s U V => acaResult U V (fullACA μ gen t s eps reqrank U V)

/-- Low-rank generator of the builder with `SVD` (SVD.hpp 22-61). -/
noncomputable def lrSVD {𝕜 : Type*} [RCLike 𝕜] (gesvd : Mat 𝕜 → SVDOut 𝕜) (eps : ℝ) (reqrank : ℤ) : LRGen 𝕜 :=
  lrCtor reqrank fun gen t s U V => svdGen gesvd gen t s eps reqrank U V

end Htool
