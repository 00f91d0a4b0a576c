import Verif.Geneo
import Verif.Ddm
import Verif.LocalSolvers

/-! # Two-level set-up of the domain decomposition solver

Model of the life of an object `DDM` (`solvers/ddm.hpp`): `facto_one_level`, `build_coarse_space`, `solve` and `clean`, in any order. The calls are collective: one
state stands for all the processes. The matrices returned by the coarse space builder are arguments, the coarse operator is the one of `Verif/Geneo.lean`. What HPDDM
does with the vectors and the matrix it receives is not modelled, nor are the timings. -/

namespace Htool.TwoLevel
variable {R : Type*}

/-- The members of `DDM` on all the processes (ddm.hpp 36-46), with what HPDDM has received: `vecs r j` is the pointer `Z_ptr_ptr[j]` of process `r`
(`setVectors`, ddm.hpp 94-99), `coarse` the order and the entries of the matrix given to `buildTwo` by process 0 (ddm.hpp 112). `errors` counts the messages of level
`ERROR` logged by `solve`. `size` is the entry `GenEO_coarse_size` of `infos`. -/
structure St (R : Type*) where
  alive : Bool
  oneLevel : Bool
  twoLevel : Bool
  nevi : ℕ → ℕ
  vecs : ℕ → ℕ → Buf R
  coarse : Option (ℕ × (ℕ → ℕ → R))
  size : Option ℕ
  errors : ℕ

/-- After the constructor (ddm.hpp 59-63). -/
def St.init [Zero R] : St R := ⟨true, false, false, fun _ => 0, fun _ _ _ => 0, none, none, 0⟩

/-- Calls of the user. The argument of `coarseSpace` is what the coarse space builder returns on each process. -/
inductive Op (R : Type*) where
  | facto
  | coarseSpace (Z : ℕ → Mat R)
  | solve
  | clean

/-- The pointers `Z_ptr + i * m_size_w_overlap` (ddm.hpp 94-98); `n` is the size of the subdomain with its overlap. -/
def pointers (n : ℕ) (Z : Mat R) (j : ℕ) : Buf R := Z.data.from' (j * n)

/-- The reads `copy_n(Z[i], n_inside, …)` (coarse_operator_builder.hpp 42-45) stay in the memory of the matrix. -/
def InBounds (n nInside : ℕ) (Z : Mat R) : Prop := ∀ j < Z.nc, ∀ k < nInside, j * n + k < Z.nr * Z.nc

instance (n nInside : ℕ) (Z : Mat R) : Decidable (InBounds n nInside Z) := by unfold InBounds; infer_instance

variable [CommRing R] [StarRing R]

/-- One call (ddm.hpp 55-57, 65-77, 79-125, 127-133). `none` for undefined behaviour: a call after `clean`, which destroys the operator of HPDDM, or a read outside of
the matrix of the coarse space. The order of the coarse matrix is the sum of the numbers of vectors (coarse_operator_builder.hpp 38-39). -/
def step (D : DOp R) (X : Subdomains) (s : St R) : Op R → Option (St R)
  | .facto => if s.alive then some { s with oneLevel := true } else none
  | .coarseSpace Z =>
    if s.alive ∧ ∀ r < D.P, InBounds (X.N r) (D.tgt.size r) (Z r) then do
      let nevi := fun r => (Z r).nc
      let vecs := fun r => pointers (X.N r) (Z r)
      let E ← geneoCoarse D nevi vecs
      return { s with nevi := nevi, vecs := vecs, coarse := some (displs nevi D.P, E), size := some (displs nevi D.P), twoLevel := true }
    else none
  | .solve => if s.alive then some { s with errors := s.errors + if !s.oneLevel && s.twoLevel then 1 else 0 } else none
  | .clean => some { s with alive := false }

/-- A history of calls. -/
def run (D : DOp R) (X : Subdomains) : St R → List (Op R) → Option (St R)
  | s, [] => some s
  | s, o :: l => (step D X s o).bind fun s' => run D X s' l

/-- The matrix made of the vectors selected by GenEO (coarse_space_builder.hpp 81, 123-129, 173-179): a matrix of `n` rows, stored by columns. -/
def spaceMat (n : ℕ) (Z : ℕ × (ℕ → ℕ → R)) : Mat R := ⟨n, Z.1, fun p => Z.2 (p % n) (p / n)⟩

end Htool.TwoLevel
