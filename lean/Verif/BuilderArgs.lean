import Verif.Logger
import Verif.BlockTree

/-! # Arguments of `HMatrixTreeBuilder`

Model of the checks of `include/htool/hmatrix/tree_builder/tree_builder.hpp` 129-146 (constructor) and 166-171 (`set_block_tree_consistency`). They only write messages:
the arguments are kept as they are given. `int` is 32 bits (hypotheses of the theorems), `std::size_t` 64 bits. The symmetry and storage flags are `char`, here `Char`. -/

namespace Htool.BuilderArgs
open Log

/-- Arguments of the constructor (tree_builder.hpp 129) which are checked: the type of the coefficients (`is_complex`), the two flags and the two partition numbers. -/
structure Args where
  cplx : Bool
  sym : Char
  uplo : Char
  tp : ℤ
  ps : ℤ

/-- Conversion of an `int` to `std::size_t`, made by the comparison with `size()` (tree_builder.hpp 140, 143). -/
def toSize (z : ℤ) : ℕ := (z % 2 ^ 64).toNat

/-- The condition on the flags (tree_builder.hpp 130-133). -/
def flagsOK (a : Args) : Bool :=
  ((a.sym == 'N' || a.sym == 'H' || a.sym == 'S')
    && (a.uplo == 'N' || a.uplo == 'L' || a.uplo == 'U')
    && ((a.sym == 'N' && a.uplo == 'N') || (a.sym != 'N' && a.uplo != 'N'))
    && ((a.sym == 'H' && a.cplx) || a.sym != 'H'))

/-- The message about the flags (tree_builder.hpp 134-137). -/
def flagsMessage (a : Args) : String :=
  "[Htool error] Invalid arguments to create HMatrix: m_symmetry_type=".push a.sym ++ " and m_UPLO_type=".push a.uplo

/-- The calls of the logger made by the constructor (tree_builder.hpp 130-145); `nparts` is `m_target_root_cluster.get_clusters_on_partition().size()`. -/
def construct (a : Args) (nparts : ℕ) : List Call :=
  (if !flagsOK a then [.log error (flagsMessage a)] else []) ++
  (if a.tp ≠ -1 ∧ nparts ≤ toSize a.tp then [.log error "Target partition number cannot exceed number of partitions"] else []) ++
  (if a.ps ≠ -1 ∧ nparts ≤ toSize a.ps then [.log error "Partition number for symmetry cannot exceed number of partitions"] else [])

/-- `set_block_tree_consistency` (tree_builder.hpp 166-171): the calls of the logger, and the value of `m_is_block_tree_consistent`. -/
def setConsistency (a : Args) (b : Bool) : List Call × Bool :=
  (if a.sym ≠ 'N' ∧ b = false then [.log error "Block tree consistency cannot be set to false if symmetry is not N."] else [], b)

/-- The constructor followed by calls of `set_block_tree_consistency`: calls of the logger and `m_is_block_tree_consistent`, initially `true` (tree_builder.hpp 60). -/
def configure (a : Args) (nparts : ℕ) (bs : List Bool) : List Call × Bool :=
  bs.foldl (fun s b => (s.1 ++ (setConsistency a b).1, (setConsistency a b).2)) (construct a nparts, true)

/-- The flags as `build` uses them: it compares `m_symmetry_type` with 'N' (tree_builder.hpp 72, 102) and hands it to the blocks; other characters than 'H' are taken
as 'S' here (the two are not distinguished by the block structure). -/
def symOf (c : Char) : SymType := if c = 'N' then .N else if c = 'H' then .H else .S

/-- `m_UPLO_type` is compared with 'U' and 'L' (tree_builder.hpp 73, 80). -/
def uploOf (c : Char) : UploType := if c = 'U' then .U else if c = 'L' then .L else .N

/-- A partition number is compared with -1 (tree_builder.hpp 69, 75, 82, 89) and otherwise used as an index. -/
def partOf (z : ℤ) : Option ℕ := if z = -1 then none else some (toSize z)

/-- The parameters seen by `build` (tree_builder.hpp 36-60) come from the arguments and setters as they are. -/
def Configured {G : Type*} (a : Args) (bs : List Bool) (E : BEnv G) : Prop :=
  E.sym = symOf a.sym ∧ E.uplo = uploOf a.uplo ∧ E.tp = partOf a.tp ∧ E.psym = partOf a.ps ∧
    E.consistent = (configure a E.tct.parts.length bs).2

end Htool.BuilderArgs
