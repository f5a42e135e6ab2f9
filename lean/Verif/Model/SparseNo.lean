import Verif.Model.Sparse

/-! # Model of the remaining parts of `hubbard_real_space/blaze_sparse_no.hpp` -/

set_option autoImplicit false

namespace Ieompp.RealSpace
variable {S : Type*} [Field S]

/-- hubbard_real_space/blaze_sparse_no.hpp:17-21. -/
def numberOfKineticElementsNo1 (N z : ℕ) : ℕ := N * z

/-- hubbard_real_space/blaze_sparse_no.hpp:36-66: `init_kinetic_matrix_no` for `Basis1Operator`. -/
def initKineticMatrixNo (sort : List (Triplet S) → List (Triplet S)) (N z : ℕ) (nb : ℕ → List ℕ) (J : S) : Res (Sparse S) :=
  Sparse.fillRows (fun row => some (sort ((nb row).map fun n => ⟨row, n, -J⟩))) (List.range N)
    (Sparse.init (basis1 N).length (numberOfKineticElementsNo1 N z))

end Ieompp.RealSpace
