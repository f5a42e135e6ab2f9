import Verif.Model.Basic
import Verif.Model.Triplet
import Verif.Model.HubbardBasis
import Mathlib.Algebra.Field.Defs

/-!
# Model of the assembly of the sparse Liouvillian matrices

`include/ieompp/models/hubbard_real_space/blaze_sparse.hpp`,
`include/ieompp/models/hubbard_real_space/blaze_sparse_no.hpp`,
`include/ieompp/models/hubbard_momentum_space/blaze_sparse.hpp`.

`blaze::CompressedMatrix` is not part of the repository. It is modelled by the documented contract of its
low-level interface: rows are filled in order, `append(i, j, v)` requires that `j` is in range, strictly larger
than every column already in row `i`, and that the capacity reserved by `reserve` is not exhausted;
`finalize(i)` closes row `i`. A violated requirement is undefined behaviour. The lattice enters through
`nb = lattice.neighbors`, its size `N` and `z = Lattice::coordination_number`; `std::sort` enters as any function
`sort` that meets its contract. Scalars are elements of a field.
-/

set_option autoImplicit false

namespace Ieompp

/-- A row-major compressed matrix that is being filled: closed rows, and the row being filled.
blaze_sparse.hpp:45-62 (blaze library type). -/
structure Sparse (S : Type*) where
  rows : ℕ
  columns : ℕ
  capacity : ℕ
  done : List (List (ℕ × S))
  cur : List (ℕ × S)

namespace Sparse
variable {S : Type*}

/-- `matrix.resize(n, n, false); matrix.reset(); matrix.reserve(capacity);`. blaze_sparse.hpp:45-47, 76-79. -/
def init (n capacity : ℕ) : Sparse S := ⟨n, n, capacity, [], []⟩

/-- Number of stored elements. Library function, bounded by the argument of blaze_sparse.hpp:47, 78. -/
def nonZeros (m : Sparse S) : ℕ := (m.done.map List.length).sum + m.cur.length

/-- Contract of `append(row, col, v)`. blaze_sparse.hpp:60, 95, 134 (blaze library function). -/
def append (m : Sparse S) (row col : ℕ) (v : S) : Res (Sparse S) :=
  if row = m.done.length ∧ row < m.rows ∧ col < m.columns ∧ (∀ e ∈ m.cur, e.1 < col) ∧ m.nonZeros < m.capacity then
    .val { m with cur := m.cur ++ [(col, v)] }
  else .ub

/-- Contract of `finalize(row)`. blaze_sparse.hpp:62, 97, 136 (blaze library function). -/
def finalize (m : Sparse S) (row : ℕ) : Res (Sparse S) :=
  if row = m.done.length ∧ row < m.rows then .val { m with done := m.done ++ [m.cur], cur := [] } else .ub

/-- `matrix(i, j)`: the stored element of a closed row, or zero.
Library function, with which a user reads the matrix of blaze_sparse.hpp:35-138. -/
def get [Zero S] (m : Sparse S) (i j : ℕ) : S :=
  match (m.done.getD i []).find? (fun e => e.1 = j) with
  | some e => e.2
  | none => 0

/-- hubbard_real_space/blaze_sparse.hpp:59-61 (and 94-96, 133-135): append every triplet. -/
def appendAll (m : Sparse S) (row : ℕ) : List (Triplet S) → Res (Sparse S)
  | [] => .val m
  | t :: ts => (m.append row t.column t.value).bind fun m => m.appendAll row ts

/-- The loop over the rows: build the triplets of each row (`none`: undefined behaviour), append, close.
blaze_sparse.hpp:50-63, 82-98, 100-137. -/
def fillRows (triplets : ℕ → Option (List (Triplet S))) : List ℕ → Sparse S → Res (Sparse S)
  | [], m => .val m
  | row :: rows, m =>
    match triplets row with
    | some l => (m.appendAll row l).bind fun m => (m.finalize row).bind fun m => fillRows triplets rows m
    | none => .ub

end Sparse

namespace RealSpace
variable {S : Type*} [Field S]

/-- hubbard_real_space/blaze_sparse.hpp:16-20. -/
def numberOfKineticElements1 (N z : ℕ) : ℕ := N * z
/-- hubbard_real_space/blaze_sparse.hpp:22-27. -/
def numberOfKineticElements3 (N z : ℕ) : ℕ := N * z + N * (N * N) * 6 * z
/-- hubbard_real_space/blaze_sparse.hpp:29-33. -/
def numberOfInteractionElements (N : ℕ) : ℕ := (basis3 N).length * 2

/-- hubbard_real_space/blaze_sparse.hpp:53-56: triplets of a row of the kinetic matrix. -/
def kineticTriplets (nb : ℕ → List ℕ) (J : S) (row : ℕ) : List (Triplet S) :=
  (nb row).map fun n => ⟨row, n, -J⟩

/-- hubbard_real_space/blaze_sparse.hpp:35-64: `init_kinetic_matrix` for `Basis1Operator`. -/
def initKineticMatrix (sort : List (Triplet S) → List (Triplet S)) (N z : ℕ) (nb : ℕ → List ℕ) (J : S) :
    Res (Sparse S) :=
  Sparse.fillRows (fun row => some (sort (kineticTriplets nb J row))) (List.range N)
    (Sparse.init (basis1 N).length (numberOfKineticElements1 N z))

/-- hubbard_real_space/blaze_sparse.hpp:83-90: triplets of a one-operator row. -/
def oneTriplets (N : ℕ) (nb : ℕ → List ℕ) (J U : S) (row : ℕ) : List (Triplet S) :=
  (nb row).map (fun n => ⟨row, n, -J⟩) ++ [⟨row, row, U / 2⟩, ⟨row, get3opIndex N row row row, U / 2⟩]

/-- hubbard_real_space/blaze_sparse.hpp:104-130: triplets of a three-operator row whose monomial has the sites
`a`, `b`, `c`. -/
def threeTriplets (N : ℕ) (nb : ℕ → List ℕ) (J U : S) (row a b c : ℕ) : List (Triplet S) :=
  (nb a).map (fun n => ⟨row, get3opIndex N n b c, -J⟩) ++
  (nb b).map (fun n => ⟨row, get3opIndex N a n c, -J⟩) ++
  (nb c).map (fun n => ⟨row, get3opIndex N a b n, J⟩) ++
  (if a = b ∧ a = c then [⟨row, a, U / 2⟩] else []) ++
  [⟨row, row, U / 2⟩]

/-- `monomial[0].index1`, `monomial[1].index1`, `monomial[2].index1` of `basis[row]`; out of range is
undefined. blaze_sparse.hpp:103-128. -/
def basisSites (basis : List HMonomial) (row : ℕ) : Option (ℕ × ℕ × ℕ) :=
  basis[row]?.bind fun m => m[0]?.bind fun x => m[1]?.bind fun y => m[2]?.bind fun w =>
    some (x.index.1, y.index.1, w.index.1)

/-- hubbard_real_space/blaze_sparse.hpp:81-137: the triplets of a row of the complete matrix, before sorting. -/
def rowTriplets (N : ℕ) (nb : ℕ → List ℕ) (J U : S) (row : ℕ) : Option (List (Triplet S)) :=
  if row < N then some (oneTriplets N nb J U row)
  else (basisSites (basis3 N) row).map fun s => threeTriplets N nb J U row s.1 s.2.1 s.2.2

/-- hubbard_real_space/blaze_sparse.hpp:66-138: `init_matrix` for `Basis3Operator`. -/
def initMatrix (sort : List (Triplet S) → List (Triplet S)) (N z : ℕ) (nb : ℕ → List ℕ) (J U : S) :
    Res (Sparse S) :=
  Sparse.fillRows (fun row => (rowTriplets N nb J U row).map sort) (List.range (basis3 N).length)
    (Sparse.init (basis3 N).length (numberOfKineticElements3 N z + numberOfInteractionElements N))

/-! ### The normal-ordered variant -/

/-- hubbard_real_space/blaze_sparse_no.hpp:23-28. -/
def numberOfKineticElementsNo3 (N z : ℕ) : ℕ := N * z + ((basis3 N).length - N) * 6 * z
/-- hubbard_real_space/blaze_sparse_no.hpp:30-34. -/
def numberOfInteractionElementsNo (N : ℕ) : ℕ := N * 2 + ((basis3 N).length - N) * 8

/-- hubbard_real_space/blaze_sparse_no.hpp:89-96: triplets of a one-operator row. `ev` is `expectation_value`. -/
def oneTripletsNo (N : ℕ) (nb : ℕ → List ℕ) (J U : S) (ev : ℕ → ℕ → S) (row : ℕ) : List (Triplet S) :=
  (nb row).map (fun n => ⟨row, n, -J⟩) ++
  [⟨row, row, U⟩, ⟨row, get3opIndex N row row row, U * ev row row⟩]

/-- hubbard_real_space/blaze_sparse_no.hpp:137-140: the lambda `expectation_value_conj`. -/
def evConj (ev : ℕ → ℕ → S) (a b : ℕ) : S := (if a = b then 1 else 0) - ev b a

/-- hubbard_real_space/blaze_sparse_no.hpp:119-157: triplets of a three-operator row. -/
def threeTripletsNo (N : ℕ) (nb : ℕ → List ℕ) (J U : S) (ev : ℕ → ℕ → S) (row a b c : ℕ) : List (Triplet S) :=
  (nb a).map (fun n => ⟨row, get3opIndex N n b c, -J⟩) ++
  (nb b).map (fun n => ⟨row, get3opIndex N a n c, -J⟩) ++
  (nb c).map (fun n => ⟨row, get3opIndex N a b n, J⟩) ++
  [⟨row, a, U * ev b a * evConj ev c a⟩, ⟨row, b, U * evConj ev b a * ev b c⟩, ⟨row, c, -U * ev c a * ev b c⟩] ++
  [⟨row, row, U * ev a a⟩, ⟨row, get3opIndex N a a c, -U * ev b a⟩, ⟨row, get3opIndex N a b a, U * evConj ev c a⟩] ++
  (if b ≠ c then [⟨row, get3opIndex N b b c, U * ev b a⟩, ⟨row, get3opIndex N c b c, -U * ev c a⟩] else [])

/-- hubbard_real_space/blaze_sparse_no.hpp:85-162: the triplets appended for a row: sorted for the one-operator
rows, sorted and made unique for the three-operator rows. -/
def rowTripletsNo (sort : List (Triplet S) → List (Triplet S)) (isZero : S → Bool) (N : ℕ) (nb : ℕ → List ℕ)
    (J U : S) (ev : ℕ → ℕ → S) (row : ℕ) : Option (List (Triplet S)) :=
  if row < N then some (sort (oneTripletsNo N nb J U ev row))
  else (basisSites (basis3 N) row).bind fun s =>
    TripletList.makeColumnsUnique isZero (sort (threeTripletsNo N nb J U ev row s.1 s.2.1 s.2.2))

/-- hubbard_real_space/blaze_sparse_no.hpp:68-169: `init_matrix_no`. -/
def initMatrixNo (sort : List (Triplet S) → List (Triplet S)) (isZero : S → Bool) (N z : ℕ) (nb : ℕ → List ℕ)
    (J U : S) (ev : ℕ → ℕ → S) : Res (Sparse S) :=
  Sparse.fillRows (rowTripletsNo sort isZero N nb J U ev) (List.range (basis3 N).length)
    (Sparse.init (basis3 N).length (numberOfKineticElementsNo3 N z + numberOfInteractionElementsNo N))

end RealSpace

namespace MomentumSpace
variable {S : Type*} [Field S]

/-- hubbard_momentum_space/blaze_sparse.hpp:16-20: `number_of_matrix_elements`. -/
def numberOfMatrixElements (N : ℕ) : ℕ := N * (1 + 3 * N)

/-- hubbard_momentum_space/blaze_sparse.hpp:38-45, 48-59: the elements appended to a row, in program order
(there is no sorting here). `eps` is `liouvillian.dispersion`, `N` is `lattice.size()`. -/
def rowTriplets (basis : List HMonomial) (eps : ℕ → S) (U : S) (N row : ℕ) : Option (List (Triplet S)) :=
  let interaction1 := U / 2
  let interaction2 := U / (2 * (N : S))
  if row = 0 then
    basis[0]?.bind fun m => m[0]?.map fun op =>
      ⟨0, 0, eps op.index.1 + interaction1⟩ ::
        (List.range' 1 (basis.length - 1)).map (fun i => ⟨0, i, interaction2⟩)
  else
    (RealSpace.basisSites basis row).map fun s =>
      [⟨row, 0, interaction2⟩, ⟨row, row, eps s.1 + eps s.2.1 - eps s.2.2 + interaction1⟩]

/-- hubbard_momentum_space/blaze_sparse.hpp:22-62: `init_matrix`. `Nb` is `basis.N`. -/
def initMatrix (basis : List HMonomial) (Nb : ℕ) (eps : ℕ → S) (U : S) (N : ℕ) : Res (Sparse S) :=
  Sparse.fillRows (rowTriplets basis eps U N) (List.range basis.length)
    (Sparse.init basis.length (numberOfMatrixElements Nb))

end MomentumSpace

end Ieompp
