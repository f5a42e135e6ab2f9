import Verif.Spec.MomentumFloat
import Verif.Model.Extended

/-! # Specification for C135: the Fermi sea of energies that need not be finite -/

set_option autoImplicit false

namespace Ieompp.Spec

open Classical in
/-- Both spins of every momentum `k < N` whose energy is below 0: minus infinity is, NaN is not. -/
noncomputable def seaOfX (N : ℕ) (e : ℕ → Ext) : Finset Mode :=
  ((Finset.range N).filter fun k => Ext.Lt (e k) (.fin 0)).biUnion fun k => {toLex (k, true), toLex (k, false)}

end Ieompp.Spec
