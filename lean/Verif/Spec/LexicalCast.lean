import Verif.Model.Print
import Mathlib.Data.Rat.Defs
import Mathlib.Data.Rat.Cast.Order

/-! # Specification: decimal notation -/

set_option autoImplicit false

namespace Ieompp.Spec

open IO

/-- `ds` is a nonempty sequence of digits with value `n`: the digits are `d₀ … d₋₁` and `n = ∑ dᵢ 10^i` from the right. -/
inductive Digits : Text → ℕ → Prop
  | single (d : ℕ) (hd : d < 10) : Digits [Nat.digitChar d] d
  | snoc {ds : Text} {n : ℕ} (h : Digits ds n) (d : ℕ) (hd : d < 10) : Digits (ds ++ [Nat.digitChar d]) (10 * n + d)

/-- A sequence of digits that may be empty (with value 0). -/
def Digits0 (ds : Text) (n : ℕ) : Prop := ds = [] ∧ n = 0 ∨ Digits ds n

/-- `t` is a sign (or none) followed by `r`; `s` is the sign. -/
def Signed (t : Text) (s : ℤ) (r : Text) : Prop := s = 1 ∧ t = r ∨ s = 1 ∧ t = '+' :: r ∨ s = -1 ∧ t = '-' :: r

/-- `t` is the integer `z` in decimal notation. -/
def IntText (t : Text) (z : ℤ) : Prop := ∃ s r n, Signed t s r ∧ Digits r n ∧ z = s * n

/-- `t` is an exponent (or none): `e` or `E` and an integer. -/
def ExponentText (t : Text) (e : ℤ) : Prop := t = [] ∧ e = 0 ∨ ∃ r, (t = 'e' :: r ∨ t = 'E' :: r) ∧ IntText r e

/-- `t` is a number in decimal notation with value `x`: sign, digits, a point and digits (the point only if wanted, but at least one digit
in total), exponent. -/
def DecimalText (t : Text) (x : ℚ) : Prop :=
  ∃ s r ip i fp f ex e, Signed t s r ∧ Digits0 ip i ∧ Digits0 fp f ∧ ip ++ fp ≠ [] ∧ ExponentText ex e ∧
    (r = ip ++ '.' :: (fp ++ ex) ∨ fp = [] ∧ r = ip ++ ex) ∧ x = s * (i + f / 10 ^ fp.length) * 10 ^ e

end Ieompp.Spec
