import Verif.Spec.ExtendedArithmetic

/-!
# The arithmetic of numbers, infinities and NaN against the extended real numbers

The operations of `Model/Extended` and `Model/ExtendedProgram`, on which C128, C129, C133 and C134 rest, compared with the extended reals of Mathlib and with the
properties which the C standard (Annex G) demands of the product of complex numbers.
-/

set_option autoImplicit false
set_option linter.unusedSectionVars false

namespace Ieompp

open Spec

/-- The comparisons are those of the extended reals; comparisons with NaN are false. -/
theorem Ext.order_stands {a b : Ext} {v w : EReal} (ha : Stands a v) (hb : Stands b w) : (Ext.Lt a b ↔ v < w) ∧ (Ext.Ge a b ↔ w ≤ v) := by
  rcases a with x | s | _ <;> rcases b with y | r | _ <;> try cases s
  all_goals try cases r
  all_goals simp only [Stands] at ha hb
  all_goals subst ha hb; simp [Ext.Lt, Ext.Ge]

theorem Ext.order_nan (a : Ext) : ¬ Ext.Lt a .nan ∧ ¬ Ext.Lt .nan a ∧ ¬ Ext.Ge a .nan ∧ ¬ Ext.Ge .nan a := by
  cases a <;> simp [Ext.Lt, Ext.Ge]

/-- The sum is that of the extended reals, unless infinities of both signs are added: then it is NaN. -/
theorem Ext.add_stands {a b : Ext} {v w : EReal} (ha : Stands a v) (hb : Stands b w) :
    ((v = ⊤ ∧ w = ⊥ ∨ v = ⊥ ∧ w = ⊤) → Ext.add exact a b = .nan) ∧ (¬ (v = ⊤ ∧ w = ⊥ ∨ v = ⊥ ∧ w = ⊤) → Stands (Ext.add exact a b) (v + w)) := by
  rcases a with x | s | _ <;> rcases b with y | r | _ <;> try cases s
  all_goals try cases r
  all_goals simp only [Stands] at ha hb
  all_goals subst ha hb; simp [Ext.add, Ext.round, Stands, EReal.coe_add]

/-- The product is that of the extended reals, unless zero and an infinity are multiplied: then it is NaN. -/
theorem Ext.mul_stands {a b : Ext} {v w : EReal} (ha : Stands a v) (hb : Stands b w) :
    ((v = 0 ∧ (w = ⊤ ∨ w = ⊥) ∨ (v = ⊤ ∨ v = ⊥) ∧ w = 0) → Ext.mul exact a b = .nan) ∧
      (¬ (v = 0 ∧ (w = ⊤ ∨ w = ⊥) ∨ (v = ⊤ ∨ v = ⊥) ∧ w = 0) → Stands (Ext.mul exact a b) (v * w)) := by
  have hs : ∀ z : ℝ, z ≠ 0 → (z < 0 ∧ (z : EReal) * ⊤ = ⊥ ∧ (z : EReal) * ⊥ = ⊤ ∧ (⊤ : EReal) * z = ⊥ ∧ (⊥ : EReal) * z = ⊤) ∨
      (¬ z < 0 ∧ (z : EReal) * ⊤ = ⊤ ∧ (z : EReal) * ⊥ = ⊥ ∧ (⊤ : EReal) * z = ⊤ ∧ (⊥ : EReal) * z = ⊥) := by
    intro z hz
    rcases lt_or_gt_of_ne hz with h | h
    · exact .inl ⟨h, EReal.coe_mul_top_of_neg h, EReal.coe_mul_bot_of_neg h, EReal.top_mul_coe_of_neg h, EReal.bot_mul_coe_of_neg h⟩
    · exact .inr ⟨not_lt.2 h.le, EReal.coe_mul_top_of_pos h, EReal.coe_mul_bot_of_pos h, EReal.top_mul_coe_of_pos h, EReal.bot_mul_coe_of_pos h⟩
  rcases a with x | s | _ <;> rcases b with y | r | _ <;> try cases s
  all_goals try cases r
  all_goals simp only [Stands] at ha hb
  all_goals subst ha hb
  · simp [Ext.mul, Ext.round, Stands, EReal.coe_mul]
  · by_cases hx : x = 0
    · simp [Ext.mul, hx]
    · rcases hs x hx with ⟨h1, h2, h3, h4, h5⟩ | ⟨h1, h2, h3, h4, h5⟩ <;> simp [Ext.mul, hx, h1, h2, Stands]
  · by_cases hx : x = 0
    · simp [Ext.mul, hx]
    · rcases hs x hx with ⟨h1, h2, h3, h4, h5⟩ | ⟨h1, h2, h3, h4, h5⟩ <;> simp [Ext.mul, hx, h1, h3, Stands]
  · by_cases hx : y = 0
    · simp [Ext.mul, hx]
    · rcases hs y hx with ⟨h1, h2, h3, h4, h5⟩ | ⟨h1, h2, h3, h4, h5⟩ <;> simp [Ext.mul, hx, h1, h4, Stands]
  · by_cases hx : y = 0
    · simp [Ext.mul, hx]
    · rcases hs y hx with ⟨h1, h2, h3, h4, h5⟩ | ⟨h1, h2, h3, h4, h5⟩ <;> simp [Ext.mul, hx, h1, h5, Stands]
  · simp [Ext.mul, Stands]
  · simp [Ext.mul, Stands]
  · simp [Ext.mul, Stands]
  · simp [Ext.mul, Stands]

/-- The quotient is that of the extended reals, unless the divisor is zero or both are infinite. Infinity by infinity and zero by zero are NaN; another number by zero is an
infinity. -/
theorem Ext.div_stands {a b : Ext} {v w : EReal} (ha : Stands a v) (hb : Stands b w) :
    (((v = 0 ∧ w = 0) ∨ (v = ⊤ ∨ v = ⊥) ∧ (w = ⊤ ∨ w = ⊥)) → Ext.div exact a b = .nan) ∧
      ((w = 0 ∧ v < 0) → Ext.div exact a b = .inf true) ∧ ((w = 0 ∧ 0 < v) → Ext.div exact a b = .inf false) ∧
      (w ≠ 0 → ¬ ((v = ⊤ ∨ v = ⊥) ∧ (w = ⊤ ∨ w = ⊥)) → Stands (Ext.div exact a b) (v / w)) := by
  have hs : ∀ z : ℝ, z ≠ 0 → (z < 0 ∧ (⊤ : EReal) / z = ⊥ ∧ (⊥ : EReal) / z = ⊤) ∨ (¬ z < 0 ∧ (⊤ : EReal) / z = ⊤ ∧ (⊥ : EReal) / z = ⊥) := by
    intro z hz
    rcases lt_or_gt_of_ne hz with h | h
    · have h' : z⁻¹ < 0 := inv_lt_zero.2 h
      refine .inl ⟨h, ?_, ?_⟩
      · rw [EReal.div_eq_inv_mul, ← EReal.coe_inv]; exact EReal.coe_mul_top_of_neg h'
      · rw [EReal.div_eq_inv_mul, ← EReal.coe_inv]; exact EReal.coe_mul_bot_of_neg h'
    · have h' : 0 < z⁻¹ := inv_pos.2 h
      refine .inr ⟨not_lt.2 h.le, ?_, ?_⟩
      · rw [EReal.div_eq_inv_mul, ← EReal.coe_inv]; exact EReal.coe_mul_top_of_pos h'
      · rw [EReal.div_eq_inv_mul, ← EReal.coe_inv]; exact EReal.coe_mul_bot_of_pos h'
  rcases a with x | s | _ <;> rcases b with y | r | _ <;> try cases s
  all_goals try cases r
  all_goals simp only [Stands] at ha hb
  all_goals subst ha hb
  · by_cases hy : y = 0
    · subst hy
      refine ⟨fun h => ?_, fun h => ?_, fun h => ?_, fun h => ?_⟩
      · rcases h with ⟨h, -⟩ | ⟨h, -⟩
        · have h : x = 0 := by exact_mod_cast h
          simp [Ext.div, h]
        · simp at h
      · have h : x < 0 := by exact_mod_cast h.2
        simp [Ext.div, h, h.ne]
      · have h : 0 < x := by exact_mod_cast h.2
        simp [Ext.div, h.ne', h.le]
      · exact absurd rfl h
    · have hy' : (y : EReal) ≠ 0 := by exact_mod_cast hy
      simp [Ext.div, hy, Ext.round, Stands, EReal.coe_div]
  · simp [Ext.div, Stands]
  · simp [Ext.div, Stands]
  · by_cases hy : y = 0
    · simp [Ext.div, hy]
    · rcases hs y hy with ⟨h1, h2, h3⟩ | ⟨h1, h2, h3⟩ <;> simp [Ext.div, hy, h1, h2, Stands]
  · by_cases hy : y = 0
    · simp [Ext.div, hy]
    · rcases hs y hy with ⟨h1, h2, h3⟩ | ⟨h1, h2, h3⟩ <;> simp [Ext.div, hy, h1, h3, Stands]
  · simp [Ext.div]
  · simp [Ext.div]
  · simp [Ext.div]
  · simp [Ext.div]

/-- NaN stays. -/
theorem Ext.nan_stays (rnd : ℝ → Res ℝ) (a : Ext) : Ext.add rnd a .nan = .nan ∧ Ext.add rnd .nan a = .nan ∧ Ext.mul rnd a .nan = .nan ∧ Ext.mul rnd .nan a = .nan ∧
    Ext.div rnd a .nan = .nan ∧ Ext.div rnd .nan a = .nan := by
  cases a <;> exact ⟨rfl, rfl, rfl, rfl, rfl, rfl⟩

/-! ### Complex numbers -/

open ExtC (isInf isNan)

/-- The product of finite numbers is the usual one. -/
theorem ExtC.mul_finite (a b c d : ℝ) : ExtC.mul exact ⟨.fin a, .fin b⟩ ⟨.fin c, .fin d⟩ = ⟨.fin (a * c - b * d), .fin (a * d + b * c)⟩ := by
  simp [ExtC.mul, ExtC.plainMul, Ext.mul, Ext.sub, Ext.neg, Ext.add, Ext.round, isNan, sub_eq_add_neg]

theorem inf_mul_infinite {a b : ℝ} (h : a ≠ 0 ∨ b ≠ 0) : InfiniteC ⟨Ext.mul exact (.inf false) (.fin a), Ext.mul exact (.inf false) (.fin b)⟩ := by
  rcases h with h | h
  · exact .inl ⟨_, if_neg h⟩
  · exact .inr ⟨_, if_neg h⟩

/-- The product of numbers that are not zero is not zero. -/
theorem parts_ne_zero {a b c d : ℝ} (h : a ≠ 0 ∨ b ≠ 0) (h' : c ≠ 0 ∨ d ≠ 0) : a * c - b * d ≠ 0 ∨ a * d + b * c ≠ 0 := by
  by_contra hc
  push Not at hc
  have e : (a ^ 2 + b ^ 2) * (c ^ 2 + d ^ 2) = (a * c - b * d) ^ 2 + (a * d + b * c) ^ 2 := by ring
  rw [hc.1, hc.2] at e
  have p : ∀ x y : ℝ, x ≠ 0 ∨ y ≠ 0 → 0 < x ^ 2 + y ^ 2 := by
    intro x y hxy
    rcases hxy with hx | hy
    · have := sq_pos_of_ne_zero hx; positivity
    · have := sq_pos_of_ne_zero hy; positivity
  have := mul_pos (p a b h) (p c d h')
  norm_num at e
  rcases e with e | e <;> simp [e] at this

/-- A part of `recover`: the units that replace an infinite operand are not both zero. -/
theorem box_ne_zero {z : ExtC} (h : InfiniteC z) : ∃ a b, ExtC.box z.re = .fin a ∧ ExtC.box z.im = .fin b ∧ (a ≠ 0 ∨ b ≠ 0) := by
  rcases z with ⟨x, y⟩
  rcases h with ⟨s, h⟩ | ⟨s, h⟩
  · subst h
    cases y with
    | fin y => exact ⟨_, _, rfl, rfl, .inl (by cases s <;> simp)⟩
    | inf r => exact ⟨_, _, rfl, rfl, .inl (by cases s <;> simp)⟩
    | nan => exact ⟨_, _, rfl, rfl, .inl (by cases s <;> simp)⟩
  · subst h
    cases x with
    | fin y => exact ⟨_, _, rfl, rfl, .inr (by cases s <;> simp)⟩
    | inf r => exact ⟨_, _, rfl, rfl, .inr (by cases s <;> simp)⟩
    | nan => exact ⟨_, _, rfl, rfl, .inr (by cases s <;> simp)⟩

theorem isInf_iff (z : ExtC) : (isInf z.re || isInf z.im) = true ↔ InfiniteC z := by
  rcases z with ⟨x, y⟩
  cases x <;> cases y <;> simp [isInf, InfiniteC]

theorem unNan_fin (x : Ext) (h : ∀ s, x ≠ .inf s) : ∃ a, ExtC.unNan x = .fin a := by
  cases x with
  | fin x => exact ⟨x, rfl⟩
  | inf s => exact absurd rfl (h s)
  | nan => exact ⟨0, rfl⟩

/-- Every sum with an infinity or NaN in it is an infinity or NaN. -/
theorem Ext.add_special (a b : Ext) (h : (∀ x, a ≠ .fin x) ∨ ∀ x, b ≠ .fin x) : (∃ s, Ext.add exact a b = .inf s) ∨ Ext.add exact a b = .nan := by
  cases a with
  | fin x => cases b with
    | fin y => rcases h with h | h <;> exact absurd rfl (h _)
    | inf r => exact .inl ⟨r, rfl⟩
    | nan => exact .inr rfl
  | inf s => cases b with
    | fin y => exact .inl ⟨s, rfl⟩
    | inf r =>
      by_cases e : s = r
      · exact .inl ⟨s, if_pos e⟩
      · exact .inr (if_neg e)
    | nan => exact .inr rfl
  | nan => exact .inr (by cases b <;> rfl)

theorem Ext.mul_inf_not_fin (s : Bool) (a : Ext) : (∀ x, Ext.mul exact (.inf s) a ≠ .fin x) ∧ ∀ x, Ext.mul exact a (.inf s) ≠ .fin x := by
  cases a with
  | fin y => by_cases e : y = 0 <;> simp [Ext.mul, e]
  | inf r => simp [Ext.mul]
  | nan => simp [Ext.mul]

theorem Ext.neg_not_fin {a : Ext} (h : ∀ x, a ≠ .fin x) : ∀ x, Ext.neg a ≠ .fin x := by
  cases a with
  | fin y => exact absurd rfl (h y)
  | inf r => simp [Ext.neg]
  | nan => simp [Ext.neg]

/-- Both parts of the plain product of an infinite number and another are infinities or NaN. -/
theorem plainMul_special {x y : ExtC} (h : InfiniteC x ∨ InfiniteC y) :
    ((∃ s, (ExtC.plainMul exact x y).re = .inf s) ∨ (ExtC.plainMul exact x y).re = .nan) ∧
      ((∃ s, (ExtC.plainMul exact x y).im = .inf s) ∨ (ExtC.plainMul exact x y).im = .nan) := by
  unfold ExtC.plainMul Ext.sub
  rcases h with (⟨s, h⟩ | ⟨s, h⟩) | (⟨s, h⟩ | ⟨s, h⟩) <;> rw [h]
  · exact ⟨Ext.add_special _ _ (.inl (Ext.mul_inf_not_fin s _).1), Ext.add_special _ _ (.inl (Ext.mul_inf_not_fin s _).1)⟩
  · exact ⟨Ext.add_special _ _ (.inr (Ext.neg_not_fin (Ext.mul_inf_not_fin s _).1)), Ext.add_special _ _ (.inr (Ext.mul_inf_not_fin s _).1)⟩
  · exact ⟨Ext.add_special _ _ (.inl (Ext.mul_inf_not_fin s _).2), Ext.add_special _ _ (.inr (Ext.mul_inf_not_fin s _).2)⟩
  · exact ⟨Ext.add_special _ _ (.inr (Ext.neg_not_fin (Ext.mul_inf_not_fin s _).2)), Ext.add_special _ _ (.inl (Ext.mul_inf_not_fin s _).2)⟩

/-- `z` is an infinity, or it is finite and not zero (Annex G.5.1). -/
def NotZero (z : ExtC) : Prop := InfiniteC z ∨ ∃ c d : ℝ, z = ⟨.fin c, .fin d⟩ ∧ (c ≠ 0 ∨ d ≠ 0)

theorem recover_nonzero {x y : ExtC} (h : InfiniteC x ∨ InfiniteC y) (hx : NotZero x) (hy : NotZero y) :
    ∃ a b c d : ℝ, ExtC.recover exact x y = some (⟨.fin a, .fin b⟩, ⟨.fin c, .fin d⟩) ∧ (a ≠ 0 ∨ b ≠ 0) ∧ (c ≠ 0 ∨ d ≠ 0) := by
  have keep : ∀ a b : ℝ, (⟨ExtC.unNan (.fin a), ExtC.unNan (.fin b)⟩ : ExtC) = ⟨.fin a, .fin b⟩ := fun a b => rfl
  have noInf : ∀ a b : ℝ, (isInf (.fin a) || isInf (.fin b)) = false := fun a b => rfl
  by_cases ix : InfiniteC x
  · obtain ⟨a, b, e1, e2, hab⟩ := box_ne_zero ix
    have f : (isInf x.re || isInf x.im) = true := (isInf_iff x).2 ix
    rcases hy with iy | ⟨c, d, rfl, hcd⟩
    · have iy' : InfiniteC ⟨ExtC.unNan y.re, ExtC.unNan y.im⟩ := by
        rcases iy with ⟨s, h⟩ | ⟨s, h⟩
        · exact .inl ⟨s, by rw [h]; rfl⟩
        · exact .inr ⟨s, by rw [h]; rfl⟩
      obtain ⟨c, d, e3, e4, hcd⟩ := box_ne_zero iy'
      have g := (isInf_iff _).2 iy'
      refine ⟨a, b, c, d, ?_, hab, hcd⟩
      unfold ExtC.recover
      simp only [f, g, if_true, Bool.true_or, e1, e2]
      simp only at e3 e4
      rw [e3, e4]
      rfl
    · refine ⟨a, b, c, d, ?_, hab, hcd⟩
      unfold ExtC.recover
      simp only [f, if_true, Bool.true_or, e1, e2]
      rfl
  · have iy := h.resolve_left ix
    rcases hx with ix' | ⟨a, b, rfl, hab⟩
    · exact absurd ix' ix
    · obtain ⟨c, d, e1, e2, hcd⟩ := box_ne_zero iy
      have g : (isInf y.re || isInf y.im) = true := (isInf_iff y).2 iy
      refine ⟨a, b, c, d, ?_, hab, hcd⟩
      unfold ExtC.recover
      simp only [noInf, g, if_true, Bool.or_true, Bool.false_eq_true, if_false, e1, e2]
      rfl

/-- Annex G.5.1: the product of an infinity and an infinity or a finite number that is not zero is an infinity. -/
theorem ExtC.mul_infinite {x y : ExtC} (h : InfiniteC x ∨ InfiniteC y) (hx : NotZero x) (hy : NotZero y) : InfiniteC (ExtC.mul exact x y) := by
  obtain ⟨h1, h2⟩ := plainMul_special h
  unfold ExtC.mul
  by_cases n : (isNan (ExtC.plainMul exact x y).re && isNan (ExtC.plainMul exact x y).im) = true
  · rw [if_pos n]
    obtain ⟨a, b, c, d, e, hab, hcd⟩ := recover_nonzero h hx hy
    rw [e]
    have := inf_mul_infinite (parts_ne_zero hab hcd)
    simpa [ExtC.plainMul, Ext.mul, Ext.sub, Ext.neg, Ext.add, Ext.round, sub_eq_add_neg] using this
  · rw [if_neg n]
    rcases h1 with h1 | h1
    · exact .inl h1
    · rcases h2 with h2 | h2
      · exact .inr h2
      · rw [h1, h2] at n
        exact absurd rfl n

/-- The direction of an infinity is kept although the plain product is NaN: infinity with an undefined other part, times a real number. -/
theorem ExtC.mul_direction (s : Bool) {c : ℝ} (hc : c ≠ 0) :
    ExtC.mul exact ⟨.inf s, .nan⟩ ⟨.fin c, .fin 0⟩ = ⟨.inf (s != decide (c < 0)), .nan⟩ ∧
      ExtC.mul exact ⟨.fin c, .fin 0⟩ ⟨.inf s, .nan⟩ = ⟨.inf (s != decide (c < 0)), .nan⟩ := by
  have hs : (c < 0 ∧ c ≤ 0) ∨ (¬ c < 0 ∧ 0 < c) := (lt_or_gt_of_ne hc).imp (fun h => ⟨h, h.le⟩) fun h => ⟨h.le.not_gt, h⟩
  cases s <;> rcases hs with ⟨h, h'⟩ | ⟨h, h'⟩ <;>
    simp [ExtC.mul, ExtC.plainMul, ExtC.recover, Ext.mul, Ext.sub, Ext.neg, Ext.add, Ext.round, ExtC.isInf, ExtC.isNan, ExtC.box, ExtC.unNan, hc, h, h']

/-- A product that overflows is not lost in NaN: if one of the four products overflows, NaN is taken as zero. -/
theorem ExtC.mul_overflow {rnd : ℝ → Res ℝ} (h0 : rnd 0 = .val 0) {a c : ℝ} (h : rnd (a * c) = .ub) :
    InfiniteC (ExtC.mul rnd ⟨.fin a, .nan⟩ ⟨.fin c, .nan⟩) ∧ InfiniteC (ExtC.mul rnd ⟨.nan, .fin a⟩ ⟨.nan, .fin c⟩) ∧
      InfiniteC (ExtC.mul rnd ⟨.fin a, .nan⟩ ⟨.nan, .fin c⟩) ∧ InfiniteC (ExtC.mul rnd ⟨.nan, .fin a⟩ ⟨.fin c, .nan⟩) := by
  refine ⟨?_, ?_, ?_, ?_⟩ <;>
    simp [InfiniteC, ExtC.mul, ExtC.plainMul, ExtC.recover, Ext.mul, Ext.sub, Ext.neg, Ext.add, Ext.round, ExtC.isInf, ExtC.isNan, ExtC.unNan, h0, h, lt_or_ge]

/-- Concrete cases: `(∞ + NaN i) · (-2)`, `(∞ - 3 i) · (0 + 1 i)` and an overflow in double. -/
example : ExtC.mul exact ⟨.inf false, .nan⟩ ⟨.fin (-2), .fin 0⟩ = ⟨.inf true, .nan⟩ := by
  rw [(ExtC.mul_direction false (by norm_num)).1]; norm_num

example : InfiniteC (ExtC.mul exact ⟨.inf false, .fin (-3)⟩ ⟨.fin 0, .fin 1⟩) :=
  ExtC.mul_infinite (.inl (.inl ⟨_, rfl⟩)) (.inl (.inl ⟨_, rfl⟩)) (.inr ⟨0, 1, rfl, .inr one_ne_zero⟩)

end Ieompp
