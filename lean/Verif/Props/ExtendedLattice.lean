import Verif.Spec.Extended
import Verif.Props.LatticeFloat
import Verif.Props.Assertions
import Verif.Props.Binary64

/-! # C129: the lattices at positions that are not finite -/

set_option autoImplicit false
set_option linter.unusedSectionVars false

namespace Ieompp

open Spec

variable {rnd : ℝ → Res ℝ}

theorem wrapX_nan (a b l : ℝ) : wrapX rnd a b l .nan = .val .nan := by
  unfold wrapX
  rw [(whileLoop_eq (fun v => Ext.Lt v (.fin a)) _ .nan).2 not_false, Res.bind_val, (whileLoop_eq (fun v => Ext.Lt (.fin b) v) _ .nan).2 not_false]

theorem wrapX_inf (a b l : ℝ) (s : Bool) : wrapX rnd a b l (.inf s) = .diverges := by
  unfold wrapX
  cases s with
  | true =>
    rw [whileLoop_diverges]
    · rfl
    · intro n
      have : (fun v => Ext.add rnd v (.fin l))^[n] (.inf true) = .inf true := Function.iterate_fixed rfl n
      rw [this]
      rfl
  | false =>
    rw [(whileLoop_eq (fun v => Ext.Lt v (.fin a)) _ (.inf false)).2 (fun h => by cases h), Res.bind_val]
    refine whileLoop_diverges _ _ _ fun n => ?_
    have : (fun v => Ext.sub rnd v (.fin l))^[n] (.inf false) = .inf false := Function.iterate_fixed rfl n
    rw [this]
    rfl

theorem coordX_nan (a d : ℝ) : coordX rnd a d .nan = .ub := rfl

theorem closestWrapX_nan (a b l d : ℝ) : closestWrapX rnd a b l d .nan = .val .nan := by
  unfold closestWrapX
  have h1 : ¬ Ext.Lt .nan (Ext.sub rnd (.fin a) (Ext.div rnd (.fin d) (.fin 2))) := by
    cases Ext.sub rnd (.fin a) (Ext.div rnd (.fin d) (.fin 2)) <;> exact not_false
  have h2 : ¬ Ext.Lt (Ext.add rnd (.fin b) (Ext.div rnd (.fin d) (.fin 2))) .nan := by
    cases Ext.add rnd (.fin b) (Ext.div rnd (.fin d) (.fin 2)) <;> exact not_false
  simp only
  rw [(whileLoop_eq (fun v => Ext.Lt v (Ext.sub rnd (.fin a) (Ext.div rnd (.fin d) (.fin 2)))) _ .nan).2 h1, Res.bind_val,
    (whileLoop_eq (fun v => Ext.Lt (Ext.add rnd (.fin b) (Ext.div rnd (.fin d) (.fin 2))) v) _ .nan).2 h2]

/-- The bounds of the loops of `closest` are finite numbers. -/
def FiniteBounds (rnd : ℝ → Res ℝ) (a b d : ℝ) : Prop :=
  (∃ x, Ext.sub rnd (.fin a) (Ext.div rnd (.fin d) (.fin 2)) = .fin x) ∧ ∃ y, Ext.add rnd (.fin b) (Ext.div rnd (.fin d) (.fin 2)) = .fin y

theorem closestWrapX_inf {a b l d : ℝ} (h : FiniteBounds rnd a b d) (s : Bool) : closestWrapX rnd a b l d (.inf s) = .diverges := by
  obtain ⟨⟨x, hx⟩, y, hy⟩ := h
  unfold closestWrapX
  simp only
  rw [hx, hy]
  exact wrapX_inf x y l s

theorem closestSearch_zero {dist : ℕ → Ext} (h : ∀ i, dist i = .nan) (l : List ℕ) : (l.foldl (closestStepX dist) (0, dist 0)).1 = 0 := by
  have : ∀ l : List ℕ, l.foldl (closestStepX dist) (0, .nan) = (0, .nan) := by
    intro l
    induction l with
    | nil => rfl
    | cons i l ih =>
      rw [List.foldl_cons]
      have : closestStepX dist (0, .nan) i = (0, .nan) := by
        unfold closestStepX
        rw [if_neg]
        rw [h i]
        exact not_false
      rw [this, ih]
  rw [h 0, this]

theorem sub_nan (a : Ext) : Ext.sub rnd a .nan = .nan := by cases a <;> rfl

theorem nan_sub (a : Ext) : Ext.sub rnd .nan a = .nan := by cases a <;> rfl

theorem nan_add (a : Ext) : Ext.add rnd .nan a = .nan := by cases a <;> rfl

theorem add_nan (a : Ext) : Ext.add rnd a .nan = .nan := by cases a <;> rfl

/-- **C129**, chain: the lookup of NaN is undefined, that of an infinity never ends - for every chain and every arithmetic. -/
theorem chain_lookup_special (c : Chain ℝ) : c.lookupX rnd .nan = .ub ∧ ∀ s, c.lookupX rnd (.inf s) = .diverges := by
  constructor
  · unfold Chain.lookupX
    rw [wrapX_nan, Res.bind_val, coordX_nan]; rfl
  · intro s
    unfold Chain.lookupX
    rw [wrapX_inf]; rfl

/-- **C129**, chain: the site closest to NaN is said to be site 0; the search for the site closest to an infinity never ends. -/
theorem chain_closest_special (c : Chain ℝ) : c.closestX rnd .nan = .val 0 ∧ (FiniteBounds rnd c.xMin c.xMax c.dx → ∀ s, c.closestX rnd (.inf s) = .diverges) := by
  constructor
  · unfold Chain.closestX
    rw [closestWrapX_nan, Res.map_val]
    simp only [sub_nan]
    rw [closestSearch_zero]
    intro i
    rfl
  · intro h s
    unfold Chain.closestX
    rw [closestWrapX_inf h]; rfl

/-- **C129**, square lattice: the lookup never ends if the first coordinate is infinite, or the second one is and the first one is NaN or comes to an end; it is undefined
if a coordinate is NaN and the other one is not infinite (and comes to an end). -/
theorem square_lookup_special (s : Square ℝ) (w : Ext) :
    (∀ b, s.lookupX rnd (.inf b, w) = .diverges) ∧
    (∀ b w', wrapX rnd s.xMin s.xMax s.xLength w = .val w' → s.lookupX rnd (w, .inf b) = .diverges) ∧
    (∀ w', wrapX rnd s.yMin s.yMax s.yLength w = .val w' → s.lookupX rnd (.nan, w) = .ub) ∧
    ∀ w' i, wrapX rnd s.xMin s.xMax s.xLength w = .val w' → coordX rnd s.xMin s.dx w' = .val i → s.lookupX rnd (w, .nan) = .ub := by
  refine ⟨fun b => ?_, fun b w' h => ?_, fun w' h => ?_, fun w' i h hi => ?_⟩
  · unfold Square.lookupX
    rw [wrapX_inf]; rfl
  · unfold Square.lookupX
    rw [h, Res.bind_val, wrapX_inf]; rfl
  · unfold Square.lookupX
    rw [wrapX_nan, Res.bind_val, h, Res.bind_val, coordX_nan]; rfl
  · unfold Square.lookupX
    rw [h, Res.bind_val, wrapX_nan, Res.bind_val, hi, Res.bind_val, coordX_nan]; rfl

/-- **C129**, square lattice: with NaN in a coordinate, site 0 is said to be the closest one. -/
theorem square_closest_special (s : Square ℝ) (w : Ext) :
    (∀ w', closestWrapX rnd s.yMin s.yMax s.yLength s.dy w = .val w' → s.closestX rnd (.nan, w) = .val 0) ∧
    (∀ w', closestWrapX rnd s.xMin s.xMax s.xLength s.dx w = .val w' → s.closestX rnd (w, .nan) = .val 0) ∧
    (FiniteBounds rnd s.xMin s.xMax s.dx → ∀ b, s.closestX rnd (.inf b, w) = .diverges) := by
  refine ⟨fun w' h => ?_, fun w' h => ?_, fun h b => ?_⟩
  · unfold Square.closestX
    rw [closestWrapX_nan, Res.bind_val, h, Res.map_val]
    simp only [nan_sub]
    rw [closestSearch_zero]
    intro i
    exact nan_add _
  · unfold Square.closestX
    rw [h, Res.bind_val, closestWrapX_nan, Res.map_val]
    simp only [nan_sub]
    rw [closestSearch_zero]
    intro i
    exact add_nan _
  · unfold Square.closestX
    rw [closestWrapX_inf h]; rfl

/-! ### Finite positions -/

/-- An arithmetic without overflow. -/
abbrev total (fl : ℝ → ℝ) : ℝ → Res ℝ := fun x => .val (fl x)

theorem wrapX_fin (fl : ℝ → ℝ) (a b l v : ℝ) : wrapX (total fl) a b l (.fin v) = (wrapF fl a b l v).map .fin := by
  unfold wrapX wrapF
  rw [whileLoop_image (cond := fun v => v < a) (body := fun v => fl (v + l)) Ext.fin (fun _ => True) (fun x _ => Iff.rfl) (fun x _ => rfl) (fun x _ => trivial) trivial]
  cases whileLoop (fun v => v < a) (fun v => fl (v + l)) v with
  | ub => rfl
  | diverges => rfl
  | val w =>
    rw [Res.map_val, Res.bind_val, Res.bind_val]
    refine whileLoop_image (cond := fun v => v > b) (body := fun v => fl (v - l)) Ext.fin (fun _ => True) (fun x _ => Iff.rfl) (fun x _ => ?_) (fun x _ => trivial) trivial
    show Ext.fin (fl (x + -l)) = _
    rw [← sub_eq_add_neg]

theorem sim_cround (x : ℝ) : Sim.cround x = cround x := by
  unfold Sim.cround cround
  split_ifs
  · rfl
  · rw [show x - 1 / 2 = -(-x + 1 / 2) by ring, Int.ceil_neg]

/-- **C129**: at finite positions this is the lookup of C77 and C92. -/
theorem chain_lookup_finite {fl : ℝ → ℝ} {c : Chain ℝ} (hd : c.dx ≠ 0) {v : ℝ} :
    (∀ i, c.lookupX (total fl) (.fin v) = .val i → c.lookupF fl v = .val i) ∧ (c.lookupF fl v = .diverges ↔ c.lookupX (total fl) (.fin v) = .diverges) := by
  unfold Chain.lookupX Chain.lookupF
  rw [wrapX_fin, coordIndexF_wrapF]
  cases hw : wrapF fl c.xMin c.xMax c.xLength v with
  | ub => exact ⟨fun i h => (by cases h), ⟨fun h => (by cases h), fun h => (by cases h)⟩⟩
  | diverges => exact ⟨fun i h => (by cases h), ⟨fun _ => rfl, fun _ => rfl⟩⟩
  | val w =>
    have e : coordX (total fl) c.xMin c.dx (.fin w) = Sim.castU64 (cround (fl (fl (w - c.xMin) / c.dx))) := by
      unfold coordX
      have e1 : Ext.sub (total fl) (.fin w) (.fin c.xMin) = .fin (fl (w - c.xMin)) := by
        show Ext.fin (fl (w + -c.xMin)) = _
        rw [← sub_eq_add_neg]
      have e2 : ∀ x, Ext.div (total fl) (.fin x) (.fin c.dx) = .fin (fl (x / c.dx)) := by
        intro x
        show (if c.dx = 0 then _ else _) = _
        rw [if_neg hd]; rfl
      rw [e1, e2]
      show Sim.castU64 (Sim.cround _) = _
      rw [sim_cround]
    rw [Res.map_val, Res.bind_val, Res.bind_val, e]
    generalize cround (fl (fl (w - c.xMin) / c.dx)) = z
    unfold Sim.castU64 toUnsigned
    refine ⟨fun i h => ?_, ?_⟩
    · split_ifs at h with h1
      · rw [if_pos h1.1]; exact h
      · cases h
    · split_ifs <;> constructor <;> intro h <;> cases h

/-- The bounds are finite in double, for all lattices with extents up to `2^1000`. -/
theorem finiteBounds_binary64 {a b d : ℝ} (ha : |a| ≤ 2 ^ 1000) (hb : |b| ≤ 2 ^ 1000) (hd : |d| ≤ 2 ^ 1000) : FiniteBounds binary64 a b d := by
  have e1 : (2 : ℝ) ^ 1000 ≤ 2 ^ 1023 := pow_le_pow_right₀ one_le_two (by norm_num)
  have e2 : (1 : ℝ) ≤ 2 ^ 1000 := one_le_pow₀ one_le_two
  have e3 : (2 : ℝ) ^ 1000 + 2 * 2 ^ 1000 ≤ 2 ^ 1023 := by
    have e : (2 : ℝ) ^ 1023 = 2 ^ 23 * 2 ^ 1000 := by rw [← pow_add]
    rw [e]
    generalize (2 : ℝ) ^ 1000 = P at e2
    norm_num
    linarith
  have e4 : (1 : ℝ) / 2 ^ 1022 ≤ 1 := div_le_one_of_le₀ (one_le_pow₀ one_le_two) (pow_pos two_pos _).le
  have h2 : |d / 2| ≤ 2 ^ 1000 := by
    rw [abs_div, abs_two]
    exact (div_le_self (abs_nonneg _) one_le_two).trans hd
  obtain ⟨h, eh, bh⟩ := Spec.binary64_arithmetic.rounds (d / 2) (h2.trans e1)
  have hh : |h| ≤ 2 * 2 ^ 1000 := by
    have h3 := abs_add_le (h - d / 2) (d / 2)
    rw [sub_add_cancel] at h3
    have h4 : (1 : ℝ) / 2 ^ 53 * max |d / 2| (1 / 2 ^ 1022) ≤ 1 * 2 ^ 1000 :=
      mul_le_mul (by norm_num) (max_le h2 (e4.trans e2)) (le_max_of_le_left (abs_nonneg _)) zero_le_one
    rw [one_mul] at h4
    rw [two_mul]
    exact h3.trans (add_le_add (bh.trans h4) h2)
  have hdiv : Ext.div binary64 (.fin d) (.fin 2) = .fin h := by
    show (if (2 : ℝ) = 0 then _ else _) = _
    rw [if_neg two_ne_zero]
    unfold Ext.round
    rw [eh]
  have hr : ∀ x : ℝ, |x| ≤ 2 ^ 1023 → ∃ y, Ext.round binary64 x = .fin y := fun x hx => by
    obtain ⟨y, hy, -⟩ := Spec.binary64_arithmetic.rounds x hx
    exact ⟨y, by unfold Ext.round; rw [hy]⟩
  constructor
  · rw [hdiv]
    refine hr _ ((abs_add_le _ _).trans ?_)
    rw [abs_neg]
    exact (add_le_add ha hh).trans e3
  · rw [hdiv]
    exact hr _ ((abs_add_le _ _).trans ((add_le_add hb hh).trans e3))

end Ieompp
