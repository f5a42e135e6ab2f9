import Verif.Props.ExtendedLattice
import Verif.Props.ExtendedLink

/-! # C129: at finite positions the lattices with infinities and NaN are those of C77 and C92 -/

set_option autoImplicit false
set_option linter.unusedSectionVars false

namespace Ieompp

open Spec

variable {fl : ℝ → ℝ}

theorem sub_fin (x y : ℝ) : Ext.sub (total fl) (.fin x) (.fin y) = .fin (fl (x - y)) := by
  show Ext.fin (fl (x + -y)) = _
  rw [← sub_eq_add_neg]

theorem div_fin {d : ℝ} (hd : d ≠ 0) (x : ℝ) : Ext.div (total fl) (.fin x) (.fin d) = .fin (fl (x / d)) := by
  show (if d = 0 then _ else _) = _
  rw [if_neg hd]; rfl

theorem coordX_fin {d : ℝ} (hd : d ≠ 0) (a w : ℝ) : coordX (total fl) a d (.fin w) = Sim.castU64 (cround (fl (fl (w - a) / d))) := by
  unfold coordX
  rw [sub_fin, div_fin hd]
  show Sim.castU64 (Sim.cround _) = _
  rw [sim_cround]

theorem castU64_toUnsigned {z : ℤ} {i : ℕ} (h : Sim.castU64 z = .val i) : toUnsigned z = .val i := by
  unfold Sim.castU64 at h
  unfold toUnsigned
  split_ifs at h with h1
  rw [if_pos h1.1]; exact h

theorem closestWrapX_fin (a b l d v : ℝ) : closestWrapX (total fl) a b l d (.fin v) = (closestWrapF fl a b l d v).map .fin := by
  unfold closestWrapX closestWrapF
  simp only [div_fin (two_ne_zero' ℝ), sub_fin]
  rw [whileLoop_image (cond := fun v => v < fl (a - fl (d / 2))) (body := fun v => fl (v + l)) Ext.fin (fun _ => True) (fun x _ => Iff.rfl) (fun x _ => rfl)
    (fun x _ => trivial) trivial]
  cases whileLoop (fun v => v < fl (a - fl (d / 2))) (fun v => fl (v + l)) v with
  | ub => rfl
  | diverges => rfl
  | val w =>
    rw [Res.map_val, Res.bind_val, Res.bind_val]
    exact whileLoop_image (cond := fun v => v > fl (b + fl (d / 2))) (body := fun v => fl (v - l)) Ext.fin (fun _ => True) (fun x _ => Iff.rfl)
      (fun x _ => sub_fin x l) (fun x _ => trivial) trivial

theorem closestSearch_fin {dist : ℕ → Ext} {dist' : ℕ → ℝ} (h : ∀ i, dist i = .fin (dist' i)) (l : List ℕ) (p : ℕ × ℝ) :
    l.foldl (closestStepX dist) (p.1, .fin p.2) = ((l.foldl (closestStep dist') p).1, .fin (l.foldl (closestStep dist') p).2) := by
  induction l generalizing p with
  | nil => rfl
  | cons i l ih =>
    rw [List.foldl_cons, List.foldl_cons]
    have e : closestStepX dist (p.1, .fin p.2) i = ((closestStep dist' p i).1, .fin (closestStep dist' p i).2) := by
      unfold closestStepX closestStep
      rw [h]
      by_cases c : dist' i < p.2
      · rw [if_pos c, if_pos (show Ext.Lt (.fin (dist' i)) (.fin p.2) from c)]
      · rw [if_neg c, if_neg (show ¬ Ext.Lt (.fin (dist' i)) (.fin p.2) from c)]
    rw [e]
    exact ih _

/-- **C129**: at finite positions `closest` of the chain is that of C77. -/
theorem chain_closest_finite (c : Chain ℝ) (v : ℝ) : c.closestX (total fl) (.fin v) = c.closestF fl v := by
  unfold Chain.closestX Chain.closestF
  rw [closestWrapX_fin]
  cases closestWrapF fl c.xMin c.xMax c.xLength c.dx v with
  | ub => rfl
  | diverges => rfl
  | val w =>
    rw [Res.map_val, Res.map_val, Res.map_val]
    unfold Chain.closestSearchF
    have hd : ∀ i, Ext.mul (total fl) (Ext.sub (total fl) (c.posX (total fl) i) (.fin w)) (Ext.sub (total fl) (c.posX (total fl) i) (.fin w)) =
        .fin (fl (fl (c.posF fl i - w) * fl (c.posF fl i - w))) := fun i => by
      rw [show c.posX (total fl) i = .fin (c.posF fl i) from rfl, sub_fin]; rfl
    have := closestSearch_fin hd (List.range' c.first (c.last + 1 - c.first)) (0, fl (fl (c.posF fl 0 - w) * fl (c.posF fl 0 - w)))
    rw [← hd 0] at this
    simp only [this]

/-- **C129**: at finite positions `closest` of the square lattice is that of C92. -/
theorem square_closest_finite (s : Square ℝ) (v : ℝ × ℝ) : s.closestX (total fl) (.fin v.1, .fin v.2) = s.closestF fl v := by
  unfold Square.closestX Square.closestF
  simp only [closestWrapX_fin]
  cases closestWrapF fl s.xMin s.xMax s.xLength s.dx v.1 with
  | ub => rfl
  | diverges => rfl
  | val w0 =>
    rw [Res.map_val, Res.bind_val, Res.bind_val]
    cases closestWrapF fl s.yMin s.yMax s.yLength s.dy v.2 with
    | ub => rfl
    | diverges => rfl
    | val w1 =>
      rw [Res.map_val, Res.map_val, Res.map_val]
      unfold Square.closestSearchF
      have hd : ∀ i, Ext.add (total fl) (Ext.mul (total fl) (Ext.sub (total fl) (.fin w0) (s.posX (total fl) i).1) (Ext.sub (total fl) (.fin w0) (s.posX (total fl) i).1))
          (Ext.mul (total fl) (Ext.sub (total fl) (.fin w1) (s.posX (total fl) i).2) (Ext.sub (total fl) (.fin w1) (s.posX (total fl) i).2)) =
          .fin (fl (fl (fl (w0 - (s.posF fl i).1) * fl (w0 - (s.posF fl i).1)) + fl (fl (w1 - (s.posF fl i).2) * fl (w1 - (s.posF fl i).2)))) := fun i => by
        rw [show s.posX (total fl) i = (.fin (s.posF fl i).1, .fin (s.posF fl i).2) from rfl, sub_fin, sub_fin]; rfl
      have := closestSearch_fin hd (List.range' s.first (s.last + 1 - s.first))
        (0, fl (fl (fl (w0 - (s.posF fl 0).1) * fl (w0 - (s.posF fl 0).1)) + fl (fl (w1 - (s.posF fl 0).2) * fl (w1 - (s.posF fl 0).2))))
      rw [← hd 0] at this
      simp only [this]

/-- **C129**: at finite positions the lookup of the square lattice is that of C92: the same index, or both loops run forever. -/
theorem square_lookup_finite {s : Square ℝ} (hx : s.dx ≠ 0) (hy : s.dy ≠ 0) (v : ℝ × ℝ) :
    (∀ i, s.lookupX (total fl) (.fin v.1, .fin v.2) = .val i → s.lookupF fl v = .val i) ∧
      (s.lookupF fl v = .diverges → s.lookupX (total fl) (.fin v.1, .fin v.2) = .diverges) := by
  unfold Square.lookupX Square.lookupF
  simp only [wrapX_fin]
  cases wrapF fl s.xMin s.xMax s.xLength v.1 with
  | ub => exact ⟨fun i h => (by cases h), fun h => (by cases h)⟩
  | diverges => exact ⟨fun i h => (by cases h), fun _ => rfl⟩
  | val w0 =>
    simp only [Res.map_val, Res.bind_val]
    cases wrapF fl s.yMin s.yMax s.yLength v.2 with
    | ub => exact ⟨fun i h => (by cases h), fun h => (by cases h)⟩
    | diverges => exact ⟨fun i h => (by cases h), fun _ => rfl⟩
    | val w1 =>
      simp only [Res.map_val, Res.bind_val, coordX_fin hx, coordX_fin hy]
      refine ⟨fun k h => ?_, fun h => ?_⟩
      · obtain ⟨i, e1, h⟩ := Res.val_of_bind h
        obtain ⟨j, e2, h⟩ := Res.val_of_map h
        rw [castU64_toUnsigned e1, castU64_toUnsigned e2, Res.bind_val, Res.map_val, h]
      · exfalso
        generalize cround (fl (fl (w0 - s.xMin) / s.dx)) = z0 at h
        generalize cround (fl (fl (w1 - s.yMin) / s.dy)) = z1 at h
        cases e0 : toUnsigned z0 with
        | ub => rw [e0] at h; cases h
        | diverges => exact toUnsigned_ne_diverges _ e0
        | val i => cases e1 : toUnsigned z1 with
          | ub => rw [e0, e1] at h; cases h
          | diverges => exact toUnsigned_ne_diverges _ e1
          | val j => rw [e0, e1] at h; cases h

end Ieompp
