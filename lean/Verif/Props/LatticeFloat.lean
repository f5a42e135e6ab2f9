import Verif.Model.LatticeFloat
import Verif.Props.ChainFloat
import Verif.Props.Square

/-! # C92, C93: lookups that do not end, and the square lattice with rounded arithmetic -/

set_option autoImplicit false
set_option linter.unusedSectionVars false

namespace Ieompp

open Spec

/-! ## The wrapping loops -/

/-- A loop that makes a progress of at least `δ` per round ends; where it ends. -/
theorem loop_up {body : ℝ → ℝ} {lo v δ : ℝ} (hδ : 0 < δ) (h : ∀ w, v ≤ w → w < lo → w + δ ≤ body w) :
    ∃ w, whileLoop (fun v => v < lo) body v = .val w ∧ lo ≤ w ∧ (w = v ∨ ∃ x, v ≤ x ∧ x < lo ∧ w = body x) := by
  have key : ∀ (n : ℕ) (x : ℝ), v ≤ x → lo ≤ x + n * δ →
      ∃ w, whileLoop (fun v => v < lo) body x = .val w ∧ lo ≤ w ∧ (w = x ∨ ∃ y, v ≤ y ∧ y < lo ∧ w = body y) := by
    intro n
    induction n with
    | zero =>
      intro x hx hl
      simp only [Nat.cast_zero, zero_mul, add_zero] at hl
      exact ⟨x, (whileLoop_eq _ _ _).2 (not_lt.2 hl), hl, .inl rfl⟩
    | succ n ih =>
      intro x hx hl
      by_cases c : x < lo
      · have hp := h x hx c
        obtain ⟨w, e, hw, hc⟩ := ih (body x) (by linarith) (by push_cast at hl; linarith)
        refine ⟨w, ?_, hw, ?_⟩
        · rw [(whileLoop_eq (fun v => v < lo) body x).1 c]; exact e
        · rcases hc with hc | hc
          · exact .inr ⟨x, hx, c, hc⟩
          · exact .inr hc
      · exact ⟨x, (whileLoop_eq _ _ _).2 c, not_lt.1 c, .inl rfl⟩
  obtain ⟨n, hn⟩ := exists_nat_ge ((lo - v) / δ)
  refine key n v le_rfl ?_
  rw [div_le_iff₀ hδ] at hn
  linarith

theorem loop_down {body : ℝ → ℝ} {hi v δ : ℝ} (hδ : 0 < δ) (h : ∀ w, w ≤ v → hi < w → body w ≤ w - δ) :
    ∃ w, whileLoop (fun v => v > hi) body v = .val w := by
  have key : ∀ (n : ℕ) (x : ℝ), x ≤ v → x - n * δ ≤ hi → ∃ w, whileLoop (fun v => v > hi) body x = .val w := by
    intro n
    induction n with
    | zero =>
      intro x hx hl
      simp only [Nat.cast_zero, zero_mul, sub_zero] at hl
      exact ⟨x, (whileLoop_eq _ _ _).2 (not_lt.2 hl)⟩
    | succ n ih =>
      intro x hx hl
      by_cases c : x > hi
      · have hp := h x hx c
        obtain ⟨w, e⟩ := ih (body x) (by linarith) (by push_cast at hl; linarith)
        exact ⟨w, by rw [(whileLoop_eq (fun v => v > hi) body x).1 c]; exact e⟩
      · exact ⟨x, (whileLoop_eq _ _ _).2 c⟩
  obtain ⟨n, hn⟩ := exists_nat_ge ((v - hi) / δ)
  refine key n v le_rfl ?_
  rw [div_le_iff₀ hδ] at hn
  linarith

section Terminates

variable {fl : ℝ → ℝ} {u : ℝ}

theorem fl_nonneg (hfl : Rounding fl u) (hu : u < 1) {x : ℝ} (hx : 0 ≤ x) : 0 ≤ fl x := by
  have := abs_le.1 (hfl.err x)
  rw [abs_of_nonneg hx] at this
  nlinarith

theorem fl_nonpos (hfl : Rounding fl u) (hu : u < 1) {x : ℝ} (hx : x ≤ 0) : fl x ≤ 0 := by
  have := abs_le.1 (hfl.err x)
  rw [abs_of_nonpos hx] at this
  nlinarith

theorem fl_pos (hfl : Rounding fl u) (hu : u < 1) {x : ℝ} (hx : 0 < x) : 0 < fl x := by
  have := abs_le.1 (hfl.err x)
  rw [abs_of_pos hx] at this
  nlinarith

/-- Both loops end when the rounding error at `v` is less than the period. -/
theorem loops_end (hfl : Rounding fl u) (hu : 2 * u < 1) {lo hi L v : ℝ} (hL : 0 < L) (hlo : lo ≤ 0) (hhi : 0 ≤ hi)
    (hv : u * |v| < L) :
    ∃ w, ((whileLoop (fun v => v < lo) (fun v => fl (v + L)) v).bind fun v =>
      whileLoop (fun v => v > hi) (fun v => fl (v - L)) v) = .val w := by
  have hu0 := hfl.nonneg
  have down : ∀ x : ℝ, u * |x| < L → ∃ w, whileLoop (fun v => v > hi) (fun v => fl (v - L)) x = .val w := by
    intro x hx
    refine loop_down (δ := L - u * max |x| L) ?_ ?_
    · rw [sub_pos]
      rcases max_choice |x| L with h | h <;> rw [h]
      · exact hx
      · nlinarith
    · intro w h1 h2
      have e := abs_le.1 (hfl.err (w - L))
      have hb : |w - L| ≤ max |x| L := by
        rw [abs_le]
        have h3 := le_max_left |x| L
        have h4 := le_max_right |x| L
        have h5 := le_abs_self x
        constructor <;> linarith
      have := mul_le_mul_of_nonneg_left hb hu0
      linarith
  obtain ⟨w, e, hw, hc⟩ := loop_up (body := fun v => fl (v + L)) (lo := lo) (v := v) (δ := L - u * max |v| L)
    (by
      rw [sub_pos]
      rcases max_choice |v| L with h | h <;> rw [h]
      · exact hv
      · nlinarith)
    (by
      intro w h1 h2
      have e := abs_le.1 (hfl.err (w + L))
      have hb : |w + L| ≤ max |v| L := by
        rw [abs_le]
        have h3 := le_max_left |v| L
        have h4 := le_max_right |v| L
        have h5 := neg_abs_le v
        constructor <;> linarith
      have := mul_le_mul_of_nonneg_left hb hu0
      linarith)
  rw [e, Res.bind_val]
  apply down
  rcases hc with hc | ⟨x, hx1, hx2, hx⟩
  · rw [hc]; exact hv
  · by_cases h0 : 0 ≤ w
    · rw [abs_of_nonneg h0, hx]
      have hxL : x + L ≤ L := by linarith
      have : fl (x + L) ≤ 2 * L := by
        by_cases h1 : 0 ≤ x + L
        · have e := abs_le.1 (hfl.err (x + L))
          rw [abs_of_nonneg h1] at e
          nlinarith
        · have := fl_nonpos hfl (by linarith) (not_le.1 h1).le
          linarith
      nlinarith
    · have h1 : v ≤ w := by
        rw [hx]
        have e := abs_le.1 (hfl.err (x + L))
        have hb : |x + L| ≤ max |v| L := by
          rw [abs_le]
          have h3 := le_max_left |v| L
          have h4 := le_max_right |v| L
          have h5 := neg_abs_le v
          constructor <;> linarith
        have h6 := mul_le_mul_of_nonneg_left hb hu0
        have h7 : u * max |v| L < L := by
          rcases max_choice |v| L with h | h <;> rw [h]
          · exact hv
          · nlinarith
        linarith
      have : |w| ≤ |v| := by
        rw [abs_of_neg (not_le.1 h0), abs_of_neg (by linarith)]
        linarith
      exact lt_of_le_of_lt (mul_le_mul_of_nonneg_left this hu0) hv

theorem coordIndexF_wrapF (lo hi L dx v : ℝ) :
    coordIndexF fl lo hi L dx v = (wrapF fl lo hi L v).bind fun v => toUnsigned (cround (fl (fl (v - lo) / dx))) := by
  unfold coordIndexF wrapF
  cases whileLoop (fun v => v < lo) (fun v => fl (v + L)) v <;> rfl

theorem toUnsigned_ne_diverges (z : ℤ) : toUnsigned z ≠ .diverges := by
  unfold toUnsigned; split <;> simp

theorem wrapF_end (hfl : Rounding fl u) (hu : 2 * u < 1) {lo hi L v : ℝ} (hL : 0 < L) (hlo : lo ≤ 0) (hhi : 0 ≤ hi)
    (hv : u * |v| < L) : ∃ w, wrapF fl lo hi L v = .val w := loops_end hfl hu hL hlo hhi hv

theorem closestWrapF_end (hfl : Rounding fl u) (hu : 2 * u < 1) {lo hi L dx v : ℝ} (hL : 0 < L) (hlo : lo ≤ 0) (hhi : 0 ≤ hi)
    (hdx : 0 ≤ dx) (hv : u * |v| < L) : ∃ w, closestWrapF fl lo hi L dx v = .val w := by
  have h := fl_nonneg hfl (by linarith) (x := dx / 2) (by linarith)
  exact loops_end hfl hu hL (fl_nonpos hfl (by linarith) (by linarith)) (fl_nonneg hfl (by linarith) (by linarith)) hv

end Terminates

/-! ## Stagnation in `double` -/

/-- Adding less than `|v| / 2^54` to a `double` does not change it. -/
theorem double_absorb {v y : ℝ} (hv : double v = v) (h : 2 ^ 54 * |y| < |v|) : double (v + y) = v := by
  have hv0 : v ≠ 0 := by
    rintro rfl
    rw [abs_zero] at h
    have := abs_nonneg y
    linarith
  obtain ⟨e, m, h1, -, h2, h3, -⟩ := double_scaled hv0
  have hp : (0 : ℝ) < 2 ^ e := by positivity
  rw [hv] at h1
  have hm : v / 2 ^ e = m := by rw [h1]; field_simp
  rw [hm] at h2 h3
  -- the error is monotone rounding between neighbours
  have hm1 : (2 : ℤ) ^ 52 ≤ |m| := by exact_mod_cast h2
  have hm2 : |m| < (2 : ℤ) ^ 53 := by exact_mod_cast h3
  have hy : |y| < |(m : ℝ)| * 2 ^ e / 2 ^ 54 := by
    have : |v| = |(m : ℝ)| * 2 ^ e := by rw [h1, abs_mul, abs_of_pos hp]
    rw [← this, lt_div_iff₀ (by norm_num)]; linarith
  by_cases hb : |(m : ℝ)| = 2 ^ 52
  · -- the power of two: compare with the finer grid
    set e' := e - 1 with he'
    have hpe : (2 : ℝ) ^ e = 2 * 2 ^ e' := by
      rw [he', zpow_sub₀ (by norm_num), zpow_one]; field_simp
    have hp' : (0 : ℝ) < 2 ^ e' := by positivity
    have hy' : |y| < 1 / 2 * 2 ^ e' := by
      rw [hb, hpe] at hy
      refine lt_of_lt_of_le hy (le_of_eq ?_)
      ring
    -- either still in the binade of v or in the one below
    have hv1 : |v| = 2 ^ 53 * 2 ^ e' := by rw [h1, abs_mul, abs_of_pos hp, hb, hpe]; ring
    have z53 : (2 : ℝ) ^ (e' + 53) = 2 ^ e' * 2 ^ 53 := by rw [zpow_add₀ (by norm_num)]; norm_cast
    have z52 : (2 : ℝ) ^ (e' + 52) = 2 ^ e' * 2 ^ 52 := by rw [zpow_add₀ (by norm_num)]; norm_cast
    by_cases hc : |v + y| < 2 ^ (e' + 53)
    · have := double_eq (x := v + y) (r := (v + y) / 2 ^ e') (e := e') (m := 2 * m) ?_ hc (by field_simp) ?_
      · rw [this, h1, hpe]; push_cast; ring
      · have := abs_sub_abs_le_abs_add v y
        rw [z52]
        nlinarith
      · left
        have : (v + y) / 2 ^ e' - ((2 * m : ℤ) : ℝ) = y / 2 ^ e' := by
          rw [h1, hpe]; push_cast; field_simp; ring
        rw [this, abs_div, abs_of_pos hp', div_lt_iff₀ hp']
        exact hy'
    · have z52' : (2 : ℝ) ^ (e + 52) = 2 ^ e' * 2 ^ 53 := by
        rw [show e + 52 = e' + 53 by omega, z53]
      have z53' : (2 : ℝ) ^ (e + 53) = 2 ^ e' * 2 ^ 54 := by
        rw [show e + 53 = e' + 54 by omega, zpow_add₀ (by norm_num)]; norm_cast
      have := double_eq (x := v + y) (r := (v + y) / 2 ^ e) (e := e) (m := m) ?_ ?_ (by field_simp) ?_
      · rw [this, h1]
      · rw [z52', ← z53]; exact not_lt.1 hc
      · have := abs_add_le v y
        rw [z53']
        nlinarith
      · left
        have : (v + y) / 2 ^ e - (m : ℝ) = y / 2 ^ e := by rw [h1]; field_simp; ring
        rw [this, abs_div, abs_of_pos hp, div_lt_iff₀ hp, hpe]
        nlinarith
  · have hm3 : (2 : ℤ) ^ 52 + 1 ≤ |m| := by
      have : |m| ≠ 2 ^ 52 := by
        intro h; apply hb; exact_mod_cast h
      omega
    have hm4 : |m| ≤ (2 : ℤ) ^ 53 - 1 := by omega
    have hm3' : (2 : ℝ) ^ 52 + 1 ≤ |(m : ℝ)| := by exact_mod_cast hm3
    have hm4' : |(m : ℝ)| ≤ 2 ^ 53 - 1 := by exact_mod_cast hm4
    have hy' : |y| < 1 / 2 * 2 ^ e := by nlinarith
    have hv1 : |v| = |(m : ℝ)| * 2 ^ e := by rw [h1, abs_mul, abs_of_pos hp]
    have z53 : (2 : ℝ) ^ (e + 53) = 2 ^ e * 2 ^ 53 := by rw [zpow_add₀ (by norm_num)]; norm_cast
    have z52 : (2 : ℝ) ^ (e + 52) = 2 ^ e * 2 ^ 52 := by rw [zpow_add₀ (by norm_num)]; norm_cast
    have := double_eq (x := v + y) (r := (v + y) / 2 ^ e) (e := e) (m := m) ?_ ?_ (by field_simp) ?_
    · rw [this, h1]
    · have := abs_sub_abs_le_abs_add v y
      rw [z52]; nlinarith
    · have := abs_add_le v y
      rw [z53]; nlinarith
    · left
      have : (v + y) / 2 ^ e - (m : ℝ) = y / 2 ^ e := by rw [h1]; field_simp; ring
      rw [this, abs_div, abs_of_pos hp, div_lt_iff₀ hp]
      exact hy'

/-- One of the loops does not change its variable. -/
theorem loops_hang {lo hi L v : ℝ} (hL : 0 < L) (hlo : -(8 * L) ≤ lo) (hhi : 0 ≤ hi) (hhi' : hi ≤ 8 * L) (hlo' : lo ≤ 0)
    (hv : double v = v) (h : 2 ^ 54 * L < |v|) :
    ((whileLoop (fun v => v < lo) (fun v => double (v + L)) v).bind fun v =>
      whileLoop (fun v => v > hi) (fun v => double (v - L)) v) = .diverges := by
  have habs : 2 ^ 54 * |L| < |v| := by rwa [abs_of_pos hL]
  by_cases h0 : v < 0
  · rw [abs_of_neg h0] at h
    have hc : v < lo := by linarith
    rw [whileLoop_diverges]
    · rfl
    · intro n
      have : (fun v => double (v + L))^[n] v = v := by
        apply Function.iterate_fixed
        exact double_absorb hv habs
      rw [this]; exact hc
  · have h0' := not_lt.1 h0
    rw [abs_of_nonneg h0'] at h
    have hc : v > hi := by linarith
    rw [(whileLoop_eq (fun v => v < lo) (fun v => double (v + L)) v).2 (not_lt.2 (by linarith)), Res.bind_val]
    apply whileLoop_diverges
    intro n
    have : (fun v => double (v - L))^[n] v = v := by
      apply Function.iterate_fixed
      show double (v - L) = v
      rw [sub_eq_add_neg]
      exact double_absorb hv (by rwa [abs_neg])
    rw [this]; exact hc

/-! ## C92 -/

/-- A chain made by one of the two constructors with rounded arithmetic. -/
inductive Chain.ConstructedF (fl : ℝ → ℝ) (c : Chain ℝ) (N : ℕ) : Prop
  | momentum (pi : ℝ) (hpi : 0 < pi) (hN : 0 < N) (h : c = Chain.momentumF fl pi N)
  | real (dx : ℝ) (hdx : 0 < dx) (hN : 0 < N) (h : c = Chain.realF fl N dx)

/-- A square lattice made by one of the two constructors with rounded arithmetic. -/
inductive Square.ConstructedF (fl : ℝ → ℝ) (s : Square ℝ) (Nx Ny : ℕ) : Prop
  | momentum (pi : ℝ) (hpi : 0 < pi) (hx : 0 < Nx) (hy : 0 < Ny) (h : s = Square.momentumF fl pi Nx Ny)
  | real (dx dy : ℝ) (hdx : 0 < dx) (hdy : 0 < dy) (hx : 0 < Nx) (hy : 0 < Ny) (h : s = Square.realF fl Nx Ny dx dy)

/-- What the loops need to know about the limits of one coordinate. -/
structure Limits (lo hi L dx : ℝ) : Prop where
  len : 0 < L
  low : lo ≤ 0
  low' : -L ≤ lo
  up : 0 ≤ hi
  up' : hi ≤ 4 * L
  step : 0 < dx
  step' : dx ≤ 2 * L

variable {fl : ℝ → ℝ} {u : ℝ}

theorem limits_momentum (hfl : Rounding fl u) (hu : 2 * u < 1) {pi : ℝ} (hpi : 0 < pi) {N : ℕ} (hN : 0 < N) :
    Limits (-pi) pi (2 * pi) (fl (2 * pi / N)) := by
  have hN' : (1 : ℝ) ≤ N := by exact_mod_cast hN
  have h0 : 0 < 2 * pi / (N : ℝ) := by positivity
  have h1 : 2 * pi / (N : ℝ) ≤ 2 * pi := div_le_self (by linarith) hN'
  have e := abs_le.1 (hfl.err (2 * pi / N))
  rw [abs_of_pos h0] at e
  exact ⟨by linarith, by linarith, by linarith, by linarith, by linarith, fl_pos hfl (by linarith) h0, by nlinarith⟩

theorem limits_real (hfl : Rounding fl u) (hu : 2 * u < 1) {dx : ℝ} (hdx : 0 < dx) {N : ℕ} (hN : 0 < N) :
    Limits 0 (fl (dx * ((N - 1 : ℕ) : ℝ))) (fl (N * dx)) dx := by
  have hN' : (1 : ℝ) ≤ N := by exact_mod_cast hN
  have h0 : 0 < (N : ℝ) * dx := by positivity
  have h2 : 0 ≤ dx * ((N - 1 : ℕ) : ℝ) := by positivity
  have h3 : dx * ((N - 1 : ℕ) : ℝ) ≤ N * dx := by
    rw [mul_comm dx]
    have : ((N - 1 : ℕ) : ℝ) ≤ N := by exact_mod_cast Nat.sub_le N 1
    gcongr
  have h4 : dx ≤ N * dx := by nlinarith
  have e := abs_le.1 (hfl.err (N * dx))
  have e' := abs_le.1 (hfl.err (dx * ((N - 1 : ℕ) : ℝ)))
  rw [abs_of_pos h0] at e
  rw [abs_of_nonneg h2] at e'
  have hL := fl_pos hfl (by linarith) h0
  have h5 : N * dx ≤ 2 * fl (N * dx) := by nlinarith
  exact ⟨hL, le_rfl, by linarith, fl_nonneg hfl (by linarith) h2, by nlinarith, hdx, by linarith⟩

theorem Chain.ConstructedF.limits {c : Chain ℝ} {N : ℕ} (hfl : Rounding fl u) (hu : 2 * u < 1) (h : c.ConstructedF fl N) :
    Limits c.xMin c.xMax c.xLength c.dx ∧ c.size = N ∧ c.first = 0 ∧ c.last = N - 1 ∧ 0 < N := by
  cases h with
  | momentum pi hpi hN h => subst h; exact ⟨limits_momentum hfl hu hpi hN, rfl, rfl, rfl, hN⟩
  | real dx hdx hN h => subst h; exact ⟨limits_real hfl hu hdx hN, rfl, rfl, rfl, hN⟩

theorem Square.ConstructedF.limits {s : Square ℝ} {Nx Ny : ℕ} (hfl : Rounding fl u) (hu : 2 * u < 1) (h : s.ConstructedF fl Nx Ny) :
    Limits s.xMin s.xMax s.xLength s.dx ∧ Limits s.yMin s.yMax s.yLength s.dy ∧ s.first = 0 ∧ s.last = Nx * Ny - 1 ∧ 0 < Nx * Ny := by
  cases h with
  | momentum pi hpi hx hy h =>
    subst h; exact ⟨limits_momentum hfl hu hpi hx, limits_momentum hfl hu hpi hy, rfl, rfl, Nat.mul_pos hx hy⟩
  | real dx dy hdx hdy hx hy h =>
    subst h; exact ⟨limits_real hfl hu hdx hx, limits_real hfl hu hdy hy, rfl, rfl, Nat.mul_pos hx hy⟩

theorem closestFold_lt (dist : ℕ → ℝ) {N : ℕ} (hN : 0 < N) :
    ((List.range' 0 (N - 1 + 1 - 0)).foldl (closestStep dist) (0, dist 0)).1 < N := by
  have key : ∀ (l : List ℕ) (s : ℕ × ℝ), s.1 < N → (∀ i ∈ l, i < N) → (l.foldl (closestStep dist) s).1 < N := by
    intro l
    induction l with
    | nil => intro s hs _; exact hs
    | cons a l ih =>
      intro s hs hl
      apply ih
      · unfold closestStep
        split
        · exact hl a List.mem_cons_self
        · exact hs
      · exact fun i hi => hl i (List.mem_cons_of_mem _ hi)
  apply key _ _ hN
  intro i hi
  rw [List.mem_range'_1] at hi
  omega

/-- **C92** (the part that holds): for every rounding with relative error `u < 1/2` and every position with `u |v|` less than the length of
the period, the lookup on a chain comes to an end and `closest` returns a site of the chain. For `double` that is `|v| < 2^53` periods. -/
theorem chain_lookup_ends_partial (hfl : Rounding fl u) (hu : 2 * u < 1) {c : Chain ℝ} {N : ℕ} (hc : c.ConstructedF fl N) {v : ℝ}
    (hv : u * |v| < c.xLength) : c.lookupF fl v ≠ .diverges ∧ ∃ i, c.closestF fl v = .val i ∧ i < N := by
  obtain ⟨l, -, hf, hla, hN⟩ := hc.limits hfl hu
  constructor
  · obtain ⟨w, hw⟩ := wrapF_end hfl hu l.len l.low l.up hv
    unfold Chain.lookupF
    rw [coordIndexF_wrapF, hw, Res.bind_val]
    have := toUnsigned_ne_diverges (cround (fl (fl (w - c.xMin) / c.dx)))
    revert this
    cases toUnsigned (cround (fl (fl (w - c.xMin) / c.dx))) <;> simp [Res.map]
  · obtain ⟨w, hw⟩ := closestWrapF_end hfl hu l.len l.low l.up l.step.le hv
    unfold Chain.closestF
    rw [hw, Res.map_val]
    refine ⟨_, rfl, ?_⟩
    unfold Chain.closestSearchF
    rw [hf, hla]
    exact closestFold_lt _ hN

/-- **C92** (the part that holds), square lattice. -/
theorem square_lookup_ends_partial (hfl : Rounding fl u) (hu : 2 * u < 1) {s : Square ℝ} {Nx Ny : ℕ} (hs : s.ConstructedF fl Nx Ny)
    {v : ℝ × ℝ} (h1 : u * |v.1| < s.xLength) (h2 : u * |v.2| < s.yLength) :
    s.lookupF fl v ≠ .diverges ∧ ∃ i, s.closestF fl v = .val i ∧ i < Nx * Ny := by
  obtain ⟨l1, l2, hf, hla, hN⟩ := hs.limits hfl hu
  constructor
  · obtain ⟨w1, hw1⟩ := wrapF_end hfl hu l1.len l1.low l1.up h1
    obtain ⟨w2, hw2⟩ := wrapF_end hfl hu l2.len l2.low l2.up h2
    unfold Square.lookupF
    rw [hw1, Res.bind_val, hw2, Res.bind_val]
    have a1 := toUnsigned_ne_diverges (cround (fl (fl (w1 - s.xMin) / s.dx)))
    have a2 := toUnsigned_ne_diverges (cround (fl (fl (w2 - s.yMin) / s.dy)))
    revert a1 a2
    cases toUnsigned (cround (fl (fl (w1 - s.xMin) / s.dx))) <;>
      cases toUnsigned (cround (fl (fl (w2 - s.yMin) / s.dy))) <;> simp [Res.map, Res.bind]
  · obtain ⟨w1, hw1⟩ := closestWrapF_end hfl hu l1.len l1.low l1.up l1.step.le h1
    obtain ⟨w2, hw2⟩ := closestWrapF_end hfl hu l2.len l2.low l2.up l2.step.le h2
    unfold Square.closestF
    rw [hw1, Res.bind_val, hw2, Res.map_val]
    refine ⟨_, rfl, ?_⟩
    unfold Square.closestSearchF
    rw [hf, hla]
    exact closestFold_lt _ hN

theorem Limits.hang {lo hi L dx v : ℝ} (l : Limits lo hi L dx) (hv : double v = v) (h : 2 ^ 54 * L < |v|) :
    wrapF double lo hi L v = .diverges ∧ closestWrapF double lo hi L dx v = .diverges := by
  have r := double_rounding
  have hu : (1 : ℝ) / 2 ^ 53 < 1 := by norm_num
  refine ⟨loops_hang l.len (by linarith [l.low', l.len]) l.up (by linarith [l.up', l.len]) l.low hv h, ?_⟩
  have hd := fl_nonneg r hu (x := dx / 2) (by linarith [l.step])
  have e1 := abs_le.1 (r.err (dx / 2))
  rw [abs_of_nonneg (by linarith [l.step] : 0 ≤ dx / 2)] at e1
  have hd' : double (dx / 2) ≤ 2 * L := by
    have := l.step'
    have := l.step
    nlinarith
  have hl := fl_nonpos r hu (x := lo - double (dx / 2)) (by linarith [l.low])
  have hh := fl_nonneg r hu (x := hi + double (dx / 2)) (by linarith [l.up])
  have e2 := abs_le.1 (r.err (lo - double (dx / 2)))
  rw [abs_of_nonpos (by linarith [l.low])] at e2
  have e3 := abs_le.1 (r.err (hi + double (dx / 2)))
  rw [abs_of_nonneg (by linarith [l.up])] at e3
  have hL := l.len
  have := l.low'
  have := l.up'
  exact loops_hang hL (by linarith) hh (by linarith) hl hv h

/-- **C92** (refutation): for every chain and every `double` more than `2^54` periods away from zero, the lookup and `closest` never end. -/
theorem chain_lookup_hangs {c : Chain ℝ} {N : ℕ} (hc : c.ConstructedF double N) {v : ℝ} (hv : double v = v)
    (h : 2 ^ 54 * c.xLength < |v|) : c.lookupF double v = .diverges ∧ c.closestF double v = .diverges := by
  obtain ⟨l, -⟩ := hc.limits double_rounding (by norm_num)
  obtain ⟨h1, h2⟩ := l.hang hv h
  constructor
  · unfold Chain.lookupF
    rw [coordIndexF_wrapF, h1]; rfl
  · unfold Chain.closestF
    rw [h2]; rfl

/-- **C92** (refutation), square lattice: one coordinate is enough, when the loops of the coordinate before it end. -/
theorem square_lookup_hangs {s : Square ℝ} {Nx Ny : ℕ} (hs : s.ConstructedF double Nx Ny) {v : ℝ × ℝ}
    (h : (double v.1 = v.1 ∧ 2 ^ 54 * s.xLength < |v.1|) ∨ (|v.1| < 2 ^ 53 * s.xLength ∧ double v.2 = v.2 ∧ 2 ^ 54 * s.yLength < |v.2|)) :
    s.lookupF double v = .diverges ∧ s.closestF double v = .diverges := by
  obtain ⟨l1, l2, -⟩ := hs.limits double_rounding (by norm_num)
  rcases h with ⟨hv, h⟩ | ⟨h1, hv, h⟩
  · obtain ⟨a, b⟩ := l1.hang hv h
    unfold Square.lookupF Square.closestF
    rw [a, b]; exact ⟨rfl, rfl⟩
  · have h1' : 1 / 2 ^ 53 * |v.1| < s.xLength := by linarith
    obtain ⟨a, b⟩ := l2.hang hv h
    obtain ⟨w, hw⟩ := wrapF_end double_rounding (by norm_num) l1.len l1.low l1.up h1'
    obtain ⟨w', hw'⟩ := closestWrapF_end double_rounding (by norm_num) l1.len l1.low l1.up l1.step.le h1'
    unfold Square.lookupF Square.closestF
    rw [hw, Res.bind_val, hw', Res.bind_val, a, b]; exact ⟨rfl, rfl⟩

/-- The hypotheses are met: the chain of 4 sites with distance 1 and the position `10^18` (which is a `double`). -/
example : (Chain.realF double 4 1).lookupF double (10 ^ 18) = .diverges := by
  have e4 : double (4 * 1) = 4 := by
    have := double_fix (m := 4) (e := 0) (by norm_num)
    norm_num at this ⊢; exact this
  refine (chain_lookup_hangs (.real 1 one_pos (by norm_num) rfl) ?_ ?_).1
  · have := double_fix (m := 3814697265625) (e := 18) (by norm_num)
    norm_num at this ⊢; exact this
  · show 2 ^ 54 * double ((4 : ℕ) * 1) < _
    push_cast
    rw [e4]; norm_num

/-- Without rounding the loops always end (and C19, C23 say where). -/
theorem chain_lookup_exact_ends {c : Chain ℝ} {N : ℕ} (hc : c.ConstructedF id N) (v : ℝ) :
    c.lookup v ≠ .diverges ∧ ∃ i, c.closest v = .val i ∧ i < N := by
  have r : Rounding id 0 := ⟨le_rfl, by simp⟩
  have l := (hc.limits r (by norm_num)).1
  exact chain_lookup_ends_partial r (by norm_num) hc (v := v) (by rw [zero_mul]; exact l.len)

/-! ## C93: the positions of the sites of the square lattice -/

namespace Square

variable {p : ℝ} {N : ℕ}

theorem lookupF_of_coord {s : Square ℝ} {v : ℝ × ℝ} {i j : ℕ} (h1 : coordIndexF fl s.xMin s.xMax s.xLength s.dx v.1 = .val i)
    (h2 : coordIndexF fl s.yMin s.yMax s.yLength s.dy v.2 = .val j) : s.lookupF fl v = .val (i * s.sizeX + j) := by
  rw [coordIndexF_wrapF] at h1 h2
  unfold lookupF
  revert h1 h2
  cases wrapF fl s.xMin s.xMax s.xLength v.1 with
  | ub => intro h; simp [Res.bind] at h
  | diverges => intro h; simp [Res.bind] at h
  | val a =>
    cases wrapF fl s.yMin s.yMax s.yLength v.2 with
    | ub => intro _ h; simp [Res.bind] at h
    | diverges => intro _ h; simp [Res.bind] at h
    | val b =>
      simp only [Res.bind_val]
      intro h1 h2
      rw [h1, h2]; rfl

theorem siteMod_eq_of_pos {m j N : ℕ} (hm : m ≤ N) (hj : j < N) (h : siteMod m N = siteMod j N) (h0 : j = 0 → m ≠ N) : m = j := by
  rw [siteMod_nat hj] at h
  rcases Nat.lt_or_ge m N with h1 | h1
  · rw [siteMod_nat h1] at h; exact h
  · have hmN : m = N := by omega
    subst hmN
    have : siteMod (m : ℤ) m = 0 := by unfold siteMod; simp
    rw [this] at h
    exact absurd rfl (h0 h.symm)

/-- One coordinate of the momentum space lattice. `fl (-p) = -p`: the constant π is a number of the type `Float`. -/
theorem momentumF_coord (hfl : Rounding fl u) (hp : 0 < p) (hpf : fl (-p) = -p) (hN : 0 < N) (hu : 100 * (N * u) ≤ 1) {j : ℕ}
    (hj : j < N) : coordIndexF fl (-p) p (2 * p) (fl (2 * p / N)) (fl (-p + fl (j * fl (2 * p / N)))) = .val j := by
  have hN' : (1 : ℝ) ≤ N := by exact_mod_cast hN
  have hu0 := hfl.nonneg
  have h := Chain.posF_close hfl hp hN hu hj
  have hU0 : 0 ≤ u * (2 * p) := mul_nonneg hu0 (by linarith)
  by_cases h0 : j = 0
  · subst h0
    have f0 : fl 0 = 0 := by
      have := hfl.err 0
      simpa using this
    rw [Nat.cast_zero, zero_mul, f0, add_zero, hpf]
    unfold coordIndexF
    rw [(whileLoop_eq (fun v => v < -p) _ _).2 (lt_irrefl _), Res.bind_val, (whileLoop_eq (fun v => v > p) _ (-p)).2
      (not_lt.2 (by linarith)), Res.bind_val,
      sub_self, f0, zero_div, f0]
    unfold cround
    rw [if_pos le_rfl]
    norm_num [toUnsigned]
  · obtain ⟨m, h1, h2, h3⟩ := Chain.coordIndexF_close hfl hp hN hu (z := j)
      ((Chain.posF_bound hfl hp hN hu hj).trans (by linarith)) (by push_cast; linarith)
    rw [siteMod_eq_of_pos h2 hj h3 (fun h => absurd h h0)] at h1
    exact h1

/-- **C93** (Nx = Ny): in momentum space the lookup of the rounded position of a site returns the site. -/
theorem momentumF_lookupF_posF_partial (hfl : Rounding fl u) (hp : 0 < p) (hpf : fl (-p) = -p) (hN : 0 < N)
    (hu : 100 * (N * u) ≤ 1) {i : ℕ} (hi : i < N * N) :
    (momentumF fl p N N).lookupF fl ((momentumF fl p N N).posF fl i) = .val i := by
  have hx : i / N < N := Nat.div_lt_of_lt_mul hi
  have hy : i % N < N := Nat.mod_lt _ hN
  have hdm : i / N * N + i % N = i := by rw [mul_comm]; exact Nat.div_add_mod i N
  have := lookupF_of_coord (fl := fl) (s := momentumF fl p N N) (v := (momentumF fl p N N).posF fl i)
    (momentumF_coord hfl hp hpf hN hu hx) (momentumF_coord hfl hp hpf hN hu hy)
  rw [this]
  exact congrArg _ hdm

/-- **C93** (Nx = Ny): in real space the lookup of the rounded position of a site returns the site. -/
theorem realF_lookupF_posF_partial (hfl : Rounding fl u) (hmono : Monotone fl) (hidem : ∀ x, fl (fl x) = fl x) {dx dy : ℝ}
    (hdx : 0 < dx) (hdy : 0 < dy) (hu : 8 * (N * u) ≤ 1) (hu1 : u ≤ 1) {i : ℕ} (hi : i < N * N) :
    (realF fl N N dx dy).lookupF fl ((realF fl N N dx dy).posF fl i) = .val i := by
  have hN : 0 < N := by
    rcases Nat.eq_zero_or_pos N with h | h
    · subst h; simp at hi
    · exact h
  have hx : i / N < N := Nat.div_lt_of_lt_mul hi
  have hy : i % N < N := Nat.mod_lt _ hN
  have hdm : i / N * N + i % N = i := by rw [mul_comm]; exact Nat.div_add_mod i N
  have := lookupF_of_coord (fl := fl) (s := realF fl N N dx dy) (v := (realF fl N N dx dy).posF fl i)
    (Chain.realF_coordIndexF hfl hmono hidem hdx hu hu1 hx) (Chain.realF_coordIndexF hfl hmono hidem hdy hu hu1 hy)
  rw [this]
  exact congrArg _ hdm

/-- **C93** for `double`: `π` is a `double`, `N ≤ 9 · 10¹³`. -/
theorem lookupF_posF_double {dx dy : ℝ} (hp : 0 < p) (hpf : double (-p) = -p) (hdx : 0 < dx) (hdy : 0 < dy)
    (hN : N ≤ 90071992547409) {i : ℕ} (hi : i < N * N) :
    (momentumF double p N N).lookupF double ((momentumF double p N N).posF double i) = .val i ∧
    (realF double N N dx dy).lookupF double ((realF double N N dx dy).posF double i) = .val i := by
  have hN0 : 0 < N := by
    rcases Nat.eq_zero_or_pos N with h | h
    · subst h; simp at hi
    · exact h
  have : (N : ℝ) ≤ 90071992547409 := by exact_mod_cast hN
  exact ⟨momentumF_lookupF_posF_partial double_rounding hp hpf hN0 (by linarith) hi,
    realF_lookupF_posF_partial double_rounding double_monotone double_idem hdx hdy (by linarith) (by norm_num) hi⟩

/-- The hypotheses are met by `double` and the constant `884279719003555 / 2^48` (`Pi<double>::value`). -/
example {i : ℕ} (hi : i < 100 * 100) :
    (momentumF double (884279719003555 * 2 ^ (-48 : ℤ)) 100 100).lookupF double
      ((momentumF double (884279719003555 * 2 ^ (-48 : ℤ)) 100 100).posF double i) = .val i := by
  refine (lookupF_posF_double (N := 100) (dx := 1) (dy := 1) (by positivity) ?_ one_pos one_pos (by norm_num) hi).1
  have := double_fix (m := -884279719003555) (e := -48) (by norm_num)
  push_cast at this
  rw [← neg_mul]; exact this

/-- Without rounding the model is the one of C22, C23 whenever there is a value. -/
theorem latticeFloat_id (pi : ℝ) (Nx Ny : ℕ) (dx dy : ℝ) :
    momentumF id pi Nx Ny = momentum pi Nx Ny ∧ realF id Nx Ny dx dy = real Nx Ny dx dy ∧
      (∀ (s : Square ℝ) (i : ℕ), s.posF id i = s.pos i) ∧ (∀ (s : Square ℝ) (v : ℝ × ℝ), s.closestF id v = s.closest v) ∧
      (∀ (c : Chain ℝ) (v : ℝ), c.closestF id v = c.closest v) ∧
      ∀ (s : Square ℝ) (v : ℝ × ℝ) (n : ℕ), s.lookupF id v = .val n ↔ s.lookup v = .val n := by
  refine ⟨rfl, rfl, fun _ _ => rfl, fun _ _ => rfl, fun _ _ => rfl, ?_⟩
  intro s v n
  have e1 : coordIndex s.xMin s.xMax s.xLength s.dx v.1 = coordIndexF id s.xMin s.xMax s.xLength s.dx v.1 := rfl
  have e2 : coordIndex s.yMin s.yMax s.yLength s.dy v.2 = coordIndexF id s.yMin s.yMax s.yLength s.dy v.2 := rfl
  unfold lookup lookupF
  rw [e1, e2, coordIndexF_wrapF, coordIndexF_wrapF]
  cases wrapF id s.xMin s.xMax s.xLength v.1 with
  | ub => rfl
  | diverges => rfl
  | val a =>
    cases wrapF id s.yMin s.yMax s.yLength v.2 with
    | val b => rfl
    | ub =>
      simp only [Res.bind_val]
      cases toUnsigned (cround (id (id (a - s.xMin) / s.dx))) <;> simp [Res.bind, Res.map]
    | diverges =>
      simp only [Res.bind_val]
      cases toUnsigned (cround (id (id (a - s.xMin) / s.dx))) <;> simp [Res.bind, Res.map]

end Square

end Ieompp
