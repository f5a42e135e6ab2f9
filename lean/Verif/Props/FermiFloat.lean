import Verif.Model.FermiFloat
import Verif.Props.Dispersion
import Verif.Props.ChainFloat
import Verif.Props.LatticeFloat
import Mathlib.Analysis.Real.Pi.Bounds
import Mathlib.Tactic.NormNum

/-!
# C99: which momenta are occupied at half filling, with rounded arithmetic

The momenta of a chain with `N` sites are `-π + 2π i/N`. The half filled Fermi sea consists of those with `|k| < π/2`, that is
`N < 4 i < 3 N`. The two momenta `± π/2` (`4 i = N` and `4 i = 3 N`, only present if 4 divides `N`) are on the Fermi surface: their energy is
zero in exact arithmetic, and with rounding it is the sign of a rounding error.
-/

set_option autoImplicit false
set_option linter.unusedSectionVars false

namespace Ieompp.Spec

/-- The momentum number `i` of a chain with `N` sites is strictly within the Fermi sea at half filling. -/
def InFermiSea (N i : ℕ) : Prop := |-Real.pi + i * (2 * Real.pi / N)| < Real.pi / 2

/-- The momentum number `i` is one of the two Fermi points `± π/2`. -/
def FermiPoint (N i : ℕ) : Prop := |-Real.pi + i * (2 * Real.pi / N)| = Real.pi / 2

/-- The value of `π` as a `double` (`Pi<double>::value`). -/
noncomputable def doublePi : ℝ := 7074237752028440 * (2 : ℝ) ^ (-51 : ℤ)

/-- A library cosine with relative error at most `v`. -/
def CosRelative (cosF : ℝ → ℝ) (v : ℝ) : Prop := ∀ x, |cosF x - Real.cos x| ≤ v * |Real.cos x|

end Ieompp.Spec

namespace Ieompp.Hubbard

open Real RealSpace Ieompp.Spec
open MomentumSpace (vecAt)

theorem inFermiSea_iff {N i : ℕ} (hN : 0 < N) : InFermiSea N i ↔ N < 4 * i ∧ 4 * i < 3 * N := by
  have hN' : (0 : ℝ) < N := by exact_mod_cast hN
  have e : -π + i * (2 * π / N) = π / N * (2 * i - N) := by field_simp; ring
  have h0 : 0 < π / N := by positivity
  have h2 : π / 2 = π / N * (N / 2) := by field_simp
  unfold InFermiSea
  rw [e, abs_mul, abs_of_pos h0, h2, mul_lt_mul_iff_right₀ h0, abs_lt]
  constructor
  · rintro ⟨h3, h4⟩
    have h3' : (N : ℝ) < 4 * i := by linarith
    have h4' : (4 * i : ℝ) < 3 * N := by linarith
    exact ⟨by exact_mod_cast h3', by exact_mod_cast h4'⟩
  · rintro ⟨h3, h4⟩
    have h3' : (N : ℝ) < 4 * i := by exact_mod_cast h3
    have h4' : (4 * i : ℝ) < 3 * N := by exact_mod_cast h4
    constructor <;> linarith

theorem fermiPoint_iff {N i : ℕ} (hN : 0 < N) : FermiPoint N i ↔ 4 * i = N ∨ 4 * i = 3 * N := by
  have hN' : (0 : ℝ) < N := by exact_mod_cast hN
  have e : -π + i * (2 * π / N) = π / N * (2 * i - N) := by field_simp; ring
  have h0 : 0 < π / N := by positivity
  have h2 : π / 2 = π / N * (N / 2) := by field_simp
  unfold FermiPoint
  rw [e, abs_mul, abs_of_pos h0, h2, mul_right_inj' h0.ne', abs_eq (by positivity)]
  constructor
  · rintro (h | h)
    · right; have : (4 * i : ℝ) = 3 * N := by linarith
      exact_mod_cast this
    · left; have : (4 * i : ℝ) = N := by linarith
      exact_mod_cast this
  · rintro (h | h)
    · right; have : (4 * i : ℝ) = N := by exact_mod_cast h
      linarith
    · left; have : (4 * i : ℝ) = 3 * N := by exact_mod_cast h
      linarith

variable {fl cosF : ℝ → ℝ} {u v p J : ℝ} {N : ℕ}

theorem cosF_sign (hc : CosRelative cosF v) (hv : v < 1) (x : ℝ) : (0 < cosF x ↔ 0 < cos x) := by
  have h := abs_le.1 (hc x)
  rcases lt_trichotomy (cos x) 0 with h0 | h0 | h0
  · rw [abs_of_neg h0] at h
    constructor
    · intro h'; nlinarith
    · intro h'; linarith
  · rw [h0, abs_zero, mul_zero, sub_zero, neg_zero] at h
    rw [h0, le_antisymm h.2 h.1]
  · rw [abs_of_pos h0] at h
    constructor
    · intro _; exact h0
    · intro _; nlinarith

theorem fl_pos_iff (hfl : Rounding fl u) (hu : u < 1) (x : ℝ) : 0 < fl x ↔ 0 < x := by
  constructor
  · intro h; by_contra h'; exact absurd (fl_nonpos hfl hu (not_lt.1 h')) (not_le.2 h)
  · exact fl_pos hfl hu

theorem fl_neg_iff (hfl : Rounding fl u) (hu : u < 1) (x : ℝ) : fl x < 0 ↔ x < 0 := by
  constructor
  · intro h; by_contra h'; exact absurd (fl_nonneg hfl hu (not_lt.1 h')) (not_le.2 h)
  · intro h
    have h1 := abs_le.1 (hfl.err x)
    rw [abs_of_neg h] at h1
    nlinarith

/-- **C99**: whatever the schedule of the parallel loop, a momentum is occupied if and only if the cosine of its rounded value (times the
rounded lattice vector) is positive. -/
theorem occupiedF_iff (hfl : Rounding fl u) (hu : u < 1) (hc : CosRelative cosF v) (hv : v < 1) (hJ : 0 < J) {sched : List ℕ}
    (hs : sched.Perm (List.range N)) {i : ℕ} (hi : i < N) (spin : Bool) :
    ∃ b, occupiedF fl cosF p N J sched (i, spin) = .val b ∧
      (b = true ↔ 0 < cos (fl ((Chain.momentumF fl p N).posF fl i * 1))) := by
  obtain ⟨w, e1, e2, e3⟩ := storeLoop_ok
    (f := fun i => Res.val (fl (fl (-2 * J) * (chainVectors (Chain.realF fl N 1)).foldl
      (fun val vec => fl (val + cosF ((fun a b => fl (a * b)) ((Chain.momentumF fl p N).posF fl i) vec))) 0))) sched
    (List.replicate N 0) (fun i hi => ⟨rfl, by rw [hs.mem_iff] at hi; simpa using hi⟩)
  have e4 := e3 i
  rw [if_pos ⟨by rw [hs.mem_iff]; simpa using hi, by simpa using hi⟩] at e4
  refine ⟨decide (fl (fl (-2 * J) * (chainVectors (Chain.realF fl N 1)).foldl
      (fun val vec => fl (val + cosF ((fun a b => fl (a * b)) ((Chain.momentumF fl p N).posF fl i) vec))) 0) < 0), ?_, ?_⟩
  · unfold occupiedF chainDispersionF dispersionF
    rw [e1, Res.bind_val]
    unfold dispersionAt vecAt
    rw [e4]
    rfl
  · rw [decide_eq_true_iff]
    simp only [chainVectors, Chain.realF, List.foldl_cons, List.foldl_nil, zero_add]
    rw [fl_neg_iff hfl hu, ← cosF_sign hc hv, ← fl_pos_iff hfl hu (cosF _)]
    have h2 : fl (-2 * J) < 0 := (fl_neg_iff hfl hu _).2 (by linarith)
    constructor
    · intro h; by_contra h'
      exact absurd h (not_lt.2 (mul_nonneg_of_nonpos_of_nonpos h2.le (not_lt.1 h')))
    · intro h; exact mul_neg_of_neg_of_pos h2 h

theorem cos_pos_iff_abs {x : ℝ} (hx : |x| < 3 * π / 2) : 0 < cos x ↔ |x| < π / 2 := by
  rw [← cos_abs]
  constructor
  · intro h; by_contra h'
    exact absurd h (not_lt.2 (cos_nonpos_of_pi_div_two_le_of_le (not_lt.1 h') (by linarith)))
  · intro h; exact cos_pos_of_mem_Ioo ⟨by linarith [abs_nonneg x, pi_pos], h⟩

/-- **C99**: with rounded arithmetic, every momentum other than the two Fermi points is occupied exactly if it lies within the Fermi sea. -/
theorem occupiedF_right_partial (hfl : Rounding fl u) (hN : 0 < N) (hu : 100 * (N * u) ≤ 1) (hc : CosRelative cosF v) (hv : v < 1)
    (hp : 0 < p) (hδ : 2 * N * (8 * u * p + |p - π|) < π) (hJ : 0 < J) {sched : List ℕ}
    (hs : sched.Perm (List.range N)) {i : ℕ} (hi : i < N) (hF : ¬ FermiPoint N i) (spin : Bool) :
    ∃ b, occupiedF fl cosF p N J sched (i, spin) = .val b ∧ (b = true ↔ InFermiSea N i) := by
  have hN' : (1 : ℝ) ≤ N := by exact_mod_cast hN
  have hu0 := hfl.nonneg
  have hu1 : 100 * u ≤ 1 := by nlinarith
  obtain ⟨b, e1, e2⟩ := occupiedF_iff (p := p) hfl (by linarith) hc hv hJ hs hi spin
  refine ⟨b, e1, e2.trans ?_⟩
  have h1 := Chain.posF_close hfl hp hN hu hi
  have h2 := Chain.posF_bound hfl hp hN hu hi
  rw [mul_one]
  set k := (Chain.momentumF fl p N).posF fl i
  have h3 := hfl.err k
  set x := fl k
  -- the exact momentum
  have hi' : (i : ℝ) ≤ N := by exact_mod_cast hi.le
  set t : ℝ := (2 * i - N) / N with ht
  have ht1 : |t| ≤ 1 := by
    rw [ht, abs_div, abs_of_pos (by linarith : (0 : ℝ) < N), div_le_one (by linarith), abs_le]
    constructor <;> linarith [(Nat.cast_nonneg i : (0 : ℝ) ≤ i)]
  have e3 : -p + i * (2 * p / N) = t * p := by rw [ht]; field_simp; ring
  have e4 : -π + i * (2 * π / N) = t * π := by rw [ht]; field_simp; ring
  rw [e3] at h1
  have h4 : |t * p - t * π| ≤ |p - π| := by
    rw [← mul_sub, abs_mul]; exact mul_le_of_le_one_left (abs_nonneg _) ht1
  have h5 : u * |k| ≤ u * (53 / 100 * (2 * p)) := mul_le_mul_of_nonneg_left h2 hu0
  have hup : 0 ≤ u * p := by positivity
  set δ := 8 * u * p + |p - π| with hδdef
  have hδ0 : 0 ≤ δ := by positivity
  have h6 : |x - t * π| ≤ δ := by
    have a1 := abs_le.1 h1
    have a3 := abs_le.1 h3
    have a4 := abs_le.1 h4
    rw [abs_le]; constructor <;> linarith
  have hδ1 : δ < π / (2 * N) := by rw [lt_div_iff₀ (by linarith)]; linarith
  have hδ2 : δ < π / 2 := by nlinarith
  have a6 := abs_le.1 h6
  have b6 : |t * π| ≤ π := by rw [abs_mul, abs_of_pos pi_pos]; exact mul_le_of_le_one_left pi_pos.le ht1
  rw [cos_pos_iff_abs (by have := abs_le.1 b6; rw [abs_lt]; constructor <;> linarith)]
  -- distance of the exact momentum from the Fermi points
  have hgap : π / (2 * N) ≤ |(|t * π| - π / 2)| := by
    have g : ∀ z : ℤ, z ≠ 0 → π / (2 * N) ≤ |π / (2 * N) * z| := by
      intro z hz
      rw [abs_mul, abs_of_pos (by positivity : 0 < π / (2 * (N : ℝ)))]
      have : (1 : ℝ) ≤ |(z : ℝ)| := by exact_mod_cast Int.one_le_abs hz
      exact le_mul_of_one_le_right (by positivity) this
    rw [fermiPoint_iff hN] at hF
    push Not at hF
    rcases le_total 0 (t * π) with h0 | h0
    · rw [abs_of_nonneg h0]
      have := g (4 * i - 3 * N) (by omega)
      convert this using 2
      rw [ht]; push_cast; field_simp; ring
    · rw [abs_of_nonpos h0]
      have := g (N - 4 * i) (by omega)
      convert this using 2
      rw [ht]; push_cast; field_simp; ring
  unfold InFermiSea
  rw [e4]
  have h7 : |(|x| - |t * π|)| ≤ δ := (abs_abs_sub_abs_le_abs_sub _ _).trans h6
  have a7 := abs_le.1 h7
  constructor
  · intro h
    by_contra h'
    rw [not_lt] at h'
    rw [abs_of_nonneg (by linarith)] at hgap
    linarith
  · intro h
    rw [abs_of_neg (by linarith)] at hgap
    linarith

/-- **C99**: with rounded arithmetic and a number of sites which is not divisible by 4, the Fermi sea is exact. -/
theorem occupiedF_exact (hfl : Rounding fl u) (hN : ¬ 4 ∣ N) (hu : 100 * (N * u) ≤ 1) (hc : CosRelative cosF v) (hv : v < 1)
    (hp : 0 < p) (hδ : 2 * N * (8 * u * p + |p - π|) < π) (hJ : 0 < J) {sched : List ℕ}
    (hs : sched.Perm (List.range N)) {i : ℕ} (hi : i < N) (spin : Bool) :
    ∃ b, occupiedF fl cosF p N J sched (i, spin) = .val b ∧ (b = true ↔ InFermiSea N i) := by
  have hN0 : 0 < N := by omega
  refine occupiedF_right_partial hfl hN0 hu hc hv hp hδ hJ hs hi ?_ spin
  rw [fermiPoint_iff hN0]
  omega

/-- **C99**: in exact arithmetic the Fermi points are empty and everything else is right too. -/
theorem occupied_exact_arithmetic (hJ : 0 < J) {sched : List ℕ} (hs : sched.Perm (List.range N)) {i : ℕ} (hi : i < N) (spin : Bool) :
    ∃ b, occupiedF id cos π N J sched (i, spin) = .val b ∧ (b = true ↔ InFermiSea N i) := by
  have hN : 0 < N := by omega
  have hid : Rounding id 0 := ⟨le_rfl, by simp⟩
  have hcc : CosRelative cos 0 := fun x => by simp
  obtain ⟨b, e1, e2⟩ := occupiedF_iff (p := π) hid one_pos hcc one_pos hJ hs hi spin
  refine ⟨b, e1, e2.trans ?_⟩
  have hb := Chain.posF_bound hid pi_pos hN (by simp) hi
  rw [cos_pos_iff_abs (by simp only [mul_one]; exact lt_of_le_of_lt hb (by nlinarith [pi_pos]))]
  simp [InFermiSea, Chain.posF, Chain.momentumF]

theorem doublePi_pos : 0 < doublePi := by unfold doublePi; positivity

theorem doublePi_lt : doublePi < π := by
  have := pi_gt_d20
  unfold doublePi
  refine lt_trans ?_ this
  norm_num

theorem doublePi_close : π - doublePi < 1 / 2 ^ 52 := by
  have := pi_lt_d20
  unfold doublePi
  have h : (3.14159265358979323847 : ℝ) - 7074237752028440 * (2 : ℝ) ^ (-51 : ℤ) < 1 / 2 ^ 52 := by norm_num
  linarith

/-- `doublePi` is the double nearest to π. -/
theorem doublePi_eq : double π = doublePi := by
  have h1 := pi_gt_d20
  have h2 := pi_lt_d20
  have := double_eq (x := π) (r := π / 2 ^ (-51 : ℤ)) (e := -51) (m := 7074237752028440) ?_ ?_ (by field_simp) ?_
  · rw [this]; unfold doublePi; norm_num
  · rw [abs_of_pos pi_pos]; norm_num; linarith
  · rw [abs_of_pos pi_pos]; norm_num; linarith
  · left
    rw [abs_lt]
    push_cast
    constructor
    · rw [lt_sub_iff_add_lt, lt_div_iff₀ (by positivity)]
      refine lt_trans ?_ h1; norm_num
    · rw [sub_lt_iff_lt_add, div_lt_iff₀ (by positivity)]
      refine lt_trans h2 ?_; norm_num

/-- **C99**, for `double` and up to 9·10¹³ sites: every momentum other than the Fermi points is right. -/
theorem occupiedF_double_partial (hN : 0 < N) (hN' : N ≤ 90071992547409) (hc : CosRelative cosF v) (hv : v < 1) (hJ : 0 < J) {sched : List ℕ}
    (hs : sched.Perm (List.range N)) {i : ℕ} (hi : i < N) (hF : ¬ FermiPoint N i) (spin : Bool) :
    ∃ b, occupiedF double cosF doublePi N J sched (i, spin) = .val b ∧ (b = true ↔ InFermiSea N i) := by
  have h1 : (N : ℝ) ≤ 90071992547409 := by exact_mod_cast hN'
  have h0 : (0 : ℝ) < N := by exact_mod_cast hN
  refine occupiedF_right_partial double_rounding hN (by linarith) hc hv doublePi_pos ?_ hJ hs hi hF spin
  have h2 := doublePi_lt
  have h3 := doublePi_close
  have h4 := pi_lt_d20
  have h5 := pi_gt_d20
  rw [abs_of_neg (by linarith)]
  have h6 : 8 * (1 / 2 ^ 53) * doublePi + -(doublePi - π) ≤ 14 / 2 ^ 52 := by linarith
  calc 2 * N * (8 * (1 / 2 ^ 53) * doublePi + -(doublePi - π)) ≤ 2 * 90071992547409 * (14 / 2 ^ 52) := by
        apply mul_le_mul _ h6 _ (by norm_num)
        · linarith
        · have := doublePi_pos; have : 0 ≤ -(doublePi - π) := by linarith
          positivity
    _ < 3 := by norm_num
    _ < π := by linarith

/-! ### The Fermi points, with `double` -/

theorem double_of_eq {x : ℝ} {m e : ℤ} (h : x = m * 2 ^ e) (hm : |m| ≤ 2 ^ 53) : double x = m * 2 ^ e := by
  rw [h, double_fix hm]

/-- The rounded momenta at the Fermi points of a chain with `2^(n+2)` sites. -/
theorem posF_pow_two (n : ℕ) :
    (Chain.momentumF double doublePi (2 ^ (n + 2))).posF double (2 ^ n) = -(doublePi / 2) ∧
    (Chain.momentumF double doublePi (2 ^ (n + 2))).posF double (3 * 2 ^ n) = doublePi / 2 := by
  have hz : (2 : ℝ) ^ (-50 - ((n + 2 : ℕ) : ℤ)) = 2 ^ (-52 : ℤ) / 2 ^ n := by
    rw [show (-50 - ((n + 2 : ℕ) : ℤ)) = -52 - (n : ℤ) by push_cast; ring, zpow_sub₀ (by norm_num), zpow_natCast]
  have hdx : (Chain.momentumF double doublePi (2 ^ (n + 2))).dx = 7074237752028440 * (2 ^ (-52 : ℤ) / 2 ^ n) := by
    show double (2 * doublePi / ((2 ^ (n + 2) : ℕ) : ℝ)) = _
    rw [double_of_eq (m := 7074237752028440) (e := -50 - ((n + 2 : ℕ) : ℤ)) _ (by norm_num), hz]
    · push_cast; ring
    · rw [hz]; unfold doublePi; push_cast; rw [pow_add]; field_simp
  unfold Chain.posF
  rw [hdx]
  constructor
  · have h1 : double (((2 ^ n : ℕ) : ℝ) * (7074237752028440 * (2 ^ (-52 : ℤ) / 2 ^ n))) = doublePi / 2 := by
      rw [double_of_eq (m := 7074237752028440) (e := -52) _ (by norm_num)]
      · unfold doublePi; norm_num
      · push_cast; field_simp
    rw [h1]
    show double (-doublePi + _) = _
    rw [double_of_eq (m := -7074237752028440) (e := -52) _ (by norm_num)]
    · unfold doublePi; norm_num
    · unfold doublePi; norm_num
  · have h1 : double (((3 * 2 ^ n : ℕ) : ℝ) * (7074237752028440 * (2 ^ (-52 : ℤ) / 2 ^ n))) = 3 * doublePi / 2 := by
      rw [double_of_eq (m := 5305678314021330) (e := -50) _ (by norm_num)]
      · unfold doublePi; norm_num
      · push_cast; field_simp; norm_num
    rw [h1]
    show double (-doublePi + _) = _
    rw [double_of_eq (m := 7074237752028440) (e := -52) _ (by norm_num)]
    · unfold doublePi; norm_num
    · unfold doublePi; norm_num

/-- **C99**: with `double` and a number of sites which is a power of two, both Fermi points are occupied (in exact arithmetic both are
empty). -/
theorem fermiPoint_pow_two (n : ℕ) (hc : CosRelative cosF v) (hv : v < 1) (hJ : 0 < J) {sched : List ℕ}
    (hs : sched.Perm (List.range (2 ^ (n + 2)))) {i : ℕ} (hi : FermiPoint (2 ^ (n + 2)) i) (spin : Bool) :
    occupiedF double cosF doublePi (2 ^ (n + 2)) J sched (i, spin) = .val true := by
  have hN : 0 < 2 ^ (n + 2) := by positivity
  rw [fermiPoint_iff hN] at hi
  have hpow : 2 ^ (n + 2) = 4 * 2 ^ n := by rw [pow_add]; ring
  have hpos : 0 < 2 ^ n := by positivity
  have hi' : i = 2 ^ n ∨ i = 3 * 2 ^ n := by omega
  have hlt : i < 2 ^ (n + 2) := by omega
  obtain ⟨b, e1, e2⟩ := occupiedF_iff (p := doublePi) double_rounding (by norm_num) hc hv hJ hs hlt spin
  have hx : |double ((Chain.momentumF double doublePi (2 ^ (n + 2))).posF double i * 1)| = doublePi / 2 := by
    rw [mul_one]
    have : |(Chain.momentumF double doublePi (2 ^ (n + 2))).posF double i| = doublePi / 2 := by
      have h0 := doublePi_pos
      rcases hi' with rfl | rfl
      · rw [(posF_pow_two n).1, abs_neg, abs_of_pos (by linarith)]
      · rw [(posF_pow_two n).2, abs_of_pos (by linarith)]
    rw [show double ((Chain.momentumF double doublePi (2 ^ (n + 2))).posF double i) =
      (Chain.momentumF double doublePi (2 ^ (n + 2))).posF double i from by unfold Chain.posF; rw [double_idem], this]
  have hb : b = true := by
    rw [e2, cos_pos_iff_abs (by rw [hx]; linarith [doublePi_lt, pi_pos]), hx]
    linarith [doublePi_lt]
  rw [e1, hb]

/-- The rounded momenta at the Fermi points of a chain with 300 sites. -/
theorem posF_300 :
    (Chain.momentumF double doublePi 300).posF double 75 = -7074237752028441 * 2 ^ (-52 : ℤ) ∧
    (Chain.momentumF double doublePi 300).posF double 225 = 7074237752028440 * 2 ^ (-52 : ℤ) := by
  have hdx : (Chain.momentumF double doublePi 300).dx = 6036682881730935 * 2 ^ (-58 : ℤ) := by
    show double (2 * doublePi / ((300 : ℕ) : ℝ)) = _
    unfold doublePi
    have := double_eq (x := 2 * (7074237752028440 * (2 : ℝ) ^ (-51 : ℤ)) / ((300 : ℕ) : ℝ))
      (r := 7074237752028440 * 256 / 300) (e := -58) (m := 6036682881730935) ?_ ?_ ?_ ?_
    · rw [this]; norm_num
    · rw [abs_of_pos (by positivity)]; norm_num
    · rw [abs_of_pos (by positivity)]; norm_num
    · norm_num
    · left; norm_num [abs_lt]
  unfold Chain.posF
  rw [hdx]
  constructor
  · have h1 : double (((75 : ℕ) : ℝ) * (6036682881730935 * 2 ^ (-58 : ℤ))) = 7074237752028439 * 2 ^ (-52 : ℤ) := by
      have := double_eq (x := ((75 : ℕ) : ℝ) * (6036682881730935 * (2 : ℝ) ^ (-58 : ℤ)))
        (r := 75 * 6036682881730935 / 64) (e := -52) (m := 7074237752028439) ?_ ?_ ?_ ?_
      · rw [this]; norm_num
      · rw [abs_of_pos (by positivity)]; norm_num
      · rw [abs_of_pos (by positivity)]; norm_num
      · norm_num
      · left; norm_num [abs_lt]
    rw [h1]
    show double (-doublePi + _) = _
    rw [double_of_eq (m := -7074237752028441) (e := -52) _ (by norm_num)]
    · norm_num
    · unfold doublePi; norm_num
  · have h1 : double (((225 : ℕ) : ℝ) * (6036682881730935 * 2 ^ (-58 : ℤ))) = 5305678314021330 * 2 ^ (-50 : ℤ) := by
      have := double_eq (x := ((225 : ℕ) : ℝ) * (6036682881730935 * (2 : ℝ) ^ (-58 : ℤ)))
        (r := 225 * 6036682881730935 / 256) (e := -50) (m := 5305678314021330) ?_ ?_ ?_ ?_
      · rw [this]; norm_num
      · rw [abs_of_pos (by positivity)]; norm_num
      · rw [abs_of_pos (by positivity)]; norm_num
      · norm_num
      · left; norm_num [abs_lt]
    rw [h1]
    show double (-doublePi + _) = _
    rw [double_of_eq (m := 7074237752028440) (e := -52) _ (by norm_num)]
    · norm_num
    · unfold doublePi; norm_num

/-- **C99** (refutation): with `double` and 300 sites one of the two Fermi points is empty and the other one is occupied, so opposite
momenta (indices `i` and `N - i`) do not have the same occupation. -/
theorem fermi_sea_asymmetric (hc : CosRelative cosF v) (hv : v < 1) (hJ : 0 < J) {sched : List ℕ}
    (hs : sched.Perm (List.range 300)) (spin : Bool) :
    FermiPoint 300 75 ∧ FermiPoint 300 (300 - 75) ∧
    occupiedF double cosF doublePi 300 J sched (75, spin) = .val false ∧
    occupiedF double cosF doublePi 300 J sched (300 - 75, spin) = .val true := by
  have h1 := pi_gt_d20
  have h2 := pi_lt_d20
  have hd : ∀ i, double ((Chain.momentumF double doublePi 300).posF double i * 1) = (Chain.momentumF double doublePi 300).posF double i := by
    intro i; rw [mul_one]; unfold Chain.posF; rw [double_idem]
  have hl : (3.14159265358979323847 : ℝ) / 2 < 7074237752028441 * 2 ^ (-52 : ℤ) := by norm_num
  have hr : 7074237752028440 * 2 ^ (-52 : ℤ) < (3.14159265358979323846 : ℝ) / 2 := by norm_num
  have hl' : (7074237752028441 : ℝ) * 2 ^ (-52 : ℤ) < 3.1 := by norm_num
  refine ⟨(fermiPoint_iff (by norm_num)).2 (by norm_num), (fermiPoint_iff (by norm_num)).2 (by norm_num), ?_, ?_⟩
  · obtain ⟨b, e1, e2⟩ := occupiedF_iff (p := doublePi) double_rounding (by norm_num) hc hv hJ hs (show 75 < 300 by norm_num) spin
    rw [e1]
    congr 1
    rw [← Bool.not_eq_true, e2, hd, posF_300.1, neg_mul, cos_neg, not_lt]
    exact cos_nonpos_of_pi_div_two_le_of_le (by linarith) (by linarith)
  · obtain ⟨b, e1, e2⟩ := occupiedF_iff (p := doublePi) double_rounding (by norm_num) hc hv hJ hs (show 300 - 75 < 300 by norm_num) spin
    rw [e1]
    congr 1
    rw [e2, hd, posF_300.2]
    refine cos_pos_of_mem_Ioo ⟨?_, by linarith⟩
    have : (0 : ℝ) < 7074237752028440 * 2 ^ (-52 : ℤ) := by positivity
    linarith

/-- **C99**: the number of occupied momenta per spin in exact arithmetic and with `double`, for `2^(n+2)` sites (the other momenta agree
by `occupied_exact_arithmetic` and `occupiedF_double_partial`): `N/2 - 1` and `N/2 + 1`. -/
theorem fermi_sea_size (n : ℕ) (hn : n ≤ 44) (hc : CosRelative cosF v) (hv : v < 1) (hJ : 0 < J) {sched : List ℕ}
    (hs : sched.Perm (List.range (2 ^ (n + 2)))) (spin : Bool) :
    {i ∈ Finset.range (2 ^ (n + 2)) | occupiedF id cos π (2 ^ (n + 2)) J sched (i, spin) = .val true}.card = 2 ^ (n + 1) - 1 ∧
    {i ∈ Finset.range (2 ^ (n + 2)) | occupiedF double cosF doublePi (2 ^ (n + 2)) J sched (i, spin) = .val true}.card = 2 ^ (n + 1) + 1 := by
  have hN : 0 < 2 ^ (n + 2) := by positivity
  have hpos : 0 < 2 ^ n := by positivity
  have hpow : 2 ^ (n + 2) = 4 * 2 ^ n := by rw [pow_add]; ring
  have hpow1 : 2 ^ (n + 1) = 2 * 2 ^ n := by rw [pow_add]; ring
  have hle : 2 ^ (n + 2) ≤ 90071992547409 :=
    (Nat.pow_le_pow_right (by norm_num) (show n + 2 ≤ 46 by omega)).trans (by norm_num)
  constructor
  · have : {i ∈ Finset.range (2 ^ (n + 2)) | occupiedF id cos π (2 ^ (n + 2)) J sched (i, spin) = .val true}
        = Finset.Ioo (2 ^ n) (3 * 2 ^ n) := by
      ext i
      rw [Finset.mem_filter, Finset.mem_range, Finset.mem_Ioo]
      constructor
      · rintro ⟨h1, h2⟩
        obtain ⟨b, e1, e2⟩ := occupied_exact_arithmetic hJ hs h1 spin
        rw [e1] at h2
        have := (inFermiSea_iff hN).1 (e2.1 (by injection h2))
        omega
      · intro h
        have h1 : i < 2 ^ (n + 2) := by omega
        obtain ⟨b, e1, e2⟩ := occupied_exact_arithmetic hJ hs h1 spin
        exact ⟨h1, by rw [e1, e2.2 ((inFermiSea_iff hN).2 (by omega))]⟩
    rw [this, Nat.card_Ioo]; omega
  · have : {i ∈ Finset.range (2 ^ (n + 2)) | occupiedF double cosF doublePi (2 ^ (n + 2)) J sched (i, spin) = .val true}
        = Finset.Icc (2 ^ n) (3 * 2 ^ n) := by
      ext i
      rw [Finset.mem_filter, Finset.mem_range, Finset.mem_Icc]
      constructor
      · rintro ⟨h1, h2⟩
        by_cases hF : FermiPoint (2 ^ (n + 2)) i
        · rw [fermiPoint_iff hN] at hF; omega
        · obtain ⟨b, e1, e2⟩ := occupiedF_double_partial hN hle hc hv hJ hs h1 hF spin
          rw [e1] at h2
          have := (inFermiSea_iff hN).1 (e2.1 (by injection h2))
          omega
      · intro h
        have h1 : i < 2 ^ (n + 2) := by omega
        refine ⟨h1, ?_⟩
        by_cases hF : FermiPoint (2 ^ (n + 2)) i
        · exact fermiPoint_pow_two n hc hv hJ hs hF spin
        · obtain ⟨b, e1, e2⟩ := occupiedF_double_partial hN hle hc hv hJ hs h1 hF spin
          rw [fermiPoint_iff hN] at hF
          rw [e1, e2.2 ((inFermiSea_iff hN).2 (by omega))]
    rw [this, Nat.card_Icc]; omega

/-- The exact cosine meets the hypothesis on `cosF`; and a Brillouin zone of 6 sites the hypotheses of `occupiedF_exact`, with a momentum
inside the Fermi sea and one outside. -/
example : CosRelative cos 0 ∧ ¬ 4 ∣ 6 ∧ InFermiSea 6 2 ∧ ¬ InFermiSea 6 1 ∧ FermiPoint 8 2 ∧ ¬ FermiPoint 8 3 := by
  refine ⟨fun x => by simp, by norm_num, ?_, ?_, ?_, ?_⟩
  · rw [inFermiSea_iff (by norm_num)]; norm_num
  · rw [inFermiSea_iff (by norm_num)]; norm_num
  · rw [fermiPoint_iff (by norm_num)]; norm_num
  · rw [fermiPoint_iff (by norm_num)]; norm_num

end Ieompp.Hubbard
