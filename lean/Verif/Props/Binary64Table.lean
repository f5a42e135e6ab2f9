import Verif.Model.Binary64Observables
import Verif.Props.Binary64Step
import Verif.Props.FloatOccupation
import Verif.Props.JumpFloat

/-! # C118, first part: expectation values with underflow and overflow -/

set_option autoImplicit false
set_option linter.unusedSectionVars false

namespace Ieompp.IEEE

open Ieompp.Spec ODE RealSpace
open MomentumSpace (vecAt)

variable {rnd : ℝ → Res ℝ} {fl sinF : ℝ → ℝ} {u tiny huge : ℝ} {K : ℕ}

/-- An arithmetic, as the function `fl` as long as nothing overflows, for computations with at most `K` roundings in a row. -/
structure Machine (rnd : ℝ → Res ℝ) (fl : ℝ → ℝ) (u tiny huge : ℝ) (K : ℕ) : Prop where
  gradual : Gradual fl u tiny
  agrees : Agrees rnd fl huge
  pow : (1 + u) ^ K ≤ 3
  small : u ≤ 1 / 1000
  tiny_le : tiny ≤ 1 / 4
  huge_ge : 1000 ≤ huge

/-- Numbers that neither underflow nor overflow. -/
def Fits (tiny huge A : ℝ) : Prop := tiny ≤ A ∧ 3 * A ≤ huge

namespace Machine

variable (M : Machine rnd fl u tiny huge K)
include M

theorem nonneg : 0 ≤ u := M.gradual.nonneg

theorem tiny_nonneg : 0 ≤ tiny := M.gradual.tiny_nonneg

theorem fits {A : ℝ} (h1 : 1 / 4 ≤ A) (h2 : A ≤ 300) : Fits tiny huge A := ⟨M.tiny_le.trans h1, by linarith [M.huge_ge]⟩

theorem pow_le {k : ℕ} (hk : k ≤ K) : (1 + u) ^ k ≤ 3 :=
  (pow_le_pow_right₀ (by linarith [M.nonneg]) hk).trans M.pow

variable {k l : ℕ} {x x' y y' A B : ℝ}

/-- One rounded operation. -/
theorem round (h : ApproxR u k x' x A) (hk : k ≤ K) (hA : Fits tiny huge A) : rnd x' = .val (fl x') ∧ ApproxR u (k + 1) (fl x') x A := by
  have hu := M.nonneg
  have hp : 1 ≤ (1 + u) ^ k := one_le_pow₀ (by linarith)
  have hA0 := h.nonneg
  refine ⟨M.agrees _ (h.le.trans ((mul_le_mul_of_nonneg_right (M.pow_le hk) hA0).trans hA.2)), ?_, h.2⟩
  have h1 := M.gradual.err x'
  have h2 : max |x'| tiny ≤ (1 + u) ^ k * A := max_le h.le (hA.1.trans (by nlinarith))
  have h3 := mul_le_mul_of_nonneg_left h2 hu
  have h4 := h.1
  have h5 := abs_sub_le (fl x') x' x
  have : ((1 + u) ^ (k + 1) - 1) * A = u * ((1 + u) ^ k * A) + ((1 + u) ^ k - 1) * A := by rw [pow_succ]; ring
  linarith

theorem add (hx : ApproxR u k x' x A) (hy : ApproxR u k y' y B) (hk : k ≤ K) (hA : Fits tiny huge (A + B)) :
    rnd (x' + y') = .val (fl (x' + y')) ∧ ApproxR u (k + 1) (fl (x' + y')) (x + y) (A + B) := M.round (.add' rfl hx hy) hk hA

theorem sub (hx : ApproxR u k x' x A) (hy : ApproxR u k y' y B) (hk : k ≤ K) (hA : Fits tiny huge (A + B)) :
    rnd (x' - y') = .val (fl (x' - y')) ∧ ApproxR u (k + 1) (fl (x' - y')) (x - y) (A + B) := by
  have := M.add hx hy.neg hk hA
  simpa [sub_eq_add_neg] using this

theorem mul (hx : ApproxR u k x' x A) (hy : ApproxR u l y' y B) (hk : k + l ≤ K) (hA : Fits tiny huge (A * B)) :
    rnd (x' * y') = .val (fl (x' * y')) ∧ ApproxR u (k + l + 1) (fl (x' * y')) (x * y) (A * B) := M.round (.mul' hx hy) hk hA

theorem const_mul {c : ℝ} (hc : 0 ≤ c) (hx : ApproxR u k x' x A) (hk : k ≤ K) (hA : Fits tiny huge (c * A)) :
    rnd (c * x') = .val (fl (c * x')) ∧ ApproxR u (k + 1) (fl (c * x')) (c * x) (c * A) := by
  have := M.mul ((ApproxR.exact (u := u) c).mono M.nonneg le_rfl (abs_of_nonneg hc).le) hx (by omega) hA
  rwa [Nat.zero_add] at this

theorem half (hx : ApproxR u k x' x A) (hk : k ≤ K) (hA : Fits tiny huge (A / 2)) :
    rnd (x' / 2) = .val (fl (x' / 2)) ∧ ApproxR u (k + 1) (fl (x' / 2)) (x / 2) (A / 2) := by
  have e : ∀ t : ℝ, t / 2 = 1 / 2 * t := fun t => by ring
  rw [e x', e x, e A] at *
  exact M.const_mul (by norm_num) hx hk hA

theorem exact_fits (h : Fits tiny huge |x|) : rnd x = .val (fl x) ∧ ApproxR u 1 (fl x) x |x| := M.round (.exact x) (Nat.zero_le K) h

end Machine

/-! ### The table of expectation values -/

/-- The Fermi momentum. -/
theorem fermiMomentum1DR_ok (M : Machine rnd fl u tiny huge K) (hK : 20 ≤ K) {filling : ℝ} (h0 : 0 ≤ filling) (h1 : filling ≤ 1) :
    fermiMomentum1DR rnd filling = .val (fermiMomentum1DF fl filling) ∧ ApproxR u 2 (fermiMomentum1DF fl filling) (filling * Real.pi) Real.pi := by
  have hpi := Real.pi_gt_three
  have hpi4 := Real.pi_le_four
  have hu := M.nonneg
  obtain ⟨e1, p1⟩ := M.exact_fits (x := Real.pi) (by rw [abs_of_pos Real.pi_pos]; exact M.fits (by linarith) (by linarith))
  rw [abs_of_pos Real.pi_pos] at p1
  have p2 : ApproxR u 1 (filling * fl Real.pi) (filling * Real.pi) Real.pi := by
    have := ApproxR.mul' (ApproxR.exact (u := u) filling) p1
    rw [abs_of_nonneg h0] at this
    exact this.mono hu (by omega) (by nlinarith)
  obtain ⟨e2, p3⟩ := M.round p2 (by omega) (M.fits (by linarith) (by linarith))
  exact ⟨by rw [fermiMomentum1DR, e1, Res.bind_val, e2, fermiMomentum1DF], p3⟩

/-- Every value of the table is off by at most `20 u`. -/
theorem evValue1DR_ok (M : Machine rnd fl u tiny huge K) (hK : 20 ≤ K) (hsin : ∀ x, |sinF x - Real.sin x| ≤ u) {filling : ℝ}
    (h0 : 0 ≤ filling) (h1 : filling ≤ 1) {d : ℕ} (hd : d ≠ 0) (hfit : 12 * (d : ℝ) ≤ huge) :
    evValue1DR rnd sinF (fermiMomentum1DF fl filling) 1 d = .val (evValue1DF fl sinF (fermiMomentum1DF fl filling) 1 d) ∧
    ApproxR u 20 (evValue1DF fl sinF (fermiMomentum1DF fl filling) 1 d) (chainCorrelation (filling * Real.pi) d) 1 := by
  have hu := M.nonneg
  have hu1 := M.small
  have hpi := Real.pi_gt_three
  have hpi4 := Real.pi_le_four
  have hd1 : (1 : ℝ) ≤ d := by exact_mod_cast Nat.one_le_iff_ne_zero.2 hd
  have ht := M.tiny_le
  obtain ⟨e1, p1⟩ := M.exact_fits (x := Real.pi) (by rw [abs_of_pos Real.pi_pos]; exact M.fits (by linarith) (by linarith))
  rw [abs_of_pos Real.pi_pos] at p1
  obtain ⟨e2, p2⟩ := M.exact_fits (x := (d : ℝ)) (by rw [abs_of_nonneg (by linarith)]; exact ⟨by linarith, by linarith⟩)
  rw [abs_of_nonneg (by linarith)] at p2
  obtain ⟨-, p3⟩ := fermiMomentum1DR_ok M hK h0 h1
  have hfit' : Fits tiny huge (Real.pi * d) := ⟨by nlinarith, by nlinarith⟩
  obtain ⟨e3, q3⟩ := M.mul p3 p2 (by omega) hfit'
  obtain ⟨e4, p4⟩ := M.round q3 (by omega) hfit'
  obtain ⟨e5, q5⟩ := M.mul p1 p2 (by omega) hfit'
  obtain ⟨e6, p5⟩ := M.round q5 (by omega) hfit'
  rw [← mul_one (fl (fermiMomentum1DF fl filling * fl d))] at e4 p4
  rw [← mul_one (fl (fl Real.pi * fl d))] at e6 p5
  have hval0 : evValue1DF fl sinF (fermiMomentum1DF fl filling) 1 d =
      fl (sinF (fl (fl (fermiMomentum1DF fl filling * fl d) * 1)) / fl (fl (fl Real.pi * fl d) * 1)) := rfl
  have hR : evValue1DR rnd sinF (fermiMomentum1DF fl filling) 1 d =
      divR rnd (sinF (fl (fl (fermiMomentum1DF fl filling * fl d) * 1))) (fl (fl (fl Real.pi * fl d) * 1)) := by
    unfold evValue1DR
    simp only [e1, e2, e3, e4, e5, e6, Res.bind_val]
  rw [hR, hval0]
  set a' := fl (fl (fermiMomentum1DF fl filling * fl d) * 1) with ha'
  set D' := fl (fl (fl Real.pi * fl d) * 1) with hD'
  set a := filling * Real.pi * d with ha
  set D := Real.pi * (d : ℝ) with hD
  have hDpos : 3 < D := by rw [hD]; nlinarith
  have g5 : (1 + u) ^ 5 - 1 ≤ 10 * u := by
    have := pow_sub_one_le (n := 5) hu (by push_cast; linarith)
    push_cast at this; linarith
  have g4 : (1 + u) ^ 4 - 1 ≤ 8 * u := by
    have := pow_sub_one_le (n := 4) hu (by push_cast; linarith)
    push_cast at this; linarith
  have q1 : |a' - a| ≤ 10 * u * D := p4.1.trans (mul_le_mul_of_nonneg_right g5 (by linarith))
  have q2 : |D' - D| ≤ 8 * u * D := p5.1.trans (mul_le_mul_of_nonneg_right g4 (by linarith))
  have q3 : |sinF a' - Real.sin a| ≤ u + 10 * u * D := by
    have e1 := hsin a'
    have e2 := Real.abs_sin_sub_sin_le a' a
    have e3 := abs_add_le (sinF a' - Real.sin a') (Real.sin a' - Real.sin a)
    rw [sub_add_sub_cancel] at e3
    linarith
  have hD'lo : 99 / 100 * D ≤ D' := by
    have := (abs_le.1 q2).1
    have : 8 * u * D ≤ 1 / 100 * D := mul_le_mul_of_nonneg_right (by linarith) (by linarith)
    linarith
  have hD'pos : 0 < D' := by linarith
  have hsa : |Real.sin a| ≤ D := by
    have e0 : 0 ≤ a := by rw [ha]; positivity
    have := Real.abs_sin_le_abs (x := a)
    rw [abs_of_nonneg e0] at this
    refine this.trans ?_
    rw [ha, hD, mul_assoc]
    nlinarith
  have hval : |Real.sin a / D| ≤ 1 := by
    rw [abs_div, abs_of_pos (show 0 < D by linarith), div_le_one (by linarith)]; exact hsa
  have hq : |sinF a' / D' - Real.sin a / D| ≤ 19 * u := by
    have e : sinF a' / D' - Real.sin a / D = ((sinF a' - Real.sin a) + (D - D') * (Real.sin a / D)) / D' := by
      field_simp; ring
    rw [e, abs_div, abs_of_pos hD'pos, div_le_iff₀ hD'pos]
    refine (abs_add_le _ _).trans ?_
    rw [abs_mul, abs_sub_comm D D']
    have e1 : |D' - D| * |Real.sin a / D| ≤ 8 * u * D * 1 := mul_le_mul q2 hval (abs_nonneg _) (by positivity)
    have e2 : u ≤ u * (D / 3) := by nlinarith
    have e3 : 19 * u * (99 / 100 * D) ≤ 19 * u * D' := mul_le_mul_of_nonneg_left hD'lo (by positivity)
    have e4 : 0 ≤ u * D := by positivity
    nlinarith
  have hap : ApproxR u 19 (sinF a' / D') (Real.sin a / D) 1 := by
    refine ⟨hq.trans ?_, hval⟩
    have := one_add_mul_le_pow (a := u) (by linarith) 19
    push_cast at this
    linarith
  obtain ⟨e7, p7⟩ := M.round hap (by omega) (M.fits (by norm_num) (by norm_num))
  rw [chainCorrelation_one hd]
  refine ⟨?_, p7⟩
  rw [divR, if_neg hD'pos.ne', e7]

theorem evTable1DR_ok {c : Chain ℝ} {N : ℕ} (filling kF : ℝ) {sched : List ℕ}
    (hs : sched.Perm (List.range' 1 (N / 2))) (h : ∀ d, d ≠ 0 → d ≤ N / 2 → evValue1DR rnd sinF kF c.dx d = .val (evValue1DF fl sinF kF c.dx d)) :
    evTable1DR rnd sinF c filling kF sched = evTable1DF fl sinF c filling kF sched := by
  have hm : ∀ d, d ∈ sched ↔ 1 ≤ d ∧ d ≤ N / 2 := by
    intro d; rw [hs.mem_iff, List.mem_range'_1]; omega
  have key : ∀ (l : List ℕ) (v : List ℝ), (∀ d ∈ l, d ≠ 0 ∧ d ≤ N / 2) →
      storeLoop (evValue1DR rnd sinF kF c.dx) l v = storeLoop (fun d => .val (evValue1DF fl sinF kF c.dx d)) l v := by
    intro l v hl
    unfold storeLoop
    refine List.foldl_ext _ _ _ fun acc d hd => ?_
    rw [h d (hl d hd).1 (hl d hd).2]
  unfold evTable1DR evTable1DF
  congr 1
  funext v
  exact key sched v fun d hd => by have := (hm d).1 hd; omega

/-- The table of the program, by site. -/
theorem tableR_ok (M : Machine rnd fl u tiny huge K) (hK : 20 ≤ K) (hsin : ∀ x, |sinF x - Real.sin x| ≤ u) {N : ℕ} (hN : 1 ≤ N)
    (hfit : 12 * (N : ℝ) ≤ huge) {filling : ℝ} (h0 : 0 ≤ filling) (h1 : filling ≤ 1) {sched : List ℕ} (hs : sched.Perm (List.range' 1 (N / 2))) :
    ∃ values, evTable1DR rnd sinF (Chain.real (K := ℝ) N 1) filling (fermiMomentum1DF fl filling) sched = .val values ∧
      ∃ ev : ℕ → ℕ → ℝ, Program.evFunction (Chain.real (K := ℝ) N 1) values = siteEv ev ∧
        ∀ a < N, ∀ b < N, ApproxR u 20 (ev a b) (ringCorrelation filling N a b) 1 := by
  have hc := Chain.Constructed.real (N := N) (1 : ℝ) hN rfl
  have hd : ∀ d, d ≠ 0 → d ≤ N / 2 → _ := fun d hd hdN => evValue1DR_ok (rnd := rnd) (sinF := sinF) M hK hsin h0 h1 hd (by
    have : (d : ℝ) ≤ N := by exact_mod_cast (by omega : d ≤ N)
    linarith)
  obtain ⟨values, e1, _, e3⟩ := evTable1DF_ok (fl := fl) (sinF := sinF) hc filling (fermiMomentum1DF fl filling) hs
  refine ⟨values, by rw [evTable1DR_ok filling _ hs fun d h2 h3 => (hd d h2 h3).1, e1],
    fun a b => match evLookup1D (Chain.real (K := ℝ) N 1) values a b with | .val x => x | _ => 0, rfl, ?_⟩
  intro a ha b hb
  set d := ringDistance N a b with hd'
  have hdist : (Chain.real (K := ℝ) N 1).latticeDistance a b = d := by
    have hsp := Program.ringDistance_spec ha hb
    rw [← ringDist_spec] at hsp
    rw [hd', ← hsp]; unfold ringDist Chain.latticeDistance; rw [hc.fields.1]; rfl
  have hdN : d ≤ N / 2 := by rw [hd']; unfold ringDistance; omega
  have h2 : evLookup1D (Chain.real (K := ℝ) N 1) values a b =
      .val (if d = 0 then filling else evValue1DF fl sinF (fermiMomentum1DF fl filling) 1 d) := by
    unfold evLookup1D vecAt
    rw [hdist, e3 d hdN]
    rfl
  simp only [h2]
  unfold ringCorrelation
  rw [← hd']
  split_ifs with hz
  · rw [hz, Nat.cast_zero, chainCorrelation_zero]
    exact (ApproxR.exact filling).mono M.nonneg (by omega) (by rw [abs_of_nonneg h0]; exact h1)
  · exact (hd d hz hdN).2

/-! ### The coefficients of the double sum -/

section Coefficients
variable {L : ℕ} (M : Machine rnd fl u tiny huge K) (hL : 3 * L + 7 ≤ K)
include M hL

theorem coefficient_11 {e' e : ℝ} (h : ApproxR u L e' e 1) : ∃ x, rnd (2 * e') = .val x ∧ ApproxR u (3 * L + 7) x (2 * e) 34 ∧ ApproxR u (3 * L + 7) x (2 * e) 2 := by
  obtain ⟨e1, p1⟩ := M.const_mul (c := 2) (by norm_num) h (by omega) (M.fits (by norm_num) (by norm_num))
  exact ⟨_, e1, p1.mono M.nonneg (by omega) (by norm_num), p1.mono M.nonneg (by omega) (by norm_num)⟩

theorem coefficient_13 {e1' e1 e2' e2 : ℝ} (p : Prop) [Decidable p] (h1 : ApproxR u L e1' e1 1) (h2 : ApproxR u L e2' e2 1) :
    ∃ x, ((if p then rnd (e1' - 0.5) else .val e1').bind fun r => (rnd (r * e2')).bind fun r => rnd (4 * r)) = .val x ∧
      ApproxR u (3 * L + 7) x (4 * ((if p then e1 - 0.5 else e1) * e2)) 34 := by
  have hu := M.nonneg
  have h3 : ∃ r, (if p then rnd (e1' - 0.5) else .val e1') = .val r ∧ ApproxR u (L + 1) r (if p then e1 - 0.5 else e1) (3 / 2) := by
    split_ifs
    · obtain ⟨e, q⟩ := M.sub h1 ((ApproxR.exact (u := u) 0.5).mono hu (Nat.zero_le L) (show |(0.5 : ℝ)| ≤ 0.5 by norm_num [abs_le])) (by omega)
        (M.fits (by norm_num) (by norm_num))
      exact ⟨_, e, q.mono hu le_rfl (by norm_num)⟩
    · exact ⟨_, rfl, h1.mono hu (by omega) (by norm_num)⟩
  obtain ⟨r, hr, h3⟩ := h3
  obtain ⟨e4, p4⟩ := M.mul h3 h2 (by omega) (M.fits (by norm_num) (by norm_num))
  obtain ⟨e5, p5⟩ := M.const_mul (c := 4) (by norm_num) p4 (by omega) (M.fits (by norm_num) (by norm_num))
  exact ⟨_, by rw [hr, Res.bind_val, e4, Res.bind_val, e5], p5.mono hu (by omega) (by norm_num)⟩

theorem coefficient_33 {a' a b' b c' c d' d e' e : ℝ} (p q r : Prop) [Decidable p] [Decidable q] [Decidable r] (ha : ApproxR u L a' a 1)
    (hb : ApproxR u L b' b 1) (hc : ApproxR u L c' c 1) (hd : ApproxR u L d' d 1) (he : ApproxR u L e' e 1) :
    ∃ x, ((rnd (8 * a')).bind fun x => (rnd (x * b')).bind fun x => (rnd (x * c')).bind fun ev6 =>
      (rnd (8 * a')).bind fun x => (rnd (x * d')).bind fun x =>
      (rnd ((if r then 1 else 0) - e')).bind fun d => (rnd (x * d)).bind fun x => (rnd (ev6 + x)).bind fun ev6 =>
      (if p then (rnd (4 * a')).bind fun x => (rnd (x * c')).bind fun x => rnd (0 - x) else .val 0).bind fun ev4 =>
      (if q then (rnd (4 * a')).bind fun x => (rnd (x * b')).bind fun x => rnd (ev4 - x) else .val ev4).bind fun ev4 =>
      (if p ∧ q then (rnd (2 * a')).bind fun x => rnd (0 + x) else .val 0).bind fun ev2 =>
      (rnd (ev6 + ev4)).bind fun s => rnd (s + ev2)) = .val x ∧
    ApproxR u (3 * L + 7) x
      (8 * a * b * c + 8 * a * d * ((if r then 1 else 0) - e)
        + (if q then (if p then 0 - 4 * a * c else 0) - 4 * a * b else (if p then 0 - 4 * a * c else 0))
        + (if p ∧ q then 0 + 2 * a else 0)) 34 := by
  have hu := M.nonneg
  have z : ∀ k, ApproxR u k 0 0 0 := fun k => ⟨by simp, by simp⟩
  obtain ⟨o1, a8⟩ := M.const_mul (c := 8) (by norm_num) ha (by omega) (M.fits (by norm_num) (by norm_num))
  obtain ⟨o2, a4⟩ := M.const_mul (c := 4) (by norm_num) ha (by omega) (M.fits (by norm_num) (by norm_num))
  obtain ⟨o3, a2⟩ := M.const_mul (c := 2) (by norm_num) ha (by omega) (M.fits (by norm_num) (by norm_num))
  obtain ⟨o4, s0⟩ := M.mul a8 hb (by omega) (M.fits (by norm_num) (by norm_num))
  obtain ⟨o5, s1⟩ := M.mul s0 hc (by omega) (M.fits (by norm_num) (by norm_num))
  replace s1 := s1.mono hu (show _ ≤ 3 * L + 4 by omega) (show _ ≤ (8 : ℝ) by norm_num)
  have h1 : ApproxR u L (if r then 1 else 0 : ℝ) (if r then 1 else 0) 1 := by
    refine (ApproxR.exact _).mono hu (Nat.zero_le L) ?_
    split_ifs <;> simp
  obtain ⟨o6, s2⟩ := M.sub h1 he (by omega) (M.fits (by norm_num) (by norm_num))
  obtain ⟨o7, s3⟩ := M.mul a8 hd (by omega) (M.fits (by norm_num) (by norm_num))
  obtain ⟨o8, s4⟩ := M.mul s3 s2 (by omega) (M.fits (by norm_num) (by norm_num))
  replace s4 := s4.mono hu (show _ ≤ 3 * L + 4 by omega) (show _ ≤ (16 : ℝ) by norm_num)
  obtain ⟨o9, s5⟩ := M.add s1 s4 (by omega) (M.fits (by norm_num) (by norm_num))
  obtain ⟨o10, m1⟩ := M.mul a4 hc (by omega) (M.fits (by norm_num) (by norm_num))
  obtain ⟨o11, m2⟩ := M.mul a4 hb (by omega) (M.fits (by norm_num) (by norm_num))
  have t1 : ∃ v, (if p then (rnd (4 * a')).bind fun x => (rnd (x * c')).bind fun x => rnd (0 - x) else .val 0) = .val v ∧
      ApproxR u (2 * L + 3) v (if p then 0 - 4 * a * c else 0) 4 := by
    split_ifs
    · obtain ⟨o, t⟩ := M.sub (z (2 * L + 2)) (m1.mono hu (show _ ≤ 2 * L + 2 by omega) le_rfl) (by omega) (M.fits (by norm_num) (by norm_num))
      exact ⟨_, by rw [o2, Res.bind_val, o10, Res.bind_val, o], t.mono hu le_rfl (by norm_num)⟩
    · exact ⟨0, rfl, (z (2 * L + 3)).mono hu le_rfl (by norm_num)⟩
  obtain ⟨v1, w1, t1⟩ := t1
  have t2 : ∃ v, (if q then (rnd (4 * a')).bind fun x => (rnd (x * b')).bind fun x => rnd (v1 - x) else .val v1) = .val v ∧
      ApproxR u (2 * L + 4) v (if q then (if p then 0 - 4 * a * c else 0) - 4 * a * b else (if p then 0 - 4 * a * c else 0)) 8 := by
    by_cases hq : q
    · simp only [if_pos hq]
      obtain ⟨o, t⟩ := M.sub t1 (m2.mono hu (show _ ≤ 2 * L + 3 by omega) le_rfl) (by omega) (M.fits (by norm_num) (by norm_num))
      exact ⟨_, by rw [o2, Res.bind_val, o11, Res.bind_val, o], t.mono hu le_rfl (by norm_num)⟩
    · simp only [if_neg hq]
      exact ⟨v1, rfl, t1.mono hu (by omega) (by norm_num)⟩
  obtain ⟨v2, w2, t2⟩ := t2
  have t3 : ∃ v, (if p ∧ q then (rnd (2 * a')).bind fun x => rnd (0 + x) else .val 0) = .val v ∧
      ApproxR u (L + 2) v (if p ∧ q then 0 + 2 * a else 0) 2 := by
    split_ifs
    · obtain ⟨o, t⟩ := M.add (z (L + 1)) a2 (by omega) (M.fits (by norm_num) (by norm_num))
      exact ⟨_, by rw [o3, Res.bind_val, o], t.mono hu le_rfl (by norm_num)⟩
    · exact ⟨0, rfl, (z (L + 2)).mono hu le_rfl (by norm_num)⟩
  obtain ⟨v3, w3, t3⟩ := t3
  obtain ⟨o12, r1⟩ := M.add s5 (t2.mono hu (show _ ≤ 3 * L + 4 + 1 by omega) le_rfl) (by omega) (M.fits (by norm_num) (by norm_num))
  obtain ⟨o13, r2⟩ := M.add r1 (t3.mono hu (show _ ≤ 3 * L + 4 + 1 + 1 by omega) le_rfl) (by omega) (M.fits (by norm_num) (by norm_num))
  refine ⟨_, ?_, r2.mono hu (by omega) (by norm_num)⟩
  simp only [o1, o4, o5, o6, o7, o8, o9, w1, w2, w3, o12, o13, Res.bind_val]

end Coefficients

theorem weightsR_ok (M : Machine rnd fl u tiny huge K) {N L : ℕ} (hL : 3 * L + 7 ≤ K) {ev ev' : ℕ → ℕ → ℝ}
    (h : ∀ a < N, ∀ b < N, ApproxR u L (ev' a b) (ev a b) 1) :
    ∃ E', WeightsF u (3 * L + 7) (ev11R rnd (siteEv ev')) (ev13R rnd (siteEv ev')) (ev33R rnd (siteEv ev')) (basis3 N) (conjOf (basis3 N)) N
      (N + N * N * N) (weight ev (basis3 N)) E' := by
  have key : ∀ p q, p < N + N * N * N → q < N + N * N * N → p < N ∨ N ≤ q →
      ∃ x', (q < N → evAt (basis3 N) (conjOf (basis3 N)) (ev11R rnd (siteEv ev')) p q = .val x') ∧
        (p < N → N ≤ q → evAt (basis3 N) (conjOf (basis3 N)) (ev13R rnd (siteEv ev')) p q = .val x') ∧
        (N ≤ p → evAt (basis3 N) (conjOf (basis3 N)) (ev33R rnd (siteEv ev')) p q = .val x') ∧
        ApproxR u (3 * L + 7) x' (2 * weight ev (basis3 N) p q) 34 := by
    intro p q hp hq hpq
    rcases basis3_cases hp with ⟨i, hpi, hi, e⟩ | ⟨a, b, c, hNp, ha, hb, hc, e⟩ <;>
      rcases basis3_cases hq with ⟨j, hqj, hj, e'⟩ | ⟨a', b', c', hNq, ha', hb', hc', e'⟩
    · obtain ⟨x, e1, h1, -⟩ := coefficient_11 M hL (h i hi j hj)
      refine ⟨x, fun _ => ?_, fun _ h2 => absurd h2 (by omega), fun h2 => absurd h2 (by omega), ?_⟩
      · rw [evAt, vecAt_get e, vecAt_get (conj_get e')]; exact e1
      · rw [weight, e, e']; exact h1
    · obtain ⟨x, e1, h1⟩ := coefficient_13 M hL (c' = b') (h c' hc' b' hb') (h i hi a' ha')
      refine ⟨x, fun h2 => absurd h2 (by omega), fun _ _ => ?_, fun h2 => absurd h2 (by omega), ?_⟩
      · rw [evAt, vecAt_get e, vecAt_get (conj_get e')]; exact e1
      · have e2 : 2 * weight ev (basis3 N) p q = 4 * ((if c' = b' then ev c' b' - 0.5 else ev c' b') * ev i a') := by
          rw [weight, e, e']
          simp only [Spec.one, Spec.three]
          rcases eq_or_ne c' b' with h2 | h2
          · subst h2; simp; ring
          · rw [if_neg h2, if_neg (Ne.symm h2)]; ring
        rw [e2]; exact h1
    · omega
    · obtain ⟨x, e1, h1⟩ := coefficient_33 M hL (b = c) (c' = b') (c = c') (h a ha a' ha') (h b hb c hc) (h c' hc' b' hb') (h b hb b' hb') (h c' hc' c hc)
      have e2 : (8 * ev a a' * ev b c * ev c' b' + 8 * ev a a' * ev b b' * ((if c = c' then 1 else 0) - ev c' c)
          + (if c' = b' then (if b = c then 0 - 4 * ev a a' * ev c' b' else 0) - 4 * ev a a' * ev b c
              else (if b = c then 0 - 4 * ev a a' * ev c' b' else 0))
          + (if b = c ∧ c' = b' then 0 + 2 * ev a a' else 0)) = 2 * weight ev (basis3 N) p q := by
        have e3 := code_33 (ev := ev) ha hb hc ha' hb' hc' e e'
        rw [evAt, vecAt_get e, vecAt_get (conj_get e')] at e3
        rw [weight, e, e']
        exact Res.val.inj e3
      rw [e2] at h1
      refine ⟨x, fun h2 => absurd h2 (by omega), fun h2 => absurd h2 (by omega), fun _ => ?_, h1⟩
      rw [evAt, vecAt_get e, vecAt_get (conj_get e')]; exact e1
  choose! E' hE' using key
  refine ⟨E', ⟨fun i j hi hj => (hE' i j (by omega) (by omega) (.inl hi)).1 hj,
    fun i j hi hN hj => (hE' i j (by omega) hj (.inl hi)).2.1 hi hN,
    fun i j hi hi' hj hj' => (hE' i j hi' hj' (.inr hj)).2.2.1 hi, fun i hi j hj hij => (hE' i j hi hj hij).2.2.2⟩⟩

end Ieompp.IEEE
