import Verif.Props.AssertionImag
import Verif.Props.FloatReduction

/-!
# C121: the programs that assert on an imaginary part
-/

set_option autoImplicit false
set_option linter.unusedSectionVars false

namespace Ieompp.Program

open Chk RealSpace MomentumSpace ODE Spec

variable {N : ℕ} {sort : List (Triplet ℝ) → List (Triplet ℝ)}

/-- C121: `hubbard_real_1d_kinetic_rk4` in exact arithmetic: no assertion fails. -/
theorem real1dKineticRk4_exact (hN : 0 < N) {e : Execution} (he : e.ValidKinetic N) (w : Work ℂ) (J dt tEnd : ℝ) (interval : ℕ)
    {filling : ℝ} (h0 : 0 ≤ filling) (h1 : filling ≤ 1) :
    real1dKineticRk4A id Real.sin sort e w N J dt tEnd interval filling = lift (real1dKineticRk4F id Real.sin sort e w N J dt tEnd interval filling) := by
  unfold real1dKineticRk4A real1dKineticRk4F
  simp only [chainAssert_pos hN, andThen_some, evTable1DA_eq _ h0 h1, andThen_lift]
  obtain ⟨values, e1, ev, hev, htab⟩ := table_ok (N := N) hN filling he.table
  have e1' : evTable1DF id Real.sin (Chain.real (K := ℝ) N 1) filling (fermiMomentum1DF id filling) e.table = .val values := e1
  rw [e1', Res.bind_val, Res.bind_val]
  have hsym : ∀ a < N, ∀ b < N, ev a b = ev b a := fun a ha b hb => by
    rw [(htab a ha b hb).2, (htab b hb a ha).2, ringCorrelation_symm]
  rw [hev]
  exact run_eq (fun m hm => initKineticMatrix_dims hm) (fun s hs => by
    rw [siteOccupation1_exact ev hsym hs he.conjugation (he.loop1 _), andThen_lift, lift_map]) (fun s r hr => by
    revert hr
    cases siteOccupation1F id (siteEv ev) (basis1 N) (getConjugate e.conjugation (basis1 N)) s.2.2 (e.threads s.1) (e.loop1 s.1) <;>
      intro hr <;> cases hr
    rfl)

/-! ### The program in momentum space -/

section
variable {fl cosF : ℝ → ℝ}

theorem parallelModify_length {τ : Type*} (f : τ → τ) : ∀ (sched : List ℕ) (v : List τ), (parallelModify f sched v).length = v.length := by
  intro sched
  induction sched with
  | nil => intro v; rfl
  | cons i sched ih =>
    intro v
    have := ih (v.modify i f)
    unfold parallelModify at this ⊢
    rw [List.foldl_cons, this, List.length_modify]

theorem particleNumberA_guarded (vec : List ℂ) (table : List (Contribution ℝ)) :
    Guarded (particleNumberA fl vec table) (particleNumberF fl vec table) := by
  unfold particleNumberA particleNumberF
  cases table.foldl (fun (acc : Res ℂ) c => acc.bind fun r => particleStepF fl vec r c) (.val 0) with
  | ub => exact .inl rfl
  | diverges => exact .inl rfl
  | val z => exact realPart_guarded z

theorem integrateA_eq {n : ℕ} {h : ℝ} {m : Sparse ℝ} (hm : m.rows = n ∧ m.columns = n) : ∀ (steps : ℕ) (w : Work ℂ) (u : List ℂ), u.length = n →
    integrateA fl n h m steps w u = lift (integrateF fl n h (timesIF fl m) (storedColumns m) steps w u) := by
  intro steps
  induction steps with
  | zero => intro w u _; rfl
  | succ steps ih =>
    intro w u hu
    rw [integrateA, integrateF, assertAll_true (fun c hc => by
      simp only [List.mem_cons, List.not_mem_nil, or_false] at hc
      rcases hc with rfl | rfl | rfl <;> simp [hm.1, hm.2, hu]), andThen_some]
    cases hs : stepMatrixF fl n h (timesIF fl m) (storedColumns m) w u with
    | ub => rfl
    | diverges => rfl
    | val r => exact ih _ _ ((stepMatrixF_length hs).trans hu)

theorem integrateF_length {n : ℕ} {h : ℝ} {m : ℕ → ℕ → ℂ} {cols : ℕ → List ℕ} : ∀ (steps : ℕ) (w : Work ℂ) (u : List ℂ) (r : Work ℂ × List ℂ),
    integrateF fl n h m cols steps w u = .val r → r.2.length = u.length := by
  intro steps
  induction steps with
  | zero => intro w u r hr; cases hr; rfl
  | succ steps ih =>
    intro w u r hr
    rw [integrateF] at hr
    cases hs : stepMatrixF fl n h m cols w u with
    | ub => rw [hs] at hr; exact absurd hr (by simp)
    | diverges => rw [hs] at hr; exact absurd hr (by simp)
    | val r' =>
      rw [hs] at hr
      exact (ih _ _ _ hr).trans (stepMatrixF_length hs)

theorem momentumDims {basis : List HMonomial} {Nb M : ℕ} {eps : ℕ → ℝ} {U : ℝ} {m : Sparse ℝ} (h : MomentumSpace.initMatrixF fl basis Nb eps U M = .val m) :
    m.rows = basis.length ∧ m.columns = basis.length := Sparse.fillRows_dims _ _ _ h

/-- C121: `hubbard_momentum_1d_rk4`: the run is the one without assertions, or it ends with the failure of an assertion on an imaginary part. -/
theorem momentum1dRk4_guarded (hN : 0 < N) (p : ℝ) (conjugation energies : List ℕ) (w : Work ℂ) (J U dt : ℝ) :
    Guarded (momentum1dRk4A fl cosF p conjugation energies w N J U dt) (momentum1dRk4F fl cosF p conjugation energies w N J U dt) := by
  unfold momentum1dRk4A momentum1dRk4F
  simp only [chainAssert_pos hN, andThen_some]
  have go : ∀ {α β : Type} (x : Res α) {f : α → Chk β} {g : α → Res β}, (∀ a, x = .val a → Guarded (f a) (g a)) → Guarded (x.bind f) (x.bind g) := by
    intro α β x f g h
    cases x with
    | val a => exact h a rfl
    | ub => exact .inl rfl
    | diverges => exact .inl rfl
  refine go _ fun basis _ => go _ fun values _ => go _ fun m hm => go _ fun h hh => ?_
  rw [assertAll_true (fun c hc => by
    simp only [List.mem_cons, List.not_mem_nil, or_false] at hc
    rw [hc]
    unfold RealSpace.getConjugate
    rw [parallelModify_length, beq_self_eq_true]), andThen_some]
  refine go _ fun table _ => (particleNumberA_guarded h table).bind fun first _ => ?_
  rw [integrateA_eq (momentumDims hm) 8 w h (initVector_length hh), andThen_lift]
  refine go _ fun r _ => ?_
  have := (particleNumberA_guarded (fl := fl) r.2 table).bind (f := fun second => .val (some (first, second)))
    (g := fun second => .val (first, second)) fun second _ => .inl rfl
  rw [show (particleNumberF fl r.2 table).map (fun second => (first, second)) = (particleNumberF fl r.2 table).bind fun second => .val (first, second) from by
    cases particleNumberF fl r.2 table <;> rfl]
  exact this

theorem particleFold_id (vec : List ℂ) (table : List (Contribution ℝ)) :
    table.foldl (fun (acc : Res ℂ) c => acc.bind fun r => particleStepF id vec r c) (.val 0) = particleSum vec table := by
  unfold particleSum
  congr 1
  funext acc c
  congr 1
  funext r
  unfold MomentumSpace.particleStepF MomentumSpace.particleStep
  refine ite_congr rfl (fun _ => ?_) fun _ => ?_
  · congr 1
    funext l
    refine congrArg Res.val ?_
    apply Complex.ext <;> simp [addRealF, normF, Complex.normSq_apply]
  · congr 1
    funext l
    congr 1
    funext r'
    refine congrArg Res.val ?_
    rw [RealSpace.addC_id, scaleC_id, mul_comm]
    rfl

/-- C121: `hubbard_momentum_1d_rk4` in exact arithmetic: no assertion fails. -/
theorem momentum1dRk4_exact (hN : 0 < N) {conjugation energies : List ℕ} (hc : conjugation.Perm (List.range (N * N + 1)))
    (he : energies.Perm (List.range N)) (w : Work ℂ) (J U dt : ℝ) :
    ∃ first second, momentum1dRk4A id Real.cos Real.pi conjugation energies w N J U dt = .val (some (first, second)) ∧
      momentum1dRk4 conjugation energies w N J U dt = .val (first, second) := by
  have hq : N / 2 < N := Nat.div_lt_self hN (by norm_num)
  obtain ⟨values, d1, d2⟩ := dispersion_ok N J he
  obtain ⟨second, -, hrun, -⟩ := momentum1dRk4_value N hN J U dt w hc he
  refine ⟨_, second, ?_, hrun⟩
  have hF := momentum1dRk4F_id hN conjugation energies w J U dt
  rw [hrun] at hF
  have hb := MomentumSpace.momentumBasis_eq Real.pi Real.pi_pos N hN (N / 2)
  have hd : Hubbard.chainDispersionF id Real.cos Real.pi N J energies = .val values := d1
  have hconj : RealSpace.getConjugate conjugation (MomentumSpace.Spec.entries N (N / 2)) = conjBasis (MomentumSpace.Spec.entries N (N / 2)) :=
    parallelModify_eq_map _ _ _ (by rw [entries_length]; exact hc)
  have hsea : ∀ k < N, ∀ σ, toLex (k, σ) ∈ fermiSea N J ↔ dispersionFunction values k < 0 := fun k hk σ => by rw [mem_fermiSea hk, d2 k hk]
  have key : ∀ (vec : List ℂ) (table : List (Contribution ℝ)), vec.length = N * N + 1 →
      nonVanishing (MomentumSpace.Spec.entries N (N / 2)) (conjBasis (MomentumSpace.Spec.entries N (N / 2))) (dispersionFunction values) 0 = .val table →
      particleNumberA id vec table = lift (particleNumberF id vec table) := by
    intro vec table hv ht
    obtain ⟨l, z, e1, e2, e3, e4, -⟩ := particleNumber_real hsea hq vec (by rw [hv, entries_length])
    rw [ht] at e1
    cases e1
    unfold particleNumberA
    rw [particleFold_id, e2, Res.bind_val, realPart_real e3, particleNumberF_id, e4]
    rfl
  unfold momentum1dRk4F at hF
  unfold momentum1dRk4A
  simp only [chainAssert_pos hN, andThen_some, (chainFloat_id Real.pi N 1).1, (chainFloat_id Real.pi N 1).2.1, (chainFloat_id Real.pi N 1).2.2.2.2, hb,
    Res.bind_val, hd] at hF ⊢
  cases hm : MomentumSpace.initMatrixF id (MomentumSpace.Spec.entries N (N / 2)) (Chain.momentum Real.pi N).size (dispersionFunction values) U
      (Chain.real (K := ℝ) N 1).size with
  | ub => rw [hm] at hF; exact absurd hF (by simp)
  | diverges => rw [hm] at hF; exact absurd hF (by simp)
  | val m =>
    rw [hm] at hF
    simp only [Res.bind_val] at hF ⊢
    cases hv : initVector (MomentumSpace.Spec.entries N (N / 2)).length with
    | ub => rw [hv] at hF; exact absurd hF (by simp)
    | diverges => rw [hv] at hF; exact absurd hF (by simp)
    | val h =>
      rw [hv] at hF
      simp only [Res.bind_val] at hF ⊢
      have hl := initVector_length hv
      rw [hconj, assertAll_true (fun c hc => by
        simp only [List.mem_cons, List.not_mem_nil, or_false] at hc
        rw [hc]
        unfold conjBasis
        rw [List.length_map, beq_self_eq_true]), andThen_some]
      rw [hconj] at hF
      cases ht : nonVanishing (S := ℝ) (MomentumSpace.Spec.entries N (N / 2)) (conjBasis (MomentumSpace.Spec.entries N (N / 2))) (dispersionFunction values) 0 with
      | ub => rw [ht] at hF; exact absurd hF (by simp)
      | diverges => rw [ht] at hF; exact absurd hF (by simp)
      | val table =>
        rw [ht] at hF
        simp only [Res.bind_val] at hF ⊢
        rw [key h table (hl.trans (entries_length ..)) ht, andThen_lift]
        cases h1 : particleNumberF id h table with
        | ub => rw [h1] at hF; exact absurd hF (by simp)
        | diverges => rw [h1] at hF; exact absurd hF (by simp)
        | val first =>
          rw [h1] at hF
          simp only [Res.bind_val] at hF ⊢
          rw [integrateA_eq (momentumDims hm) 8 w h hl, andThen_lift]
          cases h2 : integrateF id (MomentumSpace.Spec.entries N (N / 2)).length dt (timesIF id m) (storedColumns m) 8 w h with
          | ub => rw [h2] at hF; exact absurd hF (by simp)
          | diverges => rw [h2] at hF; exact absurd hF (by simp)
          | val r =>
            rw [h2] at hF
            simp only [Res.bind_val] at hF ⊢
            rw [key r.2 table ((integrateF_length _ _ _ _ h2).trans (hl.trans (entries_length ..))) ht, andThen_lift]
            cases h3 : particleNumberF id r.2 table with
            | ub => rw [h3] at hF; exact absurd hF (by simp)
            | diverges => rw [h3] at hF; exact absurd hF (by simp)
            | val x =>
              rw [h3, Res.map_val] at hF
              cases hF
              rfl

end

/-! ### The hypotheses can be met -/

/-- `double` arithmetic is a rounding that keeps zero, and there are executions of the loops: in `double` arithmetic no assertion of `hubbard_real_1d_rk4` fails with the
default parameters. -/
example (N : ℕ) (hN : 0 < N) (w : Work ℂ) (interval : ℕ) : ∃ e : Execution, e.Valid N ∧
    real1dRk4A double Real.sin sort e w N 1 1 (double (1 / 100)) 100 interval (1 / 2) =
      lift (real1dRk4F double Real.sin sort e w N 1 1 (double (1 / 100)) 100 interval (1 / 2)) := by
  refine ⟨⟨List.range (RealSpace.basis3 N).length, List.range' 1 (N / 2), fun _ => 1, fun _ => (loopA true N).map fun p => (0, p),
    fun _ => (loopB N (basis3 N).length).map fun p => (0, p), fun _ => (loopC true N (basis3 N).length).map fun p => (0, p)⟩, ?_, ?_⟩
  · exact ⟨List.Perm.refl _, List.Perm.refl _, fun _ => executes_sequential _, fun _ => executes_sequential _, fun _ => executes_sequential _⟩
  · exact real1dRk4_assertions double_zero hN ⟨List.Perm.refl _, List.Perm.refl _, fun _ => executes_sequential _, fun _ => executes_sequential _,
      fun _ => executes_sequential _⟩ w 1 1 _ 100 interval (by norm_num) (by norm_num)

end Ieompp.Program
