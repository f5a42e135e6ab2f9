import Verif.Props.MainOutcome

/-! # C96: the end time and the measurement interval given on the command line -/

set_option autoImplicit false
set_option linter.unusedSectionVars false

namespace Ieompp.Spec

/-- The program ends normally, and its output file consists of the header and one row for each of the times `0`, `I * dt`,
`2 * I * dt`, … up to the first multiple of `dt` that is not less than `tEnd`, where `I` is the interval (at least one). -/
def SimulatesUntil {H O : Type} (main : Res (Main.Outcome (Durability.Traced H O))) (a : App.App) (row : ℝ → O → IO.Text)
    (dt tEnd : ℝ) (interval : ℕ) : Prop :=
  ∃ s acts head, main = .val (.finished a (s, acts)) ∧ a.fs a.outputPath = some head ∧
    s.out.map Prod.fst = (List.range (⌈tEnd / dt⌉₊ / max interval 1 + 1)).map (fun j => ((j * max interval 1 : ℕ) : ℝ) * dt) ∧
    (∃ d, Durability.Run True (Durability.Disk.start (O := O) []) acts d) ∧
    ∀ old d, Durability.Run True (Durability.Disk.start old) acts d → d.file = fileText head row s.out

end Ieompp.Spec

namespace Ieompp.Main

open IO App Ieompp.Spec Durability

theorem times_of_rows {O : Type} {l : List (ℝ × O)} {n : ℕ} {τ : ℕ → ℝ} (hl : l.length = n)
    (h : ∀ j < l.length, ∃ x, l[j]? = some (τ j, x)) : l.map Prod.fst = (List.range n).map τ := by
  apply List.ext_getElem?
  intro j
  by_cases hj : j < n
  · obtain ⟨x, hx⟩ := h j (by omega)
    rw [List.getElem?_map, hx, List.getElem?_map, List.getElem?_range hj]
    rfl
  · rw [List.getElem?_eq_none (by simp; omega), List.getElem?_eq_none (by simp; omega)]

theorem behaves_times {H O : Type} {main : Res (Outcome (Traced H O))} {a : App} {r : Res (Sim.State H O)} {row : ℝ → O → Text}
    (hb : Behaves main a r row) {s : Sim.State H O} (hr : r = .val s) {dt tEnd : ℝ} {interval : ℕ}
    (hl : s.out.length = ⌈tEnd / dt⌉₊ / max interval 1 + 1)
    (h : ∀ j < s.out.length, ∃ x, s.out[j]? = some (((j * max interval 1 : ℕ) : ℝ) * dt, x)) :
    SimulatesUntil main a row dt tEnd interval := by
  obtain ⟨acts, hm, head, hh, hd, hf⟩ := hb.1 s hr
  exact ⟨s, acts, head, hm, hh, times_of_rows hl h, hd, hf⟩

/-- **C96** for `hubbard_real_1d_rk4`: it simulates until `t_end` and reports every `measurement_interval` steps. -/
theorem mainReal1dRk4_times (conv : Conv) (hd : DefaultsConvert progReal1dRk4 kindsReal1dRk4 conv)
    (hc : ∀ t n, conv.nat t = some n → n < 2 ^ 64) (m : Machine) (hs : IsSort m.sort)
    (he : ∀ N, (m.exec N).Valid N) {env : Env} {fs : FS} {args : List Text} {a : App}
    (h : construct progReal1dRk4.options (fun k t => conv.ok (kindOf kindsReal1dRk4 k) t) env fs args = .val (some (.app a))) :
    ∃ N dt tEnd interval, NatSetting conv a "N" N ∧ NumSetting conv a "dt" dt ∧ NumSetting conv a "t_end" tEnd ∧
      NatSetting conv a "measurement_interval" interval ∧
      (3 ≤ N → 0 < dt → SimulatesUntil (mainReal1dRk4 conv m env fs args) a (fun t x => tabRow [m.shw t, m.shw x]) dt tEnd interval) := by
  replace hc : ∀ {a : App} {k : String} {n : ℕ}, NatSetting conv a k n → n < 2 ^ 64 := fun h => nat_range hc h
  obtain ⟨N, J, U, dt, tEnd, interval, filling, sN, sJ, sU, sdt, stEnd, sinterval, sfilling, hb⟩ := mainReal1dRk4_behaves conv hd m h
  refine ⟨N, dt, tEnd, interval, sN, sdt, stEnd, sinterval, fun hN hdt => ?_⟩
  obtain ⟨M, s, hM, hr, hl, h⟩ := Program.real1dRk4_correct hN J U filling tEnd hdt (hc sinterval) hs (he N) m.work
  obtain ⟨C, ω, hQ⟩ := RealSpace.quasiFree_exists N (ringCorrelation filling N)
  obtain ⟨v, hv⟩ := Program.flow_exists (N + N * N * N) (fun i j => M.get i j)
  refine behaves_times hb hr hl fun j hj => ?_
  obtain ⟨x, hx, -⟩ := h C ω hQ v hv j hj
  exact ⟨x, hx⟩

/-- **C96** for `hubbard_real_1d_kinetic_rk4`: it simulates until `t_end` and reports every `measurement_interval` steps. -/
theorem mainReal1dKineticRk4_times (conv : Conv) (hd : DefaultsConvert progReal1dKineticRk4 kindsReal1dKineticRk4 conv)
    (hc : ∀ t n, conv.nat t = some n → n < 2 ^ 64) (m : Machine) (hs : IsSort m.sort)
    (he : ∀ N, (m.exec N).ValidKinetic N) {env : Env} {fs : FS} {args : List Text} {a : App}
    (h : construct progReal1dKineticRk4.options (fun k t => conv.ok (kindOf kindsReal1dKineticRk4 k) t) env fs args = .val (some (.app a))) :
    ∃ N dt tEnd interval, NatSetting conv a "N" N ∧ NumSetting conv a "dt" dt ∧ NumSetting conv a "t_end" tEnd ∧
      NatSetting conv a "measurement_interval" interval ∧
      (3 ≤ N → 0 < dt → SimulatesUntil (mainReal1dKineticRk4 conv m env fs args) a (fun t x => tabRow [m.shw t, m.shw x]) dt tEnd interval) := by
  replace hc : ∀ {a : App} {k : String} {n : ℕ}, NatSetting conv a k n → n < 2 ^ 64 := fun h => nat_range hc h
  obtain ⟨N, J, dt, tEnd, interval, filling, sN, sJ, sdt, stEnd, sinterval, sfilling, hb⟩ := mainReal1dKineticRk4_behaves conv hd m h
  refine ⟨N, dt, tEnd, interval, sN, sdt, stEnd, sinterval, fun hN hdt => ?_⟩
  obtain ⟨M, s, hM, hr, hl, -, h⟩ := Program.real1dKineticRk4_correct hN J filling tEnd hdt (hc sinterval) hs (he N) m.work
  refine behaves_times hb hr hl fun j hj => ?_
  obtain ⟨x, hx, -⟩ := h j hj
  exact ⟨x, hx⟩

/-- **C96** for `hubbard_real_1d_rk4_coefficients`: it simulates until `t_end` and reports every `measurement_interval` steps. -/
theorem mainReal1dRk4Coefficients_times (conv : Conv) (hd : DefaultsConvert progReal1dRk4Coefficients kindsReal1dRk4Coefficients conv)
    (hc : ∀ t n, conv.nat t = some n → n < 2 ^ 64) (m : Machine) (hs : IsSort m.sort)
     {env : Env} {fs : FS} {args : List Text} {a : App}
    (h : construct progReal1dRk4Coefficients.options (fun k t => conv.ok (kindOf kindsReal1dRk4Coefficients k) t) env fs args = .val (some (.app a))) :
    ∃ N dt tEnd interval, NatSetting conv a "N" N ∧ NumSetting conv a "dt" dt ∧ NumSetting conv a "t_end" tEnd ∧
      NatSetting conv a "measurement_interval" interval ∧
      (3 ≤ N → 0 < dt → SimulatesUntil (mainReal1dRk4Coefficients conv m env fs args) a (fun t o => tabRow (m.shw t :: o.map m.shw)) dt tEnd interval) := by
  replace hc : ∀ {a : App} {k : String} {n : ℕ}, NatSetting conv a k n → n < 2 ^ 64 := fun h => nat_range hc h
  obtain ⟨N, J, U, dt, tEnd, interval, sN, sJ, sU, sdt, stEnd, sinterval, hb⟩ := mainReal1dRk4Coefficients_behaves conv hd m h
  refine ⟨N, dt, tEnd, interval, sN, sdt, stEnd, sinterval, fun hN hdt => ?_⟩
  obtain ⟨M, s, hM, hr, hl, h⟩ := Program.real1dRk4Coefficients_correct hN J U tEnd hdt (hc sinterval) hs m.work
  obtain ⟨v, hv⟩ := Program.flow_exists _ (fun i j => M.get i j)
  refine behaves_times hb hr hl fun j hj => ?_
  obtain ⟨x, hx, -⟩ := h v hv j hj
  exact ⟨x, hx⟩

/-- **C96** for `hubbard_real_1d_kinetic_rk4_coefficients`: it simulates until `t_end` and reports every `measurement_interval` steps. -/
theorem mainReal1dKineticRk4Coefficients_times (conv : Conv) (hd : DefaultsConvert progReal1dKineticRk4Coefficients kindsReal1dKineticRk4Coefficients conv)
    (hc : ∀ t n, conv.nat t = some n → n < 2 ^ 64) (m : Machine) (hs : IsSort m.sort)
     {env : Env} {fs : FS} {args : List Text} {a : App}
    (h : construct progReal1dKineticRk4Coefficients.options (fun k t => conv.ok (kindOf kindsReal1dKineticRk4Coefficients k) t) env fs args = .val (some (.app a))) :
    ∃ N dt tEnd interval, NatSetting conv a "N" N ∧ NumSetting conv a "dt" dt ∧ NumSetting conv a "t_end" tEnd ∧
      NatSetting conv a "measurement_interval" interval ∧
      (3 ≤ N → 0 < dt → SimulatesUntil (mainReal1dKineticRk4Coefficients conv m env fs args) a (fun t o => tabRow (m.shw t :: o.map m.shw)) dt tEnd interval) := by
  replace hc : ∀ {a : App} {k : String} {n : ℕ}, NatSetting conv a k n → n < 2 ^ 64 := fun h => nat_range hc h
  obtain ⟨N, J, dt, tEnd, interval, sN, sJ, sdt, stEnd, sinterval, hb⟩ := mainReal1dKineticRk4Coefficients_behaves conv hd m h
  refine ⟨N, dt, tEnd, interval, sN, sdt, stEnd, sinterval, fun hN hdt => ?_⟩
  obtain ⟨s, hr, hl, h⟩ := Program.real1dKineticRk4Coefficients_correct hN J tEnd hdt (hc sinterval) hs m.work
  refine behaves_times hb hr hl fun j hj => ?_
  obtain ⟨x, hx, -⟩ := h j hj
  exact ⟨x, hx⟩

/-- **C96** for `hubbard_real_1d_rk4_jump`: it simulates until `t_end` and reports every `measurement_interval` steps. -/
theorem mainReal1dRk4Jump_times (conv : Conv) (hd : DefaultsConvert progReal1dRk4Jump kindsReal1dRk4Jump conv)
    (hc : ∀ t n, conv.nat t = some n → n < 2 ^ 64) (m : Machine) (hs : IsSort m.sort)
    (he : ∀ N, (m.jump N).Valid N ∧ (m.jump N).table.Perm (List.range' 1 (N / 2))) {env : Env} {fs : FS} {args : List Text} {a : App}
    (h : construct progReal1dRk4Jump.options (fun k t => conv.ok (kindOf kindsReal1dRk4Jump k) t) env fs args = .val (some (.app a))) :
    ∃ N dt tEnd interval, NatSetting conv a "N" N ∧ NumSetting conv a "dt" dt ∧ NumSetting conv a "t_end" tEnd ∧
      NatSetting conv a "measurement_interval" interval ∧
      (3 ≤ N → 0 < dt → SimulatesUntil (mainReal1dRk4Jump conv m env fs args) a (fun t x => tabRow [m.shw t, m.shw x]) dt tEnd interval) := by
  replace hc : ∀ {a : App} {k : String} {n : ℕ}, NatSetting conv a k n → n < 2 ^ 64 := fun h => nat_range hc h
  obtain ⟨N, J, U, dt, tEnd, interval, filling, sN, sJ, sU, sdt, stEnd, sinterval, sfilling, hb⟩ := mainReal1dRk4Jump_behaves conv hd m h
  refine ⟨N, dt, tEnd, interval, sN, sdt, stEnd, sinterval, fun hN hdt => ?_⟩
  obtain ⟨M, s, hM, hr, hl, h⟩ := Program.real1dRk4Jump_correct hN J U filling tEnd hdt (hc sinterval) hs (he N).1 (he N).2 m.work
  obtain ⟨v, hv⟩ := Program.flow_exists _ (fun i j => M.get i j)
  refine behaves_times hb hr hl fun j hj => ?_
  obtain ⟨x, hx, -⟩ := h v hv j hj
  exact ⟨x, hx⟩

/-- **C96** for `hubbard_real_2d_rk4_jump`: it simulates until `t_end` and reports every `measurement_interval` steps. -/
theorem mainReal2dRk4Jump_times (conv : Conv) (hd : DefaultsConvert progReal2dRk4Jump kindsReal2dRk4Jump conv)
    (hc : ∀ t n, conv.nat t = some n → n < 2 ^ 64) (m : Machine) (hs : IsSort m.sort)
    (he : ∀ Nx Ny, (m.jump2 Nx Ny).Valid (Nx * Ny) ∧ (m.jump2 Nx Ny).table2.Perm (RealSpace.evPairs (Nx / 2) (Ny / 2))) {env : Env} {fs : FS} {args : List Text} {a : App}
    (h : construct progReal2dRk4Jump.options (fun k t => conv.ok (kindOf kindsReal2dRk4Jump k) t) env fs args = .val (some (.app a))) :
    ∃ Nx Ny dt tEnd interval, NatSetting conv a "Nx" Nx ∧ NatSetting conv a "Ny" Ny ∧ NumSetting conv a "dt" dt ∧ NumSetting conv a "t_end" tEnd ∧
      NatSetting conv a "measurement_interval" interval ∧
      (3 ≤ Nx → Nx = Ny → 0 < dt → SimulatesUntil (mainReal2dRk4Jump conv m env fs args) a (fun t x => tabRow [m.shw t, m.shw x]) dt tEnd interval) := by
  replace hc : ∀ {a : App} {k : String} {n : ℕ}, NatSetting conv a k n → n < 2 ^ 64 := fun h => nat_range hc h
  obtain ⟨Nx, Ny, J, U, dt, tEnd, interval, kx, ky, sNx, sNy, sJ, sU, sdt, stEnd, sinterval, skx, sky, hb⟩ := mainReal2dRk4Jump_behaves conv hd m h
  refine ⟨Nx, Ny, dt, tEnd, interval, sNx, sNy, sdt, stEnd, sinterval, fun hN hNy hdt => ?_⟩
  subst hNy
  obtain ⟨M, s, hM, hr, hl, h⟩ := Program.real2dRk4Jump_partial hN J U kx ky tEnd hdt (hc sinterval) hs (he Nx Nx).1 (he Nx Nx).2 m.work
  obtain ⟨v, hv⟩ := Program.flow_exists _ (fun i j => M.get i j)
  refine behaves_times hb hr hl fun j hj => ?_
  obtain ⟨x, hx, -⟩ := h v hv j hj
  exact ⟨x, hx⟩

/-- The statements are not empty: with the interval 3, the step width 1/2 and the end time 4 the rows are those at the times 0, 3/2 and 3. -/
example : (List.range (⌈(4 : ℝ) / (1 / 2)⌉₊ / max 3 1 + 1)).map (fun j => ((j * max 3 1 : ℕ) : ℝ) * (1 / 2)) = [0, 3 / 2, 3] := by
  rw [show (4 : ℝ) / (1 / 2) = ((8 : ℕ) : ℝ) by norm_num, Nat.ceil_natCast]
  norm_num [List.range_succ]

end Ieompp.Main
