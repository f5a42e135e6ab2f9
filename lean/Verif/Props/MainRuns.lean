import Verif.Props.MainOutcome

/-! # C94–C96: runs of the programs -/

set_option autoImplicit false
set_option linter.unusedSectionVars false

namespace Ieompp.Main

open IO App Ieompp.Spec Durability

/-! ### Exceptions and exits -/

theorem mainWith_status {S : Type} {p : Prog} {kinds : List (Text × Kind)} {conv : Conv} {env : Env} {fs : FS} {args : List Text}
    {body : App → Option (Res S)}
    (hb : ∀ a, construct p.options (fun k t => conv.ok (kindOf kinds k) t) env fs args = .val (some (.app a)) → ∃ r, body a = some r) :
    (mainWith p kinds conv env fs args body = .val .exception ↔
      construct p.options (fun k t => conv.ok (kindOf kinds k) t) env fs args = .val none) ∧
    ∀ c, mainWith p kinds conv env fs args body = .val (.exited c) ↔ c = 1 ∧
      construct p.options (fun k t => conv.ok (kindOf kinds k) t) env fs args = .val (some .exited) := by
  unfold mainWith
  generalize hcon : construct p.options (fun k t => conv.ok (kindOf kinds k) t) env fs args = x at hb
  cases x with
  | ub => simp [Res.bind]
  | diverges => simp [Res.bind]
  | val x =>
    cases x with
    | none => simp [Res.bind]
    | some x =>
      cases x with
      | exited => simp [Res.bind, eq_comm]
      | app a =>
        obtain ⟨r, hr⟩ := hb a rfl
        simp only [Res.bind_val, hr]
        cases r <;> simp [Res.map]

/-- **C94** for `hubbard_real_1d_rk4`: `main` ends with an exception exactly when the command line or the response file cannot be parsed or
converted (or the output option is missing), never because of reading a parameter, and by `exit` exactly when the constructor exits, with status 1. -/
theorem mainReal1dRk4_status (conv : Conv) (hd : DefaultsConvert progReal1dRk4 kindsReal1dRk4 conv) (m : Machine) (env : Env) (fs : FS) (args : List Text) :
    (mainReal1dRk4 conv m env fs args = .val .exception ↔
      construct progReal1dRk4.options (fun k t => conv.ok (kindOf kindsReal1dRk4 k) t) env fs args = .val none) ∧
    ∀ c, mainReal1dRk4 conv m env fs args = .val (.exited c) ↔ c = 1 ∧
      construct progReal1dRk4.options (fun k t => conv.ok (kindOf kindsReal1dRk4 k) t) env fs args = .val (some .exited) := by
  refine mainWith_status fun a h => ?_
  have hp : progReal1dRk4 ∈ programs := by simp [programs]
  have ht : kindOf kindsReal1dRk4 outName = .text := by decide
  obtain ⟨N, eN, -⟩ := nat_setting hp hd ht h (k := "N") (by decide) (by decide)
  rw [show "N".toList = (['N'] : Text) from by decide] at eN
  obtain ⟨J, eJ, -⟩ := num_setting hp hd ht h (k := "J") (by decide) (by decide)
  rw [show "J".toList = (['J'] : Text) from by decide] at eJ
  obtain ⟨U, eU, -⟩ := num_setting hp hd ht h (k := "U") (by decide) (by decide)
  rw [show "U".toList = (['U'] : Text) from by decide] at eU
  obtain ⟨dt, edt, -⟩ := num_setting hp hd ht h (k := "dt") (by decide) (by decide)
  rw [show "dt".toList = (['d', 't'] : Text) from by decide] at edt
  obtain ⟨tEnd, etEnd, -⟩ := num_setting hp hd ht h (k := "t_end") (by decide) (by decide)
  rw [show "t_end".toList = (['t', '_', 'e', 'n', 'd'] : Text) from by decide] at etEnd
  obtain ⟨interval, einterval, -⟩ := nat_setting hp hd ht h (k := "measurement_interval") (by decide) (by decide)
  rw [show "measurement_interval".toList = (['m', 'e', 'a', 's', 'u', 'r', 'e', 'm', 'e', 'n', 't', '_', 'i', 'n', 't', 'e', 'r', 'v', 'a', 'l'] : Text) from by decide] at einterval
  obtain ⟨filling, efilling, -⟩ := num_setting hp hd ht h (k := "filling_factor") (by decide) (by decide)
  rw [show "filling_factor".toList = (['f', 'i', 'l', 'l', 'i', 'n', 'g', '_', 'f', 'a', 'c', 't', 'o', 'r'] : Text) from by decide] at efilling
  simp only [eN, eJ, eU, edt, etEnd, einterval, efilling, Option.bind_some]
  exact ⟨_, rfl⟩

/-- **C94** for `hubbard_real_1d_kinetic_rk4`: `main` ends with an exception exactly when the command line or the response file cannot be parsed or
converted (or the output option is missing), never because of reading a parameter, and by `exit` exactly when the constructor exits, with status 1. -/
theorem mainReal1dKineticRk4_status (conv : Conv) (hd : DefaultsConvert progReal1dKineticRk4 kindsReal1dKineticRk4 conv) (m : Machine) (env : Env) (fs : FS) (args : List Text) :
    (mainReal1dKineticRk4 conv m env fs args = .val .exception ↔
      construct progReal1dKineticRk4.options (fun k t => conv.ok (kindOf kindsReal1dKineticRk4 k) t) env fs args = .val none) ∧
    ∀ c, mainReal1dKineticRk4 conv m env fs args = .val (.exited c) ↔ c = 1 ∧
      construct progReal1dKineticRk4.options (fun k t => conv.ok (kindOf kindsReal1dKineticRk4 k) t) env fs args = .val (some .exited) := by
  refine mainWith_status fun a h => ?_
  have hp : progReal1dKineticRk4 ∈ programs := by simp [programs]
  have ht : kindOf kindsReal1dKineticRk4 outName = .text := by decide
  obtain ⟨N, eN, -⟩ := nat_setting hp hd ht h (k := "N") (by decide) (by decide)
  rw [show "N".toList = (['N'] : Text) from by decide] at eN
  obtain ⟨J, eJ, -⟩ := num_setting hp hd ht h (k := "J") (by decide) (by decide)
  rw [show "J".toList = (['J'] : Text) from by decide] at eJ
  obtain ⟨dt, edt, -⟩ := num_setting hp hd ht h (k := "dt") (by decide) (by decide)
  rw [show "dt".toList = (['d', 't'] : Text) from by decide] at edt
  obtain ⟨tEnd, etEnd, -⟩ := num_setting hp hd ht h (k := "t_end") (by decide) (by decide)
  rw [show "t_end".toList = (['t', '_', 'e', 'n', 'd'] : Text) from by decide] at etEnd
  obtain ⟨interval, einterval, -⟩ := nat_setting hp hd ht h (k := "measurement_interval") (by decide) (by decide)
  rw [show "measurement_interval".toList = (['m', 'e', 'a', 's', 'u', 'r', 'e', 'm', 'e', 'n', 't', '_', 'i', 'n', 't', 'e', 'r', 'v', 'a', 'l'] : Text) from by decide] at einterval
  obtain ⟨filling, efilling, -⟩ := num_setting hp hd ht h (k := "filling_factor") (by decide) (by decide)
  rw [show "filling_factor".toList = (['f', 'i', 'l', 'l', 'i', 'n', 'g', '_', 'f', 'a', 'c', 't', 'o', 'r'] : Text) from by decide] at efilling
  simp only [eN, eJ, edt, etEnd, einterval, efilling, Option.bind_some]
  exact ⟨_, rfl⟩

/-- **C94** for `hubbard_real_1d_rk4_coefficients`: `main` ends with an exception exactly when the command line or the response file cannot be parsed or
converted (or the output option is missing), never because of reading a parameter, and by `exit` exactly when the constructor exits, with status 1. -/
theorem mainReal1dRk4Coefficients_status (conv : Conv) (hd : DefaultsConvert progReal1dRk4Coefficients kindsReal1dRk4Coefficients conv) (m : Machine) (env : Env) (fs : FS) (args : List Text) :
    (mainReal1dRk4Coefficients conv m env fs args = .val .exception ↔
      construct progReal1dRk4Coefficients.options (fun k t => conv.ok (kindOf kindsReal1dRk4Coefficients k) t) env fs args = .val none) ∧
    ∀ c, mainReal1dRk4Coefficients conv m env fs args = .val (.exited c) ↔ c = 1 ∧
      construct progReal1dRk4Coefficients.options (fun k t => conv.ok (kindOf kindsReal1dRk4Coefficients k) t) env fs args = .val (some .exited) := by
  refine mainWith_status fun a h => ?_
  have hp : progReal1dRk4Coefficients ∈ programs := by simp [programs]
  have ht : kindOf kindsReal1dRk4Coefficients outName = .text := by decide
  obtain ⟨N, eN, -⟩ := nat_setting hp hd ht h (k := "N") (by decide) (by decide)
  rw [show "N".toList = (['N'] : Text) from by decide] at eN
  obtain ⟨J, eJ, -⟩ := num_setting hp hd ht h (k := "J") (by decide) (by decide)
  rw [show "J".toList = (['J'] : Text) from by decide] at eJ
  obtain ⟨U, eU, -⟩ := num_setting hp hd ht h (k := "U") (by decide) (by decide)
  rw [show "U".toList = (['U'] : Text) from by decide] at eU
  obtain ⟨dt, edt, -⟩ := num_setting hp hd ht h (k := "dt") (by decide) (by decide)
  rw [show "dt".toList = (['d', 't'] : Text) from by decide] at edt
  obtain ⟨tEnd, etEnd, -⟩ := num_setting hp hd ht h (k := "t_end") (by decide) (by decide)
  rw [show "t_end".toList = (['t', '_', 'e', 'n', 'd'] : Text) from by decide] at etEnd
  obtain ⟨interval, einterval, -⟩ := nat_setting hp hd ht h (k := "measurement_interval") (by decide) (by decide)
  rw [show "measurement_interval".toList = (['m', 'e', 'a', 's', 'u', 'r', 'e', 'm', 'e', 'n', 't', '_', 'i', 'n', 't', 'e', 'r', 'v', 'a', 'l'] : Text) from by decide] at einterval
  simp only [eN, eJ, eU, edt, etEnd, einterval, Option.bind_some]
  exact ⟨_, rfl⟩

/-- **C94** for `hubbard_real_1d_kinetic_rk4_coefficients`: `main` ends with an exception exactly when the command line or the response file cannot be parsed or
converted (or the output option is missing), never because of reading a parameter, and by `exit` exactly when the constructor exits, with status 1. -/
theorem mainReal1dKineticRk4Coefficients_status (conv : Conv) (hd : DefaultsConvert progReal1dKineticRk4Coefficients kindsReal1dKineticRk4Coefficients conv) (m : Machine) (env : Env) (fs : FS) (args : List Text) :
    (mainReal1dKineticRk4Coefficients conv m env fs args = .val .exception ↔
      construct progReal1dKineticRk4Coefficients.options (fun k t => conv.ok (kindOf kindsReal1dKineticRk4Coefficients k) t) env fs args = .val none) ∧
    ∀ c, mainReal1dKineticRk4Coefficients conv m env fs args = .val (.exited c) ↔ c = 1 ∧
      construct progReal1dKineticRk4Coefficients.options (fun k t => conv.ok (kindOf kindsReal1dKineticRk4Coefficients k) t) env fs args = .val (some .exited) := by
  refine mainWith_status fun a h => ?_
  have hp : progReal1dKineticRk4Coefficients ∈ programs := by simp [programs]
  have ht : kindOf kindsReal1dKineticRk4Coefficients outName = .text := by decide
  obtain ⟨N, eN, -⟩ := nat_setting hp hd ht h (k := "N") (by decide) (by decide)
  rw [show "N".toList = (['N'] : Text) from by decide] at eN
  obtain ⟨J, eJ, -⟩ := num_setting hp hd ht h (k := "J") (by decide) (by decide)
  rw [show "J".toList = (['J'] : Text) from by decide] at eJ
  obtain ⟨dt, edt, -⟩ := num_setting hp hd ht h (k := "dt") (by decide) (by decide)
  rw [show "dt".toList = (['d', 't'] : Text) from by decide] at edt
  obtain ⟨tEnd, etEnd, -⟩ := num_setting hp hd ht h (k := "t_end") (by decide) (by decide)
  rw [show "t_end".toList = (['t', '_', 'e', 'n', 'd'] : Text) from by decide] at etEnd
  obtain ⟨interval, einterval, -⟩ := nat_setting hp hd ht h (k := "measurement_interval") (by decide) (by decide)
  rw [show "measurement_interval".toList = (['m', 'e', 'a', 's', 'u', 'r', 'e', 'm', 'e', 'n', 't', '_', 'i', 'n', 't', 'e', 'r', 'v', 'a', 'l'] : Text) from by decide] at einterval
  simp only [eN, eJ, edt, etEnd, einterval, Option.bind_some]
  exact ⟨_, rfl⟩

/-- **C94** for `hubbard_real_1d_rk4_jump`: `main` ends with an exception exactly when the command line or the response file cannot be parsed or
converted (or the output option is missing), never because of reading a parameter, and by `exit` exactly when the constructor exits, with status 1. -/
theorem mainReal1dRk4Jump_status (conv : Conv) (hd : DefaultsConvert progReal1dRk4Jump kindsReal1dRk4Jump conv) (m : Machine) (env : Env) (fs : FS) (args : List Text) :
    (mainReal1dRk4Jump conv m env fs args = .val .exception ↔
      construct progReal1dRk4Jump.options (fun k t => conv.ok (kindOf kindsReal1dRk4Jump k) t) env fs args = .val none) ∧
    ∀ c, mainReal1dRk4Jump conv m env fs args = .val (.exited c) ↔ c = 1 ∧
      construct progReal1dRk4Jump.options (fun k t => conv.ok (kindOf kindsReal1dRk4Jump k) t) env fs args = .val (some .exited) := by
  refine mainWith_status fun a h => ?_
  have hp : progReal1dRk4Jump ∈ programs := by simp [programs]
  have ht : kindOf kindsReal1dRk4Jump outName = .text := by decide
  obtain ⟨N, eN, -⟩ := nat_setting hp hd ht h (k := "N") (by decide) (by decide)
  rw [show "N".toList = (['N'] : Text) from by decide] at eN
  obtain ⟨J, eJ, -⟩ := num_setting hp hd ht h (k := "J") (by decide) (by decide)
  rw [show "J".toList = (['J'] : Text) from by decide] at eJ
  obtain ⟨U, eU, -⟩ := num_setting hp hd ht h (k := "U") (by decide) (by decide)
  rw [show "U".toList = (['U'] : Text) from by decide] at eU
  obtain ⟨dt, edt, -⟩ := num_setting hp hd ht h (k := "dt") (by decide) (by decide)
  rw [show "dt".toList = (['d', 't'] : Text) from by decide] at edt
  obtain ⟨tEnd, etEnd, -⟩ := num_setting hp hd ht h (k := "t_end") (by decide) (by decide)
  rw [show "t_end".toList = (['t', '_', 'e', 'n', 'd'] : Text) from by decide] at etEnd
  obtain ⟨interval, einterval, -⟩ := nat_setting hp hd ht h (k := "measurement_interval") (by decide) (by decide)
  rw [show "measurement_interval".toList = (['m', 'e', 'a', 's', 'u', 'r', 'e', 'm', 'e', 'n', 't', '_', 'i', 'n', 't', 'e', 'r', 'v', 'a', 'l'] : Text) from by decide] at einterval
  obtain ⟨filling, efilling, -⟩ := num_setting hp hd ht h (k := "filling_factor") (by decide) (by decide)
  rw [show "filling_factor".toList = (['f', 'i', 'l', 'l', 'i', 'n', 'g', '_', 'f', 'a', 'c', 't', 'o', 'r'] : Text) from by decide] at efilling
  simp only [eN, eJ, eU, edt, etEnd, einterval, efilling, Option.bind_some]
  exact ⟨_, rfl⟩

/-- **C94** for `hubbard_real_2d_rk4_jump`: `main` ends with an exception exactly when the command line or the response file cannot be parsed or
converted (or the output option is missing), never because of reading a parameter, and by `exit` exactly when the constructor exits, with status 1. -/
theorem mainReal2dRk4Jump_status (conv : Conv) (hd : DefaultsConvert progReal2dRk4Jump kindsReal2dRk4Jump conv) (m : Machine) (env : Env) (fs : FS) (args : List Text) :
    (mainReal2dRk4Jump conv m env fs args = .val .exception ↔
      construct progReal2dRk4Jump.options (fun k t => conv.ok (kindOf kindsReal2dRk4Jump k) t) env fs args = .val none) ∧
    ∀ c, mainReal2dRk4Jump conv m env fs args = .val (.exited c) ↔ c = 1 ∧
      construct progReal2dRk4Jump.options (fun k t => conv.ok (kindOf kindsReal2dRk4Jump k) t) env fs args = .val (some .exited) := by
  refine mainWith_status fun a h => ?_
  have hp : progReal2dRk4Jump ∈ programs := by simp [programs]
  have ht : kindOf kindsReal2dRk4Jump outName = .text := by decide
  obtain ⟨Nx, eNx, -⟩ := nat_setting hp hd ht h (k := "Nx") (by decide) (by decide)
  rw [show "Nx".toList = (['N', 'x'] : Text) from by decide] at eNx
  obtain ⟨Ny, eNy, -⟩ := nat_setting hp hd ht h (k := "Ny") (by decide) (by decide)
  rw [show "Ny".toList = (['N', 'y'] : Text) from by decide] at eNy
  obtain ⟨J, eJ, -⟩ := num_setting hp hd ht h (k := "J") (by decide) (by decide)
  rw [show "J".toList = (['J'] : Text) from by decide] at eJ
  obtain ⟨U, eU, -⟩ := num_setting hp hd ht h (k := "U") (by decide) (by decide)
  rw [show "U".toList = (['U'] : Text) from by decide] at eU
  obtain ⟨dt, edt, -⟩ := num_setting hp hd ht h (k := "dt") (by decide) (by decide)
  rw [show "dt".toList = (['d', 't'] : Text) from by decide] at edt
  obtain ⟨tEnd, etEnd, -⟩ := num_setting hp hd ht h (k := "t_end") (by decide) (by decide)
  rw [show "t_end".toList = (['t', '_', 'e', 'n', 'd'] : Text) from by decide] at etEnd
  obtain ⟨interval, einterval, -⟩ := nat_setting hp hd ht h (k := "measurement_interval") (by decide) (by decide)
  rw [show "measurement_interval".toList = (['m', 'e', 'a', 's', 'u', 'r', 'e', 'm', 'e', 'n', 't', '_', 'i', 'n', 't', 'e', 'r', 'v', 'a', 'l'] : Text) from by decide] at einterval
  obtain ⟨kx, ekx, -⟩ := num_setting hp hd ht h (k := "kx") (by decide) (by decide)
  rw [show "kx".toList = (['k', 'x'] : Text) from by decide] at ekx
  obtain ⟨ky, eky, -⟩ := num_setting hp hd ht h (k := "ky") (by decide) (by decide)
  rw [show "ky".toList = (['k', 'y'] : Text) from by decide] at eky
  simp only [eNx, eNy, eJ, eU, edt, etEnd, einterval, ekx, eky, Option.bind_some]
  exact ⟨_, rfl⟩

/-- **C94** for `hubbard_momentum_1d_rk4`: `main` ends with an exception exactly when the command line or the response file cannot be parsed or
converted (or the output option is missing), never because of reading a parameter, and by `exit` exactly when the constructor exits, with status 1. -/
theorem mainMomentum1dRk4_status (conv : Conv) (hd : DefaultsConvert progMomentum1dRk4 kindsMomentum1dRk4 conv) (m : Machine) (env : Env) (fs : FS) (args : List Text) :
    (mainMomentum1dRk4 conv m env fs args = .val .exception ↔
      construct progMomentum1dRk4.options (fun k t => conv.ok (kindOf kindsMomentum1dRk4 k) t) env fs args = .val none) ∧
    ∀ c, mainMomentum1dRk4 conv m env fs args = .val (.exited c) ↔ c = 1 ∧
      construct progMomentum1dRk4.options (fun k t => conv.ok (kindOf kindsMomentum1dRk4 k) t) env fs args = .val (some .exited) := by
  refine mainWith_status fun a h => ?_
  have hp : progMomentum1dRk4 ∈ programs := by simp [programs]
  have ht : kindOf kindsMomentum1dRk4 outName = .text := by decide
  obtain ⟨N, eN, -⟩ := nat_setting hp hd ht h (k := "N") (by decide) (by decide)
  rw [show "N".toList = (['N'] : Text) from by decide] at eN
  obtain ⟨J, eJ, -⟩ := num_setting hp hd ht h (k := "J") (by decide) (by decide)
  rw [show "J".toList = (['J'] : Text) from by decide] at eJ
  obtain ⟨U, eU, -⟩ := num_setting hp hd ht h (k := "U") (by decide) (by decide)
  rw [show "U".toList = (['U'] : Text) from by decide] at eU
  obtain ⟨dt, edt, -⟩ := num_setting hp hd ht h (k := "dt") (by decide) (by decide)
  rw [show "dt".toList = (['d', 't'] : Text) from by decide] at edt
  obtain ⟨tEnd, etEnd, -⟩ := num_setting hp hd ht h (k := "t_end") (by decide) (by decide)
  rw [show "t_end".toList = (['t', '_', 'e', 'n', 'd'] : Text) from by decide] at etEnd
  obtain ⟨interval, einterval, -⟩ := num_setting hp hd ht h (k := "measurement_interval") (by decide) (by decide)
  rw [show "measurement_interval".toList = (['m', 'e', 'a', 's', 'u', 'r', 'e', 'm', 'e', 'n', 't', '_', 'i', 'n', 't', 'e', 'r', 'v', 'a', 'l'] : Text) from by decide] at einterval
  simp only [eN, eJ, eU, edt, etEnd, einterval, Option.bind_some]
  exact ⟨_, rfl⟩

/-! ### `hubbard_momentum_1d_rk4` -/

/-- **C94** for `hubbard_momentum_1d_rk4`: the two numbers it prints are computed with exactly the parameters it sees. -/
theorem mainMomentum1dRk4_run (conv : Conv) (hd : DefaultsConvert progMomentum1dRk4 kindsMomentum1dRk4 conv) (m : Machine) {env : Env} {fs : FS}
    {args : List Text} {a : App}
    (h : construct progMomentum1dRk4.options (fun k t => conv.ok (kindOf kindsMomentum1dRk4 k) t) env fs args = .val (some (.app a))) :
    ∃ N J U dt, NatSetting conv a "N" N ∧ NumSetting conv a "J" J ∧ NumSetting conv a "U" U ∧ NumSetting conv a "dt" dt ∧
      mainMomentum1dRk4 conv m env fs args =
        (Program.momentum1dRk4 (m.exec N).conjugation (m.exec N).table m.work N J U dt).map (.finished a) := by
  have hp : progMomentum1dRk4 ∈ programs := by simp [programs]
  have ht : kindOf kindsMomentum1dRk4 outName = .text := by decide
  obtain ⟨N, eN, sN⟩ := nat_setting hp hd ht h (k := "N") (by decide) (by decide)
  rw [show "N".toList = (['N'] : Text) from by decide] at eN
  obtain ⟨J, eJ, sJ⟩ := num_setting hp hd ht h (k := "J") (by decide) (by decide)
  rw [show "J".toList = (['J'] : Text) from by decide] at eJ
  obtain ⟨U, eU, sU⟩ := num_setting hp hd ht h (k := "U") (by decide) (by decide)
  rw [show "U".toList = (['U'] : Text) from by decide] at eU
  obtain ⟨dt, edt, sdt⟩ := num_setting hp hd ht h (k := "dt") (by decide) (by decide)
  rw [show "dt".toList = (['d', 't'] : Text) from by decide] at edt
  obtain ⟨tEnd, etEnd, stEnd⟩ := num_setting hp hd ht h (k := "t_end") (by decide) (by decide)
  rw [show "t_end".toList = (['t', '_', 'e', 'n', 'd'] : Text) from by decide] at etEnd
  obtain ⟨interval, einterval, sinterval⟩ := num_setting hp hd ht h (k := "measurement_interval") (by decide) (by decide)
  rw [show "measurement_interval".toList = (['m', 'e', 'a', 's', 'u', 'r', 'e', 'm', 'e', 'n', 't', '_', 'i', 'n', 't', 'e', 'r', 'v', 'a', 'l'] : Text) from by decide] at einterval
  refine ⟨N, J, U, dt, sN, sJ, sU, sdt, mainWith_app h ?_⟩
  simp only [eN, eJ, eU, edt, etEnd, einterval, Option.bind_some]

theorem natSetting_unique {conv : Conv} {a b : App} {k : String} {n n' : ℕ} (h : NatSetting conv a k n) (h' : NatSetting conv b k n')
    (e : parameter a k.toList = parameter b k.toList) : n = n' := by
  obtain ⟨t, h1, h2⟩ := h
  obtain ⟨t', h1', h2'⟩ := h'
  rw [h1, h1'] at e
  cases e
  rw [h2] at h2'
  exact Option.some.inj h2'

theorem numSetting_unique {conv : Conv} {a b : App} {k : String} {x x' : ℝ} (h : NumSetting conv a k x) (h' : NumSetting conv b k x')
    (e : parameter a k.toList = parameter b k.toList) : x = x' := by
  obtain ⟨t, h1, h2⟩ := h
  obtain ⟨t', h1', h2'⟩ := h'
  rw [h1, h1'] at e
  cases e
  rw [h2] at h2'
  exact Option.some.inj h2'

/-- **C96** refuted: two calls of `hubbard_momentum_1d_rk4` which agree in `N`, `J`, `U` and `dt` print the same numbers, whatever
`t_end` and `measurement_interval` are. -/
theorem momentum_ignores_t_end (conv : Conv) (hd : DefaultsConvert progMomentum1dRk4 kindsMomentum1dRk4 conv) (m : Machine)
    {env env' : Env} {fs fs' : FS} {args args' : List Text} {a b : App}
    (h : construct progMomentum1dRk4.options (fun k t => conv.ok (kindOf kindsMomentum1dRk4 k) t) env fs args = .val (some (.app a)))
    (h' : construct progMomentum1dRk4.options (fun k t => conv.ok (kindOf kindsMomentum1dRk4 k) t) env' fs' args' = .val (some (.app b)))
    (hN : parameter a "N".toList = parameter b "N".toList) (hJ : parameter a "J".toList = parameter b "J".toList)
    (hU : parameter a "U".toList = parameter b "U".toList) (hdt : parameter a "dt".toList = parameter b "dt".toList) :
    ∃ r : Res (ℝ × ℝ), mainMomentum1dRk4 conv m env fs args = r.map (.finished a) ∧
      mainMomentum1dRk4 conv m env' fs' args' = r.map (.finished b) := by
  obtain ⟨N, J, U, dt, sN, sJ, sU, sdt, e⟩ := mainMomentum1dRk4_run conv hd m h
  obtain ⟨N', J', U', dt', sN', sJ', sU', sdt', e'⟩ := mainMomentum1dRk4_run conv hd m h'
  cases natSetting_unique sN sN' hN
  cases numSetting_unique sJ sJ' hJ
  cases numSetting_unique sU sU' hU
  cases numSetting_unique sdt sdt' hdt
  exact ⟨_, e, e'⟩

/-- **C96** refuted, an instance: `hubbard_momentum_1d_rk4 --t_end=0` and `--t_end=1000` both do eight steps and print the same. -/
theorem momentum_t_end_wrong (conv : Conv) (hd : DefaultsConvert progMomentum1dRk4 kindsMomentum1dRk4 conv)
    (h0 : conv.num "0".toList = some 0) (h1 : conv.num "1000".toList = some 1000) (n16 : conv.nat "16".toList = some 16)
    (x001 : conv.num "0.01".toList = some (1 / 100)) (m : Machine)
    (hm : ∀ N, (m.exec N).conjugation.Perm (List.range (N * N + 1)) ∧ (m.exec N).table.Perm (List.range N)) (env : Env) (fs : FS) :
    ∃ a b numbers, NumSetting conv a "t_end" 0 ∧ NumSetting conv b "t_end" 1000 ∧
      mainMomentum1dRk4 conv m env fs ["--t_end=0".toList] = .val (.finished a numbers) ∧
      mainMomentum1dRk4 conv m env fs ["--t_end=1000".toList] = .val (.finished b numbers) := by
  have hp : progMomentum1dRk4 ∈ programs := by simp [programs]
  have hv := fun (t : Text) (ht : (conv.num t).isSome) (hne : t ≠ []) => program_starts hp (valid := fun k t => conv.ok (kindOf kindsMomentum1dRk4 k) t) hd
    (by rfl) env fs [("t_end".toList, t)] (by
      intro o ho
      cases List.mem_singleton.1 ho
      exact ⟨hne, ht, Or.inr (by show "t_end".toList ∈ _; decide)⟩) (by simp)
  obtain ⟨a, ha, ha1, ha2, -⟩ := hv "0".toList (by rw [h0]; rfl) (by decide)
  obtain ⟨b, hb, hb1, hb2, -⟩ := hv "1000".toList (by rw [h1]; rfl) (by decide)
  have same : ∀ k : Text, k ∈ progMomentum1dRk4.own.map Prod.fst → k ≠ "t_end".toList → parameter a k = parameter b k := by
    intro k hk hne
    obtain ⟨o, ho, rfl⟩ := List.mem_map.1 hk
    rw [ha2 o ho (by simpa using hne), hb2 o ho (by simpa using hne)]
  obtain ⟨N, J, U, dt, sN, -, -, sdt, e1⟩ := mainMomentum1dRk4_run conv hd m ha
  have eN : N = 16 := by
    obtain ⟨t, p, c⟩ := sN
    rw [ha2 ("N".toList, "16".toList) (by decide) (by decide)] at p
    cases p
    rw [n16] at c
    exact (Option.some.inj c).symm
  have edt : dt = 1 / 100 := by
    obtain ⟨t, p, c⟩ := sdt
    rw [ha2 ("dt".toList, "0.01".toList) (by decide) (by decide)] at p
    cases p
    rw [x001] at c
    exact (Option.some.inj c).symm
  obtain ⟨first, second, _, hr, -⟩ := Program.momentum1dRk4_partial N (by omega) J U (dt := dt) (by rw [edt]; norm_num) m.work
    (hm N).1 (hm N).2
  rw [hr] at e1
  obtain ⟨r, e1', e2⟩ := momentum_ignores_t_end conv hd m ha hb (same _ (by decide) (by decide)) (same _ (by decide) (by decide))
    (same _ (by decide) (by decide)) (same _ (by decide) (by decide))
  rw [e1] at e1'
  have er : r = .val (first, second) := by
    cases r with
    | val x => simpa [Res.map, Res.bind] using e1'.symm
    | ub => simp [Res.map, Res.bind] at e1'
    | diverges => simp [Res.map, Res.bind] at e1'
  rw [er] at e2
  exact ⟨a, b, (first, second), ⟨_, ha1 _ (List.mem_singleton_self _), h0⟩, ⟨_, hb1 _ (List.mem_singleton_self _), h1⟩, e1, e2⟩

/-! ### `hubbard_real_1d_rk4` as a whole -/

section real1d

variable (conv : Conv) (hd : DefaultsConvert progReal1dRk4 kindsReal1dRk4 conv) (hc : ∀ t n, conv.nat t = some n → n < 2 ^ 64)
  (m : Machine) (hs : IsSort m.sort) (he : ∀ N, (m.exec N).Valid N)

include hd hc hs he

/-- **C94**, the whole program `hubbard_real_1d_rk4`, from the command line to the numbers in the output file. It is called with
`--name=value` for any of its options, each at most once and with values that convert. It sees exactly these values, and otherwise
the defaults of the source. If the number of sites is at least three and the step width positive, it ends; in the end the output file consists of
the header and one line `t <tab> x` for every `measurement_interval`-th step, and the number `x` in the line for the time `t`
approximates `⟨A(t) A(t)†⟩` (C58). -/
theorem real1dRk4_run (env : Env) (fs : FS) (set : List (Text × Text))
    (hset : ∀ o ∈ set, o.2 ≠ [] ∧ conv.ok (kindOf kindsReal1dRk4 o.1) o.2 = true ∧
      (o.1 = "out".toList ∨ o.1 ∈ progReal1dRk4.own.map Prod.fst))
    (hn : (set.map Prod.fst).Nodup) :
    ∃ a N J U dt tEnd interval filling,
      (∀ o ∈ set, parameter a o.1 = some o.2) ∧ (∀ o ∈ progReal1dRk4.own, o.1 ∉ set.map Prod.fst → parameter a o.1 = some o.2) ∧
      (∀ v, ("out".toList, v) ∈ set → a.outputPath = v) ∧
      ("out".toList ∉ set.map Prod.fst → a.outputPath = "hubbard_real_1d_rk4.txt".toList) ∧
      NatSetting conv a "N" N ∧ NumSetting conv a "J" J ∧ NumSetting conv a "U" U ∧ NumSetting conv a "dt" dt ∧
      NumSetting conv a "t_end" tEnd ∧ NatSetting conv a "measurement_interval" interval ∧ NumSetting conv a "filling_factor" filling ∧
      (3 ≤ N → 0 < dt → ∃ s acts M head,
        mainReal1dRk4 conv m env fs (set.map fun o => "--".toList ++ o.1 ++ "=".toList ++ o.2) = .val (.finished a (s, acts)) ∧
        a.fs a.outputPath = some head ∧
        (∀ old d, Run True (Disk.start old) acts d → d.file = fileText head (fun t x => tabRow [m.shw t, m.shw x]) s.out) ∧
        RealSpace.initMatrix m.sort N 2 (Chain.real (K := ℝ) N 1).neighbors J U = .val M ∧
        s.out.length = ⌈tEnd / dt⌉₊ / max interval 1 + 1 ∧
        ∀ {R : Type} [Ring R] [Algebra ℂ R] (C : CAROn N R) (ω : R →ₗ[ℂ] ℂ), QuasiFree C ω (ringCorrelation filling N) →
        ∀ v, IsFlow (N + N * N * N) (fun i j => M.get i j) v →
        ∀ j < s.out.length, ∃ x, s.out[j]? = some (((j * max interval 1 : ℕ) : ℝ) * dt, x) ∧
          |x - (ω (C.superpose (RealSpace.basis3 N) (N + N * N * N) (v ((j * max interval 1 : ℕ) * dt)) *
              C.superposeAdj (RealSpace.basis3 N) (N + N * N * N) (v ((j * max interval 1 : ℕ) * dt)))).re| ≤
            (∑ p ∈ Finset.range (N + N * N * N), ∑ q ∈ Finset.range (N + N * N * N),
              ‖ω (C.basisOp (RealSpace.basis3 N) p * C.basisOpAdj (RealSpace.basis3 N) q)‖) *
            (rk4Error (6 * |J| + |U|) dt (j * max interval 1) * (2 + rk4Error (6 * |J| + |U|) dt (j * max interval 1)))) := by
  have hp : progReal1dRk4 ∈ programs := by simp [programs]
  obtain ⟨a, ha, h1, h2, h3, h4⟩ := program_starts hp (valid := fun k t => conv.ok (kindOf kindsReal1dRk4 k) t) hd (by rfl) env fs set hset hn
  obtain ⟨N, J, U, dt, tEnd, interval, filling, sN, sJ, sU, sdt, stEnd, sinterval, sfilling, hb⟩ := mainReal1dRk4_behaves conv hd m ha
  refine ⟨a, N, J, U, dt, tEnd, interval, filling, h1, h2, h3, fun h => ?_, sN, sJ, sU, sdt, stEnd, sinterval, sfilling, fun hN hdt => ?_⟩
  · rw [h4 h]; decide
  · obtain ⟨M, s, hM, hr, hl, hC⟩ := Program.real1dRk4_correct hN J U filling tEnd hdt (nat_range hc sinterval) hs (he N) m.work
    obtain ⟨acts, hmain, head, hhead, -, hfile⟩ := hb.1 s hr
    exact ⟨s, acts, M, head, hmain, hhead, hfile, hM, hl, hC⟩

/-- **C94**: `hubbard_real_1d_rk4` without arguments. It ends, and `hubbard_real_1d_rk4.txt` consists of the header and eleven lines, for the
times 0, 1, ..., 10. -/
theorem real1dRk4_default_run (n16 : conv.nat "16".toList = some 16) (n100 : conv.nat "100".toList = some 100)
    (x001 : conv.num "0.01".toList = some (1 / 100)) (x10 : conv.num "10".toList = some 10) (env : Env) (fs : FS) :
    ∃ a s acts head, mainReal1dRk4 conv m env fs [] = .val (.finished a (s, acts)) ∧ a.outputPath = "hubbard_real_1d_rk4.txt".toList ∧
      a.fs a.outputPath = some head ∧ s.out.map Prod.fst = [0, 1, 2, 3, 4, 5, 6, 7, 8, 9, 10] ∧
      ∀ old d, Run True (Disk.start old) acts d → d.file = fileText head (fun t x => tabRow [m.shw t, m.shw x]) s.out := by
  obtain ⟨a, N, J, U, dt, tEnd, interval, filling, -, h2, -, h4, sN, sJ, sU, sdt, stEnd, sinterval, sfilling, h⟩ :=
    real1dRk4_run conv hd hc m hs he env fs [] (by simp) (by simp)
  have own : ∀ k t : String, (k.toList, t.toList) ∈ progReal1dRk4.own → parameter a k.toList = some t.toList :=
    fun k t hk => h2 _ hk (by simp)
  have eN : N = 16 := by
    obtain ⟨t, p, c⟩ := sN
    rw [own "N" "16" (by decide)] at p
    cases p
    rw [n16] at c
    exact (Option.some.inj c).symm
  have eI : interval = 100 := by
    obtain ⟨t, p, c⟩ := sinterval
    rw [own "measurement_interval" "100" (by decide)] at p
    cases p
    rw [n100] at c
    exact (Option.some.inj c).symm
  have edt : dt = 1 / 100 := by
    obtain ⟨t, p, c⟩ := sdt
    rw [own "dt" "0.01" (by decide)] at p
    cases p
    rw [x001] at c
    exact (Option.some.inj c).symm
  have et : tEnd = 10 := by
    obtain ⟨t, p, c⟩ := stEnd
    rw [own "t_end" "10" (by decide)] at p
    cases p
    rw [x10] at c
    exact (Option.some.inj c).symm
  subst eN eI edt et
  obtain ⟨s, acts, M, head, hmain, hhead, hfile, -, hl, hC⟩ := h (by norm_num) (by norm_num)
  refine ⟨a, s, acts, head, hmain, h4 (by simp), hhead, ?_, hfile⟩
  have hlen : s.out.length = 11 := by
    rw [hl, show (10 : ℝ) / (1 / 100) = ((1000 : ℕ) : ℝ) by norm_num, Nat.ceil_natCast]
    norm_num
  obtain ⟨C, ω, hQ⟩ := RealSpace.quasiFree_exists 16 (ringCorrelation filling 16)
  obtain ⟨v, hv⟩ := Program.flow_exists (16 + 16 * 16 * 16) (fun i j => M.get i j)
  apply List.ext_getElem?
  intro j
  by_cases hj : j < 11
  · obtain ⟨x, hx, -⟩ := hC C ω hQ v hv j (by omega)
    rw [List.getElem?_map, hx]
    interval_cases j <;> norm_num
  · rw [List.getElem?_eq_none (by simp [hlen]; omega), List.getElem?_eq_none (by simp; omega)]

/-- **C95** refuted: `hubbard_real_1d_rk4 --N=2` accesses memory outside of its matrix, and `hubbard_real_1d_rk4 --dt=0` never ends. -/
theorem real1dRk4_unchecked (n2 : conv.nat "2".toList = some 2) (n16 : conv.nat "16".toList = some 16) (x0 : conv.num "0".toList = some 0)
    (x10 : conv.num "10".toList = some 10) (env : Env) (fs : FS) :
    mainReal1dRk4 conv m env fs ["--N=2".toList] = .ub ∧ mainReal1dRk4 conv m env fs ["--dt=0".toList] = .diverges := by
  have hp : progReal1dRk4 ∈ programs := by simp [programs]
  have start := fun (k t : Text) (hk : k ∈ progReal1dRk4.own.map Prod.fst) (hne : t ≠ []) (ht : conv.ok (kindOf kindsReal1dRk4 k) t = true) =>
    program_starts hp (valid := fun k t => conv.ok (kindOf kindsReal1dRk4 k) t) hd (by rfl) env fs [(k, t)] (by
      intro o ho
      cases List.mem_singleton.1 ho
      exact ⟨hne, ht, Or.inr hk⟩) (by simp)
  constructor
  · obtain ⟨a, ha, h1, h2, -⟩ := start "N".toList "2".toList (by decide) (by decide) (by
      show (conv.nat "2".toList).isSome = true
      rw [n2]; rfl)
    obtain ⟨N, dt, tEnd, sN, -, -, hu, -⟩ := mainReal1dRk4_outcome conv hd hc m hs he ha
    obtain ⟨t, p, c⟩ := sN
    rw [h1 ("N".toList, "2".toList) (List.mem_singleton_self _)] at p
    cases p
    rw [n2] at c
    cases Option.some.inj c
    exact hu (by norm_num)
  · obtain ⟨a, ha, h1, h2, -⟩ := start "dt".toList "0".toList (by decide) (by decide) (by
      show (conv.num "0".toList).isSome = true
      rw [x0]; rfl)
    obtain ⟨N, dt, tEnd, sN, sdt, st, -, hdiv, -⟩ := mainReal1dRk4_outcome conv hd hc m hs he ha
    have eN : N = 16 := by
      obtain ⟨t, p, c⟩ := sN
      rw [show parameter a "N".toList = some "16".toList from h2 ("N".toList, "16".toList) (by decide) (by decide)] at p
      cases p
      rw [n16] at c
      exact (Option.some.inj c).symm
    have edt : dt = 0 := by
      obtain ⟨t, p, c⟩ := sdt
      rw [h1 ("dt".toList, "0".toList) (List.mem_singleton_self _)] at p
      cases p
      rw [x0] at c
      exact (Option.some.inj c).symm
    have et : tEnd = 10 := by
      obtain ⟨t, p, c⟩ := st
      rw [show parameter a "t_end".toList = some "10".toList from h2 ("t_end".toList, "10".toList) (by decide) (by decide)] at p
      cases p
      rw [x10] at c
      exact (Option.some.inj c).symm
    subst eN edt et
    exact hdiv (by norm_num) le_rfl (by norm_num)

end real1d

/-! ### The hypotheses hold for a simple machine -/

/-- The texts which `sampleConv` reads as a count. Only for the example below. -/
def sampleNat : List (Text × ℕ) := [(['1', '6'], 16), (['1', '0', '0'], 100), (['2'], 2), (['4'], 4)]

/-- The texts which `sampleConv` reads as a number. Only for the example below. -/
noncomputable def sampleNum : List (Text × ℝ) :=
  [(['1'], 1), (['0', '.', '0', '1'], 1 / 100), (['1', '0'], 10), (['0', '.', '5'], 1 / 2), (['0'], 0), (['1', '0', '0', '0'], 1000),
    (['1', '0', '0'], 100),
    (['0', '.', '1', '0', '0', '0', '0', '0', '0', '0', '0', '0', '0', '0', '0', '0', '0', '0', '1'], 1 / 10),
    (['1', '.', '5', '7', '0', '7', '9', '6', '3', '2', '6', '7', '9', '4', '8', '9', '6', '6'], 1.5707963267948966)]

/-- A conversion which knows the default values of all programs and a few other texts. Only for the example below. -/
noncomputable def sampleConv : Conv where
  nat t := (sampleNat.find? fun o => o.1 = t).map Prod.snd
  num t := (sampleNum.find? fun o => o.1 = t).map Prod.snd

theorem sampleConv_ok (k : Kind) (t : Text) : sampleConv.ok k t = match k with
    | .nat => decide (t ∈ [['1', '6'], ['1', '0', '0'], ['2'], ['4']])
    | .num => decide (t ∈ [['1'], ['0', '.', '0', '1'], ['1', '0'], ['0', '.', '5'], ['0'], ['1', '0', '0', '0'], ['1', '0', '0'],
      ['0', '.', '1', '0', '0', '0', '0', '0', '0', '0', '0', '0', '0', '0', '0', '0', '0', '0', '1'],
      ['1', '.', '5', '7', '0', '7', '9', '6', '3', '2', '6', '7', '9', '4', '8', '9', '6', '6']])
    | .text => true := by
  cases k
  · rw [Bool.eq_iff_iff]
    simp only [Conv.ok, sampleConv, Option.isSome_map, List.find?_isSome, decide_eq_true_eq, sampleNat]
    simp [eq_comm]
  · rw [Bool.eq_iff_iff]
    simp only [Conv.ok, sampleConv, Option.isSome_map, List.find?_isSome, decide_eq_true_eq, sampleNum]
    simp [eq_comm]
  · rfl

/-- The hypotheses of the theorems about all programs hold for some conversion and some machine. -/
example : DefaultsConvert progReal1dRk4 kindsReal1dRk4 sampleConv ∧ DefaultsConvert progReal1dKineticRk4 kindsReal1dKineticRk4 sampleConv ∧
    DefaultsConvert progReal1dRk4Coefficients kindsReal1dRk4Coefficients sampleConv ∧
    DefaultsConvert progReal1dKineticRk4Coefficients kindsReal1dKineticRk4Coefficients sampleConv ∧
    DefaultsConvert progReal1dRk4Jump kindsReal1dRk4Jump sampleConv ∧ DefaultsConvert progReal2dRk4Jump kindsReal2dRk4Jump sampleConv ∧
    DefaultsConvert progMomentum1dRk4 kindsMomentum1dRk4 sampleConv ∧
    (∀ t n, sampleConv.nat t = some n → n < 2 ^ 64) ∧
    sampleConv.nat "2".toList = some 2 ∧ sampleConv.num "0".toList = some 0 ∧ sampleConv.num "1000".toList = some 1000 ∧
    ∃ m : Machine, IsSort m.sort ∧ (∀ N, (m.exec N).Valid N) ∧
      (∀ N, (m.jump N).Valid N ∧ (m.jump N).table.Perm (List.range' 1 (N / 2))) ∧
      ∀ Nx Ny, (m.jump2 Nx Ny).Valid (Nx * Ny) ∧ (m.jump2 Nx Ny).table2.Perm (RealSpace.evPairs (Nx / 2) (Ny / 2)) := by
  have hn : ∀ t n, sampleConv.nat t = some n → n < 2 ^ 64 := by
    intro t n h
    simp only [sampleConv, Option.map_eq_some_iff] at h
    obtain ⟨o, h, rfl⟩ := h
    have := List.mem_of_find?_eq_some h
    clear h
    revert o
    decide
  refine ⟨?_, ?_, ?_, ?_, ?_, ?_, ?_, hn, ?_, ?_, ?_, ?_⟩
  iterate 7
    · unfold DefaultsConvert
      simp only [sampleConv_ok]
      decide
  · rfl
  · rw [show "0".toList = ['0'] by decide]
    simp [sampleConv, sampleNum]
  · rw [show "1000".toList = ['1', '0', '0', '0'] by decide]
    simp [sampleConv, sampleNum]
  · refine ⟨⟨fun l => l.mergeSort fun a b => a.column ≤ b.column,
      fun N => ⟨List.range (RealSpace.basis3 N).length, List.range' 1 (N / 2), fun _ => 1, fun _ => (RealSpace.loopA true N).map fun p => (0, p),
        fun _ => (RealSpace.loopB N (RealSpace.basis3 N).length).map fun p => (0, p),
        fun _ => (RealSpace.loopC true N (RealSpace.basis3 N).length).map fun p => (0, p)⟩,
      fun N => ⟨List.range' 1 (N / 2), [], List.range N, fun _ => List.range N, fun _ => 1,
        fun _ => (RealSpace.jumpPairs N).map fun p => (0, p)⟩,
      fun Nx Ny => ⟨[], RealSpace.evPairs (Nx / 2) (Ny / 2), List.range (Nx * Ny), fun _ => List.range (Nx * Ny), fun _ => 1,
        fun _ => (RealSpace.jumpPairs (Nx * Ny)).map fun p => (0, p)⟩, ⟨[], [], [], []⟩, fun _ => []⟩, ?_, ?_, ?_, ?_⟩
    · exact mergeSort_isSort
    · exact fun N => ⟨List.Perm.refl _, List.Perm.refl _, fun _ => RealSpace.executes_sequential _, fun _ => RealSpace.executes_sequential _,
        fun _ => RealSpace.executes_sequential _⟩
    · exact fun N => ⟨⟨List.Perm.refl _, fun _ => List.Perm.refl _, fun _ => RealSpace.executes_sequential _⟩, List.Perm.refl _⟩
    · exact fun Nx Ny => ⟨⟨List.Perm.refl _, fun _ => List.Perm.refl _, fun _ => RealSpace.executes_sequential _⟩, List.Perm.refl _⟩

end Ieompp.Main
