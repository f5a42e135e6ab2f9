import Verif.Spec.Main
import Verif.Props.ProgramOptions
import Verif.Props.Durability

/-! # C94: the programs from the command line to the output file -/

set_option autoImplicit false
set_option linter.unusedSectionVars false

namespace Ieompp.Main

open IO App Ieompp.Spec Durability

/-! ### The settings convert -/

/-- `storeLoop` keeps values that can be converted. -/
theorem storeLoop_inv {valid : Text → Text → Bool} {final : Text → Bool} {ps : List Parsed} {m m' : Text → Option Value} {k : Text}
    (h : storeLoop valid final ps m = some m') (hps : ∀ p ∈ ps, p.key = k → ∃ v, p.value = [v])
    (hm : ∀ v, m k = some v → valid k v.text = true) : ∀ v, m' k = some v → valid k v.text = true := by
  induction ps generalizing m with
  | nil =>
    simp only [storeLoop, Option.some.injEq] at h
    rw [← h]; exact hm
  | cons p ps ih =>
    have ih' := fun {m} h hm => ih (m := m) h (fun q hq => hps q (List.mem_cons_of_mem _ hq)) hm
    rw [storeLoop] at h
    split_ifs at h with h1 h2
    · exact ih' h hm
    · exact ih' h hm
    · simp only at h
      split_ifs at h with h3 h4
      refine ih' h ?_
      intro v hv
      by_cases e : k = p.key
      · subst e
        rw [Function.update_self, Option.some.injEq] at hv
        obtain ⟨t, ht⟩ := hps p List.mem_cons_self rfl
        rw [ht] at h4 hv
        subst hv
        simpa using h4
      · rw [Function.update_of_ne e, discard_ne e] at hv
        exact hm v hv

/-- `store` keeps values that can be converted. -/
theorem store_inv {opts : List Opt} {valid : Text → Text → Bool} {ps : List Parsed} {vm vm' : VM} {k : Text}
    (h : store opts valid ps vm = some vm') (hps : ∀ p ∈ ps, p.key = k → ∃ v, p.value = [v])
    (hd : ∀ d, defaultOf opts k = some d → valid k d = true)
    (hm : ∀ v, vm.value k = some v → valid k v.text = true) : ∀ v, vm'.value k = some v → valid k v.text = true := by
  unfold store at h
  cases hl : storeLoop valid vm.final ps vm.value with
  | none => rw [hl] at h; simp at h
  | some m =>
    rw [hl] at h
    simp only [Option.some.injEq] at h
    rw [← h]
    intro v hv
    replace hv : opts.foldl applyDefault m k = some v := hv
    rw [defaults_value] at hv
    have := storeLoop_inv hl hps hm
    cases hmk : m k with
    | some w =>
      rw [hmk] at hv
      simp only [Option.some_or, Option.some.injEq] at hv
      subst hv; exact this _ hmk
    | none =>
      rw [hmk] at hv
      cases hdk : defaultOf opts k with
      | none => rw [hdk] at hv; simp at hv
      | some d =>
        rw [hdk] at hv
        simp only [Option.map_some, Option.none_or, Option.some.injEq] at hv
        subst hv; exact hd d hdk

theorem runStores_inv {opts : List Opt} {valid : Text → Text → Bool} {k : Text}
    (hps : ∀ args ps, parseArgs opts args = some ps → ∀ p ∈ ps, p.key = k → ∃ v, p.value = [v])
    (hd : ∀ d, defaultOf opts k = some d → valid k d = true) {args ls : List Text} {vm vm' : VM}
    (h : runStores opts valid args ls vm = some vm') (hm : ∀ v, vm.value k = some v → valid k v.text = true) :
    ∀ v, vm'.value k = some v → valid k v.text = true := by
  induction ls generalizing args vm with
  | nil =>
    rw [runStores, Option.some.injEq] at h
    rw [← h]; exact hm
  | cons l ls ih =>
    rw [runStores, Option.bind_eq_some_iff] at h
    obtain ⟨vm₁, h1, h2⟩ := h
    rw [Option.bind_eq_some_iff] at h1
    obtain ⟨ps, hp, hs⟩ := h1
    exact ih h2 (store_inv hs (hps _ _ hp) hd hm)

/-- Once an application is constructed, the text of every option of the program itself can be converted. -/
theorem settings_convert {p : Prog} (hp : p ∈ programs) {valid : Text → Text → Bool} (hv : ∀ o ∈ p.own, valid o.1 o.2 = true)
    (ho : valid outName (p.name ++ ['.', 't', 'x', 't']) = true) {env : Env} {fs : FS} {args : List Text} {a : App}
    (h : construct p.options valid env fs args = .val (some (.app a))) {k d : Text} (hk : (k, d) ∈ p.own) :
    ∃ v, a.vars.value k = some v ∧ valid k v.text = true := by
  have hg := programs_good hp hv ho
  have hopt : (⟨k, true, some d⟩ : Opt) ∈ p.options := by
    simp only [Prog.options, programOptions, List.mem_append, List.mem_map]; exact Or.inr ⟨_, hk, rfl⟩
  have hne : k ≠ [] := (hg.name _ hopt).1
  have hdef : defaultOf p.options k = some d := defaultOf_eq (o := ⟨k, true, some d⟩) hg.nodup hopt
  have hps : ∀ args ps, parseArgs p.options args = some ps → ∀ q ∈ ps, q.key = k → ∃ v, q.value = [v] := by
    intro args ps hps q hq hqk
    rcases parseArgs_sound hps q hq with ⟨e, -⟩ | ⟨o, ho, e, hcase⟩
    · exact absurd (hqk ▸ e) hne
    · have : find p.options k = some o := by rw [← hqk, e]; exact find_name hg.nodup ho
      rw [find_name hg.nodup hopt] at this
      cases this
      rcases hcase with ⟨-, h⟩ | ⟨h, -⟩
      · exact h
      · simp at h
  have hvd : ∀ t, defaultOf p.options k = some t → valid k t = true := by
    intro t ht
    rw [hdef] at ht
    cases ht
    exact hv _ hk
  obtain ⟨cmd, vm, hpar, hs, hh, -, -, -, -, -, -, -, hm⟩ := construct_app h
  have hvm := store_inv hs (hps _ _ hpar) hvd (by simp [VM.empty])
  have hpref := construct_precedence h (defaultOf_eq hg.nodup hg.response)
  obtain ⟨_, _, -, -, hpar⟩ := hpref
  have hsome : (a.vars.value k).isSome := by
    have := hpar k hne
    rw [hdef] at this
    unfold parameter at this
    cases hv : a.vars.value k with
    | some v => rfl
    | none => rw [hv] at this; simp [Option.or_eq_none_iff] at this
  obtain ⟨v, hv⟩ := Option.isSome_iff_exists.1 hsome
  refine ⟨v, hv, ?_⟩
  cases hr : vm.value responseFileName with
  | none =>
    rw [hr] at hm
    rw [hm.1] at hv
    exact hvm v hv
  | some r =>
    rw [hr] at hm
    obtain ⟨c, -, hrun, -⟩ := hm
    exact runStores_inv hps hvd hrun hvm v hv

section settings

variable {p : Prog} (hp : p ∈ programs) {kinds : List (Text × Kind)} {conv : Conv} (hd : DefaultsConvert p kinds conv)
  (ht : kindOf kinds outName = .text) {env : Env} {fs : FS} {args : List Text} {a : App}
  (h : construct p.options (fun k t => conv.ok (kindOf kinds k) t) env fs args = .val (some (.app a)))

include hp hd ht h

theorem nat_setting {k : String} (hk : k.toList ∈ p.own.map Prod.fst) (hkind : kindOf kinds k.toList = .nat) :
    ∃ n, asNat kinds conv a k.toList = some n ∧ NatSetting conv a k n := by
  obtain ⟨⟨k', d⟩, hkd, e⟩ := List.mem_map.1 hk
  simp only at e
  subst e
  obtain ⟨v, hv, hok⟩ := settings_convert (valid := fun k t => conv.ok (kindOf kinds k) t) hp hd (by simp only [ht]; rfl) h hkd
  rw [hkind] at hok
  obtain ⟨n, hn⟩ := Option.isSome_iff_exists.1 hok
  refine ⟨n, ?_, v.text, ?_, hn⟩
  · rw [asNat, if_pos hkind, hv]; exact hn
  · rw [parameter, hv]; rfl

theorem num_setting {k : String} (hk : k.toList ∈ p.own.map Prod.fst) (hkind : kindOf kinds k.toList = .num) :
    ∃ n, asNum kinds conv a k.toList = some n ∧ NumSetting conv a k n := by
  obtain ⟨⟨k', d⟩, hkd, e⟩ := List.mem_map.1 hk
  simp only at e
  subst e
  obtain ⟨v, hv, hok⟩ := settings_convert (valid := fun k t => conv.ok (kindOf kinds k) t) hp hd (by simp only [ht]; rfl) h hkd
  rw [hkind] at hok
  obtain ⟨n, hn⟩ := Option.isSome_iff_exists.1 hok
  refine ⟨n, ?_, v.text, ?_, hn⟩
  · rw [asNum, if_pos hkind, hv]; exact hn
  · rw [parameter, hv]; rfl

omit hp hd ht in
theorem header_eq : a.fs a.outputPath = some (header a) := by
  obtain ⟨cmd, vm, -, -, -, -, -, -, -, -, -, -, hm⟩ := construct_app h
  have : ∃ t, a.fs a.outputPath = some t := by
    cases hr : vm.value responseFileName with
    | none => rw [hr] at hm; exact ⟨_, by rw [hm.2, FS.set, if_pos rfl]⟩
    | some r => rw [hr] at hm; obtain ⟨c, -, -, e⟩ := hm; exact ⟨_, by rw [e, FS.set, if_pos rfl]⟩
  obtain ⟨t, ht⟩ := this
  rw [header, ht]; rfl

omit hp hd ht in
theorem mainWith_app {S : Type} {body : App → Option (Res S)} {r : Res S} (hb : body a = some r) :
    mainWith p kinds conv env fs args body = r.map (.finished a) := by
  rw [mainWith, h, Res.bind_val]
  simp only [hb]

end settings

theorem behaves {H O : Type} {main : Res (Outcome (Traced H O))} {a : App} {x : Res (Traced H O)} {r : Res (Sim.State H O)}
    {row : ℝ → O → Text} (hmain : main = x.map (.finished a)) (hx : x.map Prod.fst = r) (hh : a.fs a.outputPath = some (header a))
    (hf : ∀ s, x = .val s → ∃ ins step measure dt tEnd interval h0,
      simulateT ins step measure dt tEnd interval (header a) h0 = .val s ∧ rowText ins = row) : Behaves main a r row := by
  refine ⟨?_, ?_, ?_⟩
  · intro s hs
    cases x with
    | val t =>
      rw [hs] at hx
      cases hx
      refine ⟨t.2, hmain, header a, hh, ?_, ?_⟩
      · obtain ⟨p', hr, -⟩ := run_lazy t.2 [] [] []
        exact ⟨_, hr⟩
      · intro old d hr
        obtain ⟨ins, step, measure, dt, tEnd, interval, h0, e, hrow⟩ := hf t rfl
        rw [← hrow]
        exact (finished_output e hr).1
    | ub => rw [hs] at hx; cases hx
    | diverges => rw [hs] at hx; cases hx
  · rintro rfl
    cases x with
    | val t => cases hx
    | ub => exact hmain
    | diverges => cases hx
  · rintro rfl
    cases x with
    | val t => cases hx
    | ub => cases hx
    | diverges => exact hmain

/-! ### The programs -/

theorem map_bind {α β γ : Type*} (x : Res α) (f : α → Res β) (g : β → γ) : (x.bind f).map g = x.bind fun y => (f y).map g := by
  cases x <;> rfl

theorem bind_congr {α β : Type*} (x : Res α) {f g : α → Res β} (h : ∀ y, f y = g y) : x.bind f = x.bind g := by
  cases x with
  | val y => exact h y
  | ub => rfl
  | diverges => rfl

theorem bind_val {α β : Type*} {x : Res α} {f : α → Res β} {b : β} (h : x.bind f = .val b) : ∃ y, x = .val y ∧ f y = .val b := by
  cases x with
  | val y => exact ⟨y, rfl, h⟩
  | ub => cases h
  | diverges => cases h

theorem map_val {α β : Type*} {x : Res α} {f : α → β} {b : β} (h : x.map f = .val b) : ∃ y, x = .val y ∧ f y = b := by
  cases x with
  | val y => exact ⟨y, rfl, by injection h⟩
  | ub => cases h
  | diverges => cases h

theorem occupationIns_text (shw : ℝ → Text) : rowText (occupationRow shw) = fun t x => tabRow [shw t, shw x] :=
  funext fun t => funext fun x => occupationRow_text shw t x

theorem coefficientIns_text (shw : ℝ → Text) : rowText (coefficientIns shw) = fun t o => tabRow (shw t :: o.map shw) := by
  funext t o
  rw [tabRow, intercalate_cons_flatMap]
  have e : (o.flatMap fun x => [['\t'], shw x]).flatten = o.flatMap fun x => '\t' :: shw x := by
    induction o with
    | nil => rfl
    | cons x o ih => simp [ih]
  simp [rowText, coefficientIns, List.flatMap_map, e]

theorem real1dRk4T_fst (m : Machine) (head : Text) (N : ℕ) (J : ℝ) (U : ℝ) (dt : ℝ) (tEnd : ℝ) (interval : ℕ) (filling : ℝ) :
    (real1dRk4T m head N J U dt tEnd interval filling).map Prod.fst = Program.real1dRk4 m.sort (m.exec N) m.work N J U dt tEnd interval filling := by
  unfold real1dRk4T Program.real1dRk4
  simp only [map_bind, simulateT_fst]
  rfl

/-- **C94** for `hubbard_real_1d_rk4`: once `Application` is constructed, reading the parameters does not throw, and the program does what the
computation does with exactly the parameters it sees; its rows are the file after the header. -/
theorem mainReal1dRk4_behaves (conv : Conv) (hd : DefaultsConvert progReal1dRk4 kindsReal1dRk4 conv) (m : Machine) {env : Env} {fs : FS}
    {args : List Text} {a : App}
    (h : construct progReal1dRk4.options (fun k t => conv.ok (kindOf kindsReal1dRk4 k) t) env fs args = .val (some (.app a))) :
    ∃ N J U dt tEnd interval filling, NatSetting conv a "N" N ∧ NumSetting conv a "J" J ∧ NumSetting conv a "U" U ∧ NumSetting conv a "dt" dt ∧ NumSetting conv a "t_end" tEnd ∧ NatSetting conv a "measurement_interval" interval ∧ NumSetting conv a "filling_factor" filling ∧
      Behaves (mainReal1dRk4 conv m env fs args) a (Program.real1dRk4 m.sort (m.exec N) m.work N J U dt tEnd interval filling)
        (fun t x => tabRow [m.shw t, m.shw x]) := by
  have hp : progReal1dRk4 ∈ programs := by simp [programs]
  have ht : kindOf kindsReal1dRk4 outName = .text := by decide
  obtain ⟨N, eN, sN⟩ := nat_setting hp hd ht h (k := "N") (by decide) (by decide)
  obtain ⟨J, eJ, sJ⟩ := num_setting hp hd ht h (k := "J") (by decide) (by decide)
  obtain ⟨U, eU, sU⟩ := num_setting hp hd ht h (k := "U") (by decide) (by decide)
  obtain ⟨dt, edt, sdt⟩ := num_setting hp hd ht h (k := "dt") (by decide) (by decide)
  obtain ⟨tEnd, etEnd, stEnd⟩ := num_setting hp hd ht h (k := "t_end") (by decide) (by decide)
  obtain ⟨interval, einterval, sinterval⟩ := nat_setting hp hd ht h (k := "measurement_interval") (by decide) (by decide)
  obtain ⟨filling, efilling, sfilling⟩ := num_setting hp hd ht h (k := "filling_factor") (by decide) (by decide)
  refine ⟨N, J, U, dt, tEnd, interval, filling, sN, sJ, sU, sdt, stEnd, sinterval, sfilling, ?_⟩
  refine behaves (x := real1dRk4T m (header a) N J U dt tEnd interval filling) ?_ (real1dRk4T_fst m (header a) N J U dt tEnd interval filling) (header_eq h) ?_
  · refine mainWith_app h ?_
    rw [show "N".toList = (['N'] : Text) from by decide] at eN
    rw [show "J".toList = (['J'] : Text) from by decide] at eJ
    rw [show "U".toList = (['U'] : Text) from by decide] at eU
    rw [show "dt".toList = (['d', 't'] : Text) from by decide] at edt
    rw [show "t_end".toList = (['t', '_', 'e', 'n', 'd'] : Text) from by decide] at etEnd
    rw [show "measurement_interval".toList = (['m', 'e', 'a', 's', 'u', 'r', 'e', 'm', 'e', 'n', 't', '_', 'i', 'n', 't', 'e', 'r', 'v', 'a', 'l'] : Text) from by decide] at einterval
    rw [show "filling_factor".toList = (['f', 'i', 'l', 'l', 'i', 'n', 'g', '_', 'f', 'a', 'c', 't', 'o', 'r'] : Text) from by decide] at efilling
    simp only [eN, eJ, eU, edt, etEnd, einterval, efilling, Option.bind_some]
  · intro s hs
    unfold real1dRk4T at hs
    simp only at hs
    obtain ⟨_, -, hs⟩ := bind_val hs
    obtain ⟨_, -, hs⟩ := bind_val hs
    obtain ⟨_, -, hs⟩ := bind_val hs
    exact ⟨_, _, _, _, _, _, _, hs, occupationIns_text m.shw⟩

theorem real1dKineticRk4T_fst (m : Machine) (head : Text) (N : ℕ) (J : ℝ) (dt : ℝ) (tEnd : ℝ) (interval : ℕ) (filling : ℝ) :
    (real1dKineticRk4T m head N J dt tEnd interval filling).map Prod.fst = Program.real1dKineticRk4 m.sort (m.exec N) m.work N J dt tEnd interval filling := by
  unfold real1dKineticRk4T Program.real1dKineticRk4
  simp only [map_bind, simulateT_fst]
  rfl

/-- **C94** for `hubbard_real_1d_kinetic_rk4`: once `Application` is constructed, reading the parameters does not throw, and the program does what the
computation does with exactly the parameters it sees; its rows are the file after the header. -/
theorem mainReal1dKineticRk4_behaves (conv : Conv) (hd : DefaultsConvert progReal1dKineticRk4 kindsReal1dKineticRk4 conv) (m : Machine) {env : Env} {fs : FS}
    {args : List Text} {a : App}
    (h : construct progReal1dKineticRk4.options (fun k t => conv.ok (kindOf kindsReal1dKineticRk4 k) t) env fs args = .val (some (.app a))) :
    ∃ N J dt tEnd interval filling, NatSetting conv a "N" N ∧ NumSetting conv a "J" J ∧ NumSetting conv a "dt" dt ∧ NumSetting conv a "t_end" tEnd ∧ NatSetting conv a "measurement_interval" interval ∧ NumSetting conv a "filling_factor" filling ∧
      Behaves (mainReal1dKineticRk4 conv m env fs args) a (Program.real1dKineticRk4 m.sort (m.exec N) m.work N J dt tEnd interval filling)
        (fun t x => tabRow [m.shw t, m.shw x]) := by
  have hp : progReal1dKineticRk4 ∈ programs := by simp [programs]
  have ht : kindOf kindsReal1dKineticRk4 outName = .text := by decide
  obtain ⟨N, eN, sN⟩ := nat_setting hp hd ht h (k := "N") (by decide) (by decide)
  obtain ⟨J, eJ, sJ⟩ := num_setting hp hd ht h (k := "J") (by decide) (by decide)
  obtain ⟨dt, edt, sdt⟩ := num_setting hp hd ht h (k := "dt") (by decide) (by decide)
  obtain ⟨tEnd, etEnd, stEnd⟩ := num_setting hp hd ht h (k := "t_end") (by decide) (by decide)
  obtain ⟨interval, einterval, sinterval⟩ := nat_setting hp hd ht h (k := "measurement_interval") (by decide) (by decide)
  obtain ⟨filling, efilling, sfilling⟩ := num_setting hp hd ht h (k := "filling_factor") (by decide) (by decide)
  refine ⟨N, J, dt, tEnd, interval, filling, sN, sJ, sdt, stEnd, sinterval, sfilling, ?_⟩
  refine behaves (x := real1dKineticRk4T m (header a) N J dt tEnd interval filling) ?_ (real1dKineticRk4T_fst m (header a) N J dt tEnd interval filling) (header_eq h) ?_
  · refine mainWith_app h ?_
    rw [show "N".toList = (['N'] : Text) from by decide] at eN
    rw [show "J".toList = (['J'] : Text) from by decide] at eJ
    rw [show "dt".toList = (['d', 't'] : Text) from by decide] at edt
    rw [show "t_end".toList = (['t', '_', 'e', 'n', 'd'] : Text) from by decide] at etEnd
    rw [show "measurement_interval".toList = (['m', 'e', 'a', 's', 'u', 'r', 'e', 'm', 'e', 'n', 't', '_', 'i', 'n', 't', 'e', 'r', 'v', 'a', 'l'] : Text) from by decide] at einterval
    rw [show "filling_factor".toList = (['f', 'i', 'l', 'l', 'i', 'n', 'g', '_', 'f', 'a', 'c', 't', 'o', 'r'] : Text) from by decide] at efilling
    simp only [eN, eJ, edt, etEnd, einterval, efilling, Option.bind_some]
  · intro s hs
    unfold real1dKineticRk4T at hs
    simp only at hs
    obtain ⟨_, -, hs⟩ := bind_val hs
    obtain ⟨_, -, hs⟩ := bind_val hs
    obtain ⟨_, -, hs⟩ := bind_val hs
    exact ⟨_, _, _, _, _, _, _, hs, occupationIns_text m.shw⟩

theorem real1dRk4CoefficientsT_fst (m : Machine) (head : Text) (N : ℕ) (J : ℝ) (U : ℝ) (dt : ℝ) (tEnd : ℝ) (interval : ℕ) :
    (real1dRk4CoefficientsT m head N J U dt tEnd interval).map Prod.fst = Program.real1dRk4Coefficients m.sort m.work N J U dt tEnd interval := by
  unfold real1dRk4CoefficientsT Program.real1dRk4Coefficients
  simp only [map_bind, simulateT_fst]
  rfl

/-- **C94** for `hubbard_real_1d_rk4_coefficients`: once `Application` is constructed, reading the parameters does not throw, and the program does what the
computation does with exactly the parameters it sees; its rows are the file after the header. -/
theorem mainReal1dRk4Coefficients_behaves (conv : Conv) (hd : DefaultsConvert progReal1dRk4Coefficients kindsReal1dRk4Coefficients conv) (m : Machine) {env : Env} {fs : FS}
    {args : List Text} {a : App}
    (h : construct progReal1dRk4Coefficients.options (fun k t => conv.ok (kindOf kindsReal1dRk4Coefficients k) t) env fs args = .val (some (.app a))) :
    ∃ N J U dt tEnd interval, NatSetting conv a "N" N ∧ NumSetting conv a "J" J ∧ NumSetting conv a "U" U ∧ NumSetting conv a "dt" dt ∧ NumSetting conv a "t_end" tEnd ∧ NatSetting conv a "measurement_interval" interval ∧
      Behaves (mainReal1dRk4Coefficients conv m env fs args) a (Program.real1dRk4Coefficients m.sort m.work N J U dt tEnd interval)
        (fun t o => tabRow (m.shw t :: o.map m.shw)) := by
  have hp : progReal1dRk4Coefficients ∈ programs := by simp [programs]
  have ht : kindOf kindsReal1dRk4Coefficients outName = .text := by decide
  obtain ⟨N, eN, sN⟩ := nat_setting hp hd ht h (k := "N") (by decide) (by decide)
  obtain ⟨J, eJ, sJ⟩ := num_setting hp hd ht h (k := "J") (by decide) (by decide)
  obtain ⟨U, eU, sU⟩ := num_setting hp hd ht h (k := "U") (by decide) (by decide)
  obtain ⟨dt, edt, sdt⟩ := num_setting hp hd ht h (k := "dt") (by decide) (by decide)
  obtain ⟨tEnd, etEnd, stEnd⟩ := num_setting hp hd ht h (k := "t_end") (by decide) (by decide)
  obtain ⟨interval, einterval, sinterval⟩ := nat_setting hp hd ht h (k := "measurement_interval") (by decide) (by decide)
  refine ⟨N, J, U, dt, tEnd, interval, sN, sJ, sU, sdt, stEnd, sinterval, ?_⟩
  refine behaves (x := real1dRk4CoefficientsT m (header a) N J U dt tEnd interval) ?_ (real1dRk4CoefficientsT_fst m (header a) N J U dt tEnd interval) (header_eq h) ?_
  · refine mainWith_app h ?_
    rw [show "N".toList = (['N'] : Text) from by decide] at eN
    rw [show "J".toList = (['J'] : Text) from by decide] at eJ
    rw [show "U".toList = (['U'] : Text) from by decide] at eU
    rw [show "dt".toList = (['d', 't'] : Text) from by decide] at edt
    rw [show "t_end".toList = (['t', '_', 'e', 'n', 'd'] : Text) from by decide] at etEnd
    rw [show "measurement_interval".toList = (['m', 'e', 'a', 's', 'u', 'r', 'e', 'm', 'e', 'n', 't', '_', 'i', 'n', 't', 'e', 'r', 'v', 'a', 'l'] : Text) from by decide] at einterval
    simp only [eN, eJ, eU, edt, etEnd, einterval, Option.bind_some]
  · intro s hs
    unfold real1dRk4CoefficientsT at hs
    simp only at hs
    obtain ⟨_, -, hs⟩ := bind_val hs
    obtain ⟨_, -, hs⟩ := bind_val hs
    exact ⟨_, _, _, _, _, _, _, hs, coefficientIns_text m.shw⟩

theorem real1dKineticRk4CoefficientsT_fst (m : Machine) (head : Text) (N : ℕ) (J : ℝ) (dt : ℝ) (tEnd : ℝ) (interval : ℕ) :
    (real1dKineticRk4CoefficientsT m head N J dt tEnd interval).map Prod.fst = Program.real1dKineticRk4Coefficients m.sort m.work N J dt tEnd interval := by
  unfold real1dKineticRk4CoefficientsT Program.real1dKineticRk4Coefficients
  simp only [map_bind, simulateT_fst]
  rfl

/-- **C94** for `hubbard_real_1d_kinetic_rk4_coefficients`: once `Application` is constructed, reading the parameters does not throw, and the program does what the
computation does with exactly the parameters it sees; its rows are the file after the header. -/
theorem mainReal1dKineticRk4Coefficients_behaves (conv : Conv) (hd : DefaultsConvert progReal1dKineticRk4Coefficients kindsReal1dKineticRk4Coefficients conv) (m : Machine) {env : Env} {fs : FS}
    {args : List Text} {a : App}
    (h : construct progReal1dKineticRk4Coefficients.options (fun k t => conv.ok (kindOf kindsReal1dKineticRk4Coefficients k) t) env fs args = .val (some (.app a))) :
    ∃ N J dt tEnd interval, NatSetting conv a "N" N ∧ NumSetting conv a "J" J ∧ NumSetting conv a "dt" dt ∧ NumSetting conv a "t_end" tEnd ∧ NatSetting conv a "measurement_interval" interval ∧
      Behaves (mainReal1dKineticRk4Coefficients conv m env fs args) a (Program.real1dKineticRk4Coefficients m.sort m.work N J dt tEnd interval)
        (fun t o => tabRow (m.shw t :: o.map m.shw)) := by
  have hp : progReal1dKineticRk4Coefficients ∈ programs := by simp [programs]
  have ht : kindOf kindsReal1dKineticRk4Coefficients outName = .text := by decide
  obtain ⟨N, eN, sN⟩ := nat_setting hp hd ht h (k := "N") (by decide) (by decide)
  obtain ⟨J, eJ, sJ⟩ := num_setting hp hd ht h (k := "J") (by decide) (by decide)
  obtain ⟨dt, edt, sdt⟩ := num_setting hp hd ht h (k := "dt") (by decide) (by decide)
  obtain ⟨tEnd, etEnd, stEnd⟩ := num_setting hp hd ht h (k := "t_end") (by decide) (by decide)
  obtain ⟨interval, einterval, sinterval⟩ := nat_setting hp hd ht h (k := "measurement_interval") (by decide) (by decide)
  refine ⟨N, J, dt, tEnd, interval, sN, sJ, sdt, stEnd, sinterval, ?_⟩
  refine behaves (x := real1dKineticRk4CoefficientsT m (header a) N J dt tEnd interval) ?_ (real1dKineticRk4CoefficientsT_fst m (header a) N J dt tEnd interval) (header_eq h) ?_
  · refine mainWith_app h ?_
    rw [show "N".toList = (['N'] : Text) from by decide] at eN
    rw [show "J".toList = (['J'] : Text) from by decide] at eJ
    rw [show "dt".toList = (['d', 't'] : Text) from by decide] at edt
    rw [show "t_end".toList = (['t', '_', 'e', 'n', 'd'] : Text) from by decide] at etEnd
    rw [show "measurement_interval".toList = (['m', 'e', 'a', 's', 'u', 'r', 'e', 'm', 'e', 'n', 't', '_', 'i', 'n', 't', 'e', 'r', 'v', 'a', 'l'] : Text) from by decide] at einterval
    simp only [eN, eJ, edt, etEnd, einterval, Option.bind_some]
  · intro s hs
    unfold real1dKineticRk4CoefficientsT at hs
    simp only at hs
    obtain ⟨_, -, hs⟩ := bind_val hs
    obtain ⟨_, -, hs⟩ := bind_val hs
    exact ⟨_, _, _, _, _, _, _, hs, coefficientIns_text m.shw⟩

theorem real1dRk4JumpT_fst (m : Machine) (head : Text) (N : ℕ) (J : ℝ) (U : ℝ) (dt : ℝ) (tEnd : ℝ) (interval : ℕ) (filling : ℝ) :
    (real1dRk4JumpT m head N J U dt tEnd interval filling).map Prod.fst = Program.real1dRk4Jump m.sort (m.jump N) m.work N J U dt tEnd interval filling := by
  unfold real1dRk4JumpT Program.real1dRk4Jump
  simp only [map_bind, simulateT_fst]

/-- **C94** for `hubbard_real_1d_rk4_jump`: once `Application` is constructed, reading the parameters does not throw, and the program does what the
computation does with exactly the parameters it sees; its rows are the file after the header. -/
theorem mainReal1dRk4Jump_behaves (conv : Conv) (hd : DefaultsConvert progReal1dRk4Jump kindsReal1dRk4Jump conv) (m : Machine) {env : Env} {fs : FS}
    {args : List Text} {a : App}
    (h : construct progReal1dRk4Jump.options (fun k t => conv.ok (kindOf kindsReal1dRk4Jump k) t) env fs args = .val (some (.app a))) :
    ∃ N J U dt tEnd interval filling, NatSetting conv a "N" N ∧ NumSetting conv a "J" J ∧ NumSetting conv a "U" U ∧ NumSetting conv a "dt" dt ∧ NumSetting conv a "t_end" tEnd ∧ NatSetting conv a "measurement_interval" interval ∧ NumSetting conv a "filling_factor" filling ∧
      Behaves (mainReal1dRk4Jump conv m env fs args) a (Program.real1dRk4Jump m.sort (m.jump N) m.work N J U dt tEnd interval filling)
        (fun t x => tabRow [m.shw t, m.shw x]) := by
  have hp : progReal1dRk4Jump ∈ programs := by simp [programs]
  have ht : kindOf kindsReal1dRk4Jump outName = .text := by decide
  obtain ⟨N, eN, sN⟩ := nat_setting hp hd ht h (k := "N") (by decide) (by decide)
  obtain ⟨J, eJ, sJ⟩ := num_setting hp hd ht h (k := "J") (by decide) (by decide)
  obtain ⟨U, eU, sU⟩ := num_setting hp hd ht h (k := "U") (by decide) (by decide)
  obtain ⟨dt, edt, sdt⟩ := num_setting hp hd ht h (k := "dt") (by decide) (by decide)
  obtain ⟨tEnd, etEnd, stEnd⟩ := num_setting hp hd ht h (k := "t_end") (by decide) (by decide)
  obtain ⟨interval, einterval, sinterval⟩ := nat_setting hp hd ht h (k := "measurement_interval") (by decide) (by decide)
  obtain ⟨filling, efilling, sfilling⟩ := num_setting hp hd ht h (k := "filling_factor") (by decide) (by decide)
  refine ⟨N, J, U, dt, tEnd, interval, filling, sN, sJ, sU, sdt, stEnd, sinterval, sfilling, ?_⟩
  refine behaves (x := real1dRk4JumpT m (header a) N J U dt tEnd interval filling) ?_ (real1dRk4JumpT_fst m (header a) N J U dt tEnd interval filling) (header_eq h) ?_
  · refine mainWith_app h ?_
    rw [show "N".toList = (['N'] : Text) from by decide] at eN
    rw [show "J".toList = (['J'] : Text) from by decide] at eJ
    rw [show "U".toList = (['U'] : Text) from by decide] at eU
    rw [show "dt".toList = (['d', 't'] : Text) from by decide] at edt
    rw [show "t_end".toList = (['t', '_', 'e', 'n', 'd'] : Text) from by decide] at etEnd
    rw [show "measurement_interval".toList = (['m', 'e', 'a', 's', 'u', 'r', 'e', 'm', 'e', 'n', 't', '_', 'i', 'n', 't', 'e', 'r', 'v', 'a', 'l'] : Text) from by decide] at einterval
    rw [show "filling_factor".toList = (['f', 'i', 'l', 'l', 'i', 'n', 'g', '_', 'f', 'a', 'c', 't', 'o', 'r'] : Text) from by decide] at efilling
    simp only [eN, eJ, eU, edt, etEnd, einterval, efilling, Option.bind_some]
  · intro s hs
    unfold real1dRk4JumpT at hs
    simp only at hs
    obtain ⟨_, -, hs⟩ := bind_val hs
    obtain ⟨_, -, hs⟩ := bind_val hs
    obtain ⟨_, -, hs⟩ := bind_val hs
    obtain ⟨_, -, hs⟩ := bind_val hs
    exact ⟨_, _, _, _, _, _, _, hs, occupationIns_text m.shw⟩

theorem real2dRk4JumpT_fst (m : Machine) (head : Text) (Nx : ℕ) (Ny : ℕ) (J : ℝ) (U : ℝ) (dt : ℝ) (tEnd : ℝ) (interval : ℕ) (kx : ℝ) (ky : ℝ) :
    (real2dRk4JumpT m head Nx Ny J U dt tEnd interval kx ky).map Prod.fst = Program.real2dRk4Jump m.sort (m.jump2 Nx Ny) m.work Nx Ny J U dt tEnd interval kx ky := by
  unfold real2dRk4JumpT Program.real2dRk4Jump
  simp only [map_bind, simulateT_fst]

/-- **C94** for `hubbard_real_2d_rk4_jump`: once `Application` is constructed, reading the parameters does not throw, and the program does what the
computation does with exactly the parameters it sees; its rows are the file after the header. -/
theorem mainReal2dRk4Jump_behaves (conv : Conv) (hd : DefaultsConvert progReal2dRk4Jump kindsReal2dRk4Jump conv) (m : Machine) {env : Env} {fs : FS}
    {args : List Text} {a : App}
    (h : construct progReal2dRk4Jump.options (fun k t => conv.ok (kindOf kindsReal2dRk4Jump k) t) env fs args = .val (some (.app a))) :
    ∃ Nx Ny J U dt tEnd interval kx ky, NatSetting conv a "Nx" Nx ∧ NatSetting conv a "Ny" Ny ∧ NumSetting conv a "J" J ∧ NumSetting conv a "U" U ∧ NumSetting conv a "dt" dt ∧ NumSetting conv a "t_end" tEnd ∧ NatSetting conv a "measurement_interval" interval ∧ NumSetting conv a "kx" kx ∧ NumSetting conv a "ky" ky ∧
      Behaves (mainReal2dRk4Jump conv m env fs args) a (Program.real2dRk4Jump m.sort (m.jump2 Nx Ny) m.work Nx Ny J U dt tEnd interval kx ky)
        (fun t x => tabRow [m.shw t, m.shw x]) := by
  have hp : progReal2dRk4Jump ∈ programs := by simp [programs]
  have ht : kindOf kindsReal2dRk4Jump outName = .text := by decide
  obtain ⟨Nx, eNx, sNx⟩ := nat_setting hp hd ht h (k := "Nx") (by decide) (by decide)
  obtain ⟨Ny, eNy, sNy⟩ := nat_setting hp hd ht h (k := "Ny") (by decide) (by decide)
  obtain ⟨J, eJ, sJ⟩ := num_setting hp hd ht h (k := "J") (by decide) (by decide)
  obtain ⟨U, eU, sU⟩ := num_setting hp hd ht h (k := "U") (by decide) (by decide)
  obtain ⟨dt, edt, sdt⟩ := num_setting hp hd ht h (k := "dt") (by decide) (by decide)
  obtain ⟨tEnd, etEnd, stEnd⟩ := num_setting hp hd ht h (k := "t_end") (by decide) (by decide)
  obtain ⟨interval, einterval, sinterval⟩ := nat_setting hp hd ht h (k := "measurement_interval") (by decide) (by decide)
  obtain ⟨kx, ekx, skx⟩ := num_setting hp hd ht h (k := "kx") (by decide) (by decide)
  obtain ⟨ky, eky, sky⟩ := num_setting hp hd ht h (k := "ky") (by decide) (by decide)
  refine ⟨Nx, Ny, J, U, dt, tEnd, interval, kx, ky, sNx, sNy, sJ, sU, sdt, stEnd, sinterval, skx, sky, ?_⟩
  refine behaves (x := real2dRk4JumpT m (header a) Nx Ny J U dt tEnd interval kx ky) ?_ (real2dRk4JumpT_fst m (header a) Nx Ny J U dt tEnd interval kx ky) (header_eq h) ?_
  · refine mainWith_app h ?_
    rw [show "Nx".toList = (['N', 'x'] : Text) from by decide] at eNx
    rw [show "Ny".toList = (['N', 'y'] : Text) from by decide] at eNy
    rw [show "J".toList = (['J'] : Text) from by decide] at eJ
    rw [show "U".toList = (['U'] : Text) from by decide] at eU
    rw [show "dt".toList = (['d', 't'] : Text) from by decide] at edt
    rw [show "t_end".toList = (['t', '_', 'e', 'n', 'd'] : Text) from by decide] at etEnd
    rw [show "measurement_interval".toList = (['m', 'e', 'a', 's', 'u', 'r', 'e', 'm', 'e', 'n', 't', '_', 'i', 'n', 't', 'e', 'r', 'v', 'a', 'l'] : Text) from by decide] at einterval
    rw [show "kx".toList = (['k', 'x'] : Text) from by decide] at ekx
    rw [show "ky".toList = (['k', 'y'] : Text) from by decide] at eky
    simp only [eNx, eNy, eJ, eU, edt, etEnd, einterval, ekx, eky, Option.bind_some]
  · intro s hs
    unfold real2dRk4JumpT at hs
    simp only at hs
    obtain ⟨_, -, hs⟩ := bind_val hs
    obtain ⟨_, -, hs⟩ := bind_val hs
    obtain ⟨_, -, hs⟩ := bind_val hs
    obtain ⟨_, -, hs⟩ := bind_val hs
    exact ⟨_, _, _, _, _, _, _, hs, occupationIns_text m.shw⟩

end Ieompp.Main
