import Verif.Props.Application
import Verif.Model.ProgramOptions
import Verif.Model.Restart

/-!
# C78-C80: the options of the programs
-/

set_option autoImplicit false
set_option linter.unusedSectionVars false

namespace Ieompp.App

open IO Spec

/-- The names which the user types. -/
theorem option_names : helpName = "help".toList ∧ versionName = "version".toList ∧ outName = "out".toList ∧
    responseFileName = "response_file".toList ∧ checkpointName = "checkpoint".toList := by
  decide

/-- The options of a program are good when the texts of the default values can be converted. -/
theorem programOptions_good {name : Text} {own : List (Text × Text)} {valid : Text → Text → Bool}
    (hn : (own.map Prod.fst).Nodup) (hname : '\n' ∉ name ∧ '\r' ∉ name)
    (hown : ∀ o ∈ own, o.1 ≠ [] ∧ '=' ∉ o.1 ∧ '\n' ∉ o.1 ∧ regexDefault o.2 = true)
    (hnew : ∀ o ∈ own, o.1 ∉ [helpName, versionName, responseFileName, outName])
    (hv : ∀ o ∈ own, valid o.1 o.2 = true) (ho : valid outName (name ++ ['.', 't', 'x', 't']) = true) :
    GoodOptions (programOptions name own) valid := by
  have mem : ∀ o : Opt, o ∈ programOptions name own ↔ o = ⟨helpName, false, none⟩ ∨ o = ⟨versionName, false, none⟩ ∨
      o = ⟨responseFileName, true, none⟩ ∨ o = ⟨outName, true, some (name ++ ['.', 't', 'x', 't'])⟩ ∨
      ∃ x ∈ own, o = ⟨x.1, true, some x.2⟩ := by
    intro o
    simp [programOptions, eq_comm]
  have hre : regexDefault (name ++ ['.', 't', 'x', 't']) = true := by
    simp [regexDefault, hname.1, hname.2]
  refine ⟨?_, ?_, ?_, ?_, ?_, ⟨_, (mem _).2 (Or.inr (Or.inr (Or.inr (Or.inl rfl))))⟩, ?_⟩
  · have e : (programOptions name own).map (fun o => o.name) = [helpName, versionName, responseFileName, outName] ++ own.map Prod.fst := by
      simp [programOptions, Function.comp_def]
    rw [e, List.nodup_append]
    refine ⟨by decide, hn, ?_⟩
    intro a ha b hb hab
    obtain ⟨o, ho', rfl⟩ := List.mem_map.1 hb
    exact hnew o ho' (hab ▸ ha)
  · intro o ho'
    rcases (mem o).1 ho' with rfl | rfl | rfl | rfl | ⟨x, hx, rfl⟩
    · decide
    · decide
    · decide
    · exact (by decide : outName ≠ [] ∧ '=' ∉ outName ∧ '\n' ∉ outName)
    · exact ⟨(hown x hx).1, (hown x hx).2.1, (hown x hx).2.2.1⟩
  · intro o ho' ht
    rcases (mem o).1 ho' with rfl | rfl | rfl | rfl | ⟨x, hx, rfl⟩ <;> simp at ht ⊢
  · intro o ho' d hd
    rcases (mem o).1 ho' with rfl | rfl | rfl | rfl | ⟨x, hx, rfl⟩ <;> simp at hd
    · subst hd; exact ⟨rfl, hre, ho⟩
    · subst hd; exact ⟨rfl, (hown x hx).2.2.2, hv x hx⟩
  · exact (mem _).2 (Or.inr (Or.inr (Or.inl rfl)))
  · intro o ho' hh
    rcases (mem o).1 ho' with rfl | rfl | rfl | rfl | ⟨x, hx, rfl⟩
    · rfl
    · rfl
    · rfl
    · exact absurd hh (by decide : ¬ (outName = helpName ∨ outName = versionName))
    · exact absurd (by rcases hh with h | h <;> simp_all) (hnew x hx)

/-- Every program of the repository has good options. -/
theorem programs_good {p : Prog} (hp : p ∈ programs) {valid : Text → Text → Bool} (hv : ∀ o ∈ p.own, valid o.1 o.2 = true)
    (ho : valid outName (p.name ++ ['.', 't', 'x', 't']) = true) : GoodOptions p.options valid := by
  simp only [programs, List.mem_cons, List.not_mem_nil, or_false] at hp
  refine programOptions_good ?_ ?_ ?_ ?_ hv ho <;> rcases hp with rfl | rfl | rfl | rfl | rfl | rfl | rfl <;> decide

/-! ### Starting a program from the command line -/

theorem storeLoop_new {valid : Text → Text → Bool} (ps : List Parsed) (m : Text → Option Value)
    (hn : (ps.map fun p => p.key).Nodup) (hm : ∀ p ∈ ps, m p.key = none) (hv : ∀ p ∈ ps, ∀ v ∈ p.value, valid p.key v = true) :
    (storeLoop valid (fun _ => false) ps m).isSome := by
  induction ps generalizing m with
  | nil => rfl
  | cons o ps ih =>
    have hd : discard m o.key = m := by
      unfold discard; rw [hm o List.mem_cons_self]
    rw [storeLoop]
    by_cases hk : o.key = []
    · rw [if_pos hk]
      exact ih m (List.nodup_cons.1 hn).2 (fun x hx => hm x (List.mem_cons_of_mem _ hx)) fun x hx => hv x (List.mem_cons_of_mem _ hx)
    · have hvalid : (o.value ≠ [] && !valid o.key (o.value.headD [])) = false := by
        cases hl : o.value with
        | nil => simp
        | cons v vs => simp [hv o List.mem_cons_self v (by rw [hl]; exact List.mem_cons_self)]
      rw [if_neg hk, if_neg (by simp)]
      simp only [hd, hm o List.mem_cons_self, Option.isSome_none, Bool.false_eq_true, if_false, hvalid]
      refine ih _ (List.nodup_cons.1 hn).2 (fun x hx => ?_) fun x hx => hv x (List.mem_cons_of_mem _ hx)
      have : x.key ≠ o.key := fun e => (List.nodup_cons.1 hn).1 (List.mem_map.2 ⟨x, hx, e⟩)
      rw [Function.update_of_ne this, hm x (List.mem_cons_of_mem _ hx)]

theorem store_new {opts : List Opt} {valid : Text → Text → Bool} (ps : List Parsed)
    (hn : (ps.map fun p => p.key).Nodup) (hv : ∀ p ∈ ps, ∀ v ∈ p.value, valid p.key v = true) :
    ∃ vm, store opts valid ps VM.empty = some vm := by
  obtain ⟨m, hm⟩ := Option.isSome_iff_exists.1 (storeLoop_new (valid := valid) ps (fun _ => none) hn (fun _ _ => rfl) hv)
  unfold store
  rw [show VM.empty.final = fun _ => false from rfl, show VM.empty.value = fun _ => none from rfl, hm]
  exact ⟨_, rfl⟩

theorem given_map (set : List (Text × Text)) (k : Text) :
    given (set.map fun o => ⟨o.1, [o.2]⟩) k = (set.find? fun o => o.1 = k).map Prod.snd := by
  unfold given
  rw [List.find?_map, Option.map_map]
  rfl

/-- The constructor after successful parsing and storing, without a response file. -/
theorem construct_plain {opts : List Opt} {valid : Text → Text → Bool} (env : Env) (fs : FS) {args : List Text} {cmd : List Parsed} {vm : VM}
    (hp : parseArgs opts args = some cmd) (hs : store opts valid cmd VM.empty = some vm) (h1 : vm.value helpName = none)
    (h2 : vm.value versionName = none) {out : Value} (h3 : vm.value outName = some out) (h4 : vm.value responseFileName = none) :
    ∃ a, construct opts valid env fs args = .val (some (.app a)) := by
  unfold construct parseCommandLineOptions
  rw [hp]
  simp only [Option.bind_some, hs, Option.map_some, h1, h2, h3, h4, Option.isSome_none, Bool.false_eq_true, if_false]
  exact ⟨_, rfl⟩

/-- `help` and `version` have no default values. -/
theorem GoodOptions.noDefault {opts : List Opt} {valid : Text → Text → Bool} (hg : GoodOptions opts valid) {k : Text}
    (hk : k = helpName ∨ k = versionName) : defaultOf opts k = none := by
  unfold defaultOf
  rw [List.findSome?_eq_none_iff]
  intro o ho
  split_ifs with e
  · exact hg.noHelp o ho (by rw [e]; exact hk)
  · rfl

/-- **C79**: a program called with `--name=value` for any of its options (each at most once, with values that can be converted, and
without a response file) starts, and each parameter is the given one or otherwise the default. -/
theorem command_line_starts {opts : List Opt} {valid : Text → Text → Bool} (hg : GoodOptions opts valid) (env : Env) (fs : FS)
    (set : List (Text × Text)) (hset : ∀ o ∈ set, o.2 ≠ [] ∧ valid o.1 o.2 = true ∧ o.1 ∉ [helpName, versionName, responseFileName] ∧
      ∃ x ∈ opts, x.name = o.1) (hn : (set.map Prod.fst).Nodup) :
    ∃ a, construct opts valid env fs (set.map longArg) = .val (some (.app a)) ∧
      ∀ k, k ≠ [] → parameter a k = ((set.find? fun o => o.1 = k).map Prod.snd).or (defaultOf opts k) := by
  have hp : parseArgs opts (set.map longArg) = some (set.map fun o => ⟨o.1, [o.2]⟩) := by
    have := parseArgs_longArg hg set (fun o ho => ⟨(hset o ho).1, Or.inr ?_⟩) []
    · simpa [parseArgs] using this
    · obtain ⟨-, -, h, x, hx, e⟩ := hset o ho
      simp only [List.mem_cons, List.not_mem_nil, or_false, not_or] at h
      exact ⟨x, hx, e, hg.takes h.1 h.2.1 x hx e⟩
  have hs : ∃ vm, store opts valid (set.map fun o => ⟨o.1, [o.2]⟩) VM.empty = some vm := by
    refine store_new _ (by rwa [List.map_map]) ?_
    simp only [List.mem_map, forall_exists_index, and_imp, forall_apply_eq_imp_iff₂, List.mem_singleton, forall_eq]
    exact fun o ho => (hset o ho).2.1
  obtain ⟨vm, hs⟩ := hs
  have hh : Holds (defaultOf opts) (set.map fun o => ⟨o.1, [o.2]⟩) vm := store_holds (src := []) (fun k => Or.inl rfl) holds_empty hs
  have hgiven : ∀ k ∈ [helpName, versionName, responseFileName], given (set.map fun o => ⟨o.1, [o.2]⟩) k = none := by
    intro k hk
    rw [given_map]
    have : (set.find? fun o => o.1 = k) = none := by
      rw [List.find?_eq_none]
      intro o ho
      simp only [decide_eq_true_eq]
      rintro rfl
      exact (hset o ho).2.2.1 hk
    rw [this]; rfl
  have hdefr : defaultOf opts responseFileName = none := defaultOf_eq hg.nodup hg.response
  have h1 : vm.value helpName = none := by
    rw [hh.value _ (by decide), hgiven _ (by decide), hg.noDefault (Or.inl rfl)]; rfl
  have h2 : vm.value versionName = none := by
    rw [hh.value _ (by decide), hgiven _ (by decide), hg.noDefault (Or.inr rfl)]; rfl
  have h4 : vm.value responseFileName = none := by
    rw [hh.value _ (by decide), hgiven _ (by decide), hdefr]; rfl
  have h3 : ∃ out, vm.value outName = some out := by
    obtain ⟨d, hd⟩ := hg.out
    rw [hh.value _ (by decide), show defaultOf opts outName = some d from defaultOf_eq hg.nodup hd]
    cases given (set.map fun o => ⟨o.1, [o.2]⟩) outName with
    | none => exact ⟨_, rfl⟩
    | some t => exact ⟨_, rfl⟩
  obtain ⟨out, h3⟩ := h3
  obtain ⟨a, ha⟩ := construct_plain env fs hp hs h1 h2 h3 h4
  refine ⟨a, ha, fun k hk => ?_⟩
  obtain ⟨cmd, rsp, hp', hr, hpar⟩ := construct_precedence ha hdefr
  rw [hp] at hp'
  obtain rfl := Option.some.inj hp'
  rw [hgiven _ (by decide)] at hr
  rw [hpar k hk, hr, given_nil, Option.none_or, given_map]

/-- The default value of an option of a program. -/
theorem programOptions_default {name : Text} {own : List (Text × Text)} {valid : Text → Text → Bool} (hg : GoodOptions (programOptions name own) valid)
    {o : Text × Text} (ho : o ∈ own) : defaultOf (programOptions name own) o.1 = some o.2 :=
  defaultOf_eq (o := ⟨o.1, true, some o.2⟩) hg.nodup (by simp only [programOptions, List.mem_append, List.mem_map]; exact Or.inr ⟨o, ho, rfl⟩)

/-- **C79** for the programs of the repository: every program can be called with `--name=value` for its own options and `--out`; it
starts, an option that was given has the given value, and one that was not given has the default from the source. -/
theorem program_starts {p : Prog} (hp : p ∈ programs) {valid : Text → Text → Bool} (hv : ∀ o ∈ p.own, valid o.1 o.2 = true)
    (ho : valid "out".toList (p.name ++ ".txt".toList) = true) (env : Env) (fs : FS) (set : List (Text × Text))
    (hset : ∀ o ∈ set, o.2 ≠ [] ∧ valid o.1 o.2 = true ∧ (o.1 = "out".toList ∨ o.1 ∈ p.own.map Prod.fst)) (hn : (set.map Prod.fst).Nodup) :
    ∃ a, construct p.options valid env fs (set.map fun o => "--".toList ++ o.1 ++ "=".toList ++ o.2) = .val (some (.app a)) ∧
      (∀ o ∈ set, parameter a o.1 = some o.2) ∧
      (∀ o ∈ p.own, o.1 ∉ set.map Prod.fst → parameter a o.1 = some o.2) ∧
      (∀ v, ("out".toList, v) ∈ set → a.outputPath = v) ∧
      ("out".toList ∉ set.map Prod.fst → a.outputPath = p.name ++ ".txt".toList) := by
  have eo : "out".toList = outName := by decide
  have et : ".txt".toList = ['.', 't', 'x', 't'] := by decide
  have el : ∀ o : Text × Text, "--".toList ++ o.1 ++ "=".toList ++ o.2 = longArg o := by
    intro o
    rw [show "--".toList = ['-', '-'] by decide, show "=".toList = ['='] by decide]; rfl
  simp only [el, eo, et] at ho hset ⊢
  have hg := programs_good hp hv ho
  have hnew : ∀ o ∈ p.own, o.1 ∉ [helpName, versionName, responseFileName, outName] ∧ o.1 ≠ [] := by
    simp only [programs, List.mem_cons, List.not_mem_nil, or_false] at hp
    rcases hp with rfl | rfl | rfl | rfl | rfl | rfl | rfl <;> decide
  obtain ⟨a, ha, hpar⟩ := command_line_starts hg env fs set (fun o ho' => by
    obtain ⟨h1, h2, h3⟩ := hset o ho'
    refine ⟨h1, h2, ?_, ?_⟩
    · rcases h3 with h3 | h3
      · rw [h3]; decide
      · obtain ⟨x, hx, e⟩ := List.mem_map.1 h3
        intro hm
        refine (hnew x hx).1 ?_
        rw [e]
        simp only [List.mem_cons, List.not_mem_nil, or_false] at hm ⊢
        tauto
    · rcases h3 with h3 | h3
      · obtain ⟨d, hd⟩ := hg.out
        exact ⟨_, hd, h3.symm⟩
      · obtain ⟨x, hx, e⟩ := List.mem_map.1 h3
        refine ⟨⟨x.1, true, some x.2⟩, ?_, e⟩
        simp only [Prog.options, programOptions, List.mem_append, List.mem_map]
        exact Or.inr ⟨x, hx, rfl⟩) hn
  have hfound : ∀ o ∈ set, (set.find? fun x => x.1 = o.1).map Prod.snd = some o.2 := by
    intro o ho'
    have : set.find? (fun x => x.1 = o.1) = some o := by
      clear hpar ha hset
      induction set with
      | nil => simp at ho'
      | cons x set ih =>
        rw [List.find?_cons]
        by_cases e : x.1 = o.1
        · simp only [e, decide_true]
          rcases List.mem_cons.1 ho' with rfl | hm
          · rfl
          · exact absurd (List.mem_map.2 ⟨o, hm, e.symm⟩) (List.nodup_cons.1 hn).1
        · simp only [e, decide_false]
          rcases List.mem_cons.1 ho' with rfl | hm
          · exact absurd rfl e
          · exact ih (List.nodup_cons.1 hn).2 hm
    rw [this]; rfl
  have hnot : ∀ k, k ∉ set.map Prod.fst → (set.find? fun x => x.1 = k).map Prod.snd = none := by
    intro k hk
    have : (set.find? fun x => x.1 = k) = none := by
      rw [List.find?_eq_none]
      intro o ho'
      simp only [decide_eq_true_eq]
      rintro rfl
      exact hk (List.mem_map.2 ⟨o, ho', rfl⟩)
    rw [this]; rfl
  have hout : parameter a outName = some a.outputPath := by
    obtain ⟨cmd, hc, h⟩ := output_path_eq ha
    have hp' : parseArgs p.options (set.map longArg) = some (set.map fun o => ⟨o.1, [o.2]⟩) := by
      have := parseArgs_longArg hg set (fun o ho' => ⟨(hset o ho').1, Or.inr ?_⟩) []
      · simpa [parseArgs] using this
      · rcases (hset o ho').2.2 with h3 | h3
        · obtain ⟨d, hd⟩ := hg.out
          exact ⟨_, hd, h3.symm, rfl⟩
        · obtain ⟨x, hx, e⟩ := List.mem_map.1 h3
          refine ⟨⟨x.1, true, some x.2⟩, ?_, e, rfl⟩
          simp only [Prog.options, programOptions, List.mem_append, List.mem_map]
          exact Or.inr ⟨x, hx, rfl⟩
    rw [hp'] at hc
    obtain rfl := Option.some.inj hc
    rw [hpar _ (by decide), ← given_map, h]
  have hnil : ∀ o ∈ set, o.1 ≠ [] := by
    intro o ho'
    rcases (hset o ho').2.2 with h3 | h3
    · rw [h3]; decide
    · obtain ⟨x, hx, e⟩ := List.mem_map.1 h3
      rw [← e]; exact (hnew x hx).2
  refine ⟨a, ha, fun o ho' => ?_, fun o ho' hno => ?_, fun v hv' => ?_, fun hno => ?_⟩
  · rw [hpar _ (hnil o ho'), hfound o ho']; rfl
  · rw [hpar _ (hnew o ho').2, hnot _ hno, Option.none_or]; exact programOptions_default hg ho'
  · have := hpar outName (by decide)
    rw [hfound _ hv', hout] at this
    exact Option.some.inj this
  · have := hpar outName (by decide)
    rw [hnot _ hno, hout, Option.none_or, show defaultOf p.options outName = some (p.name ++ ['.', 't', 'x', 't']) from
      defaultOf_eq (o := ⟨outName, true, some (p.name ++ ['.', 't', 'x', 't'])⟩) hg.nodup (by simp [Prog.options, programOptions])] at this
    exact Option.some.inj this

/-! ### `--help` and `--version` -/

/-- **C79**: the program prints and exits exactly when the command line could be parsed and stored and contains `help` or `version`;
a response file is not consulted. -/
theorem exits_iff {opts : List Opt} {valid : Text → Text → Bool} (hg : GoodOptions opts valid) (env : Env) (fs : FS) (args : List Text) :
    construct opts valid env fs args = .val (some .exited) ↔
      ∃ cmd vm, parseArgs opts args = some cmd ∧ store opts valid cmd VM.empty = some vm ∧
        ∃ c ∈ cmd, c.key = "help".toList ∨ c.key = "version".toList := by
  rw [← option_names.1, ← option_names.2.1]
  have flag : ∀ {cmd : List Parsed} {vm : VM}, store opts valid cmd VM.empty = some vm → ∀ {k : Text}, (k = helpName ∨ k = versionName) →
      ((vm.value k).isSome ↔ ∃ c ∈ cmd, c.key = k) := by
    intro cmd vm hs k hk
    have hh : Holds (defaultOf opts) cmd vm := store_holds (src := []) (fun k => Or.inl rfl) holds_empty hs
    rw [hh.value k (by rcases hk with rfl | rfl <;> decide), hg.noDefault hk, ← given_isSome]
    cases given cmd k <;> simp
  constructor
  · intro h
    unfold construct parseCommandLineOptions at h
    cases hp : parseArgs opts args with
    | none => rw [hp] at h; simp at h
    | some cmd =>
      cases hs : store opts valid cmd VM.empty with
      | none => rw [hp] at h; simp [hs] at h
      | some vm =>
        refine ⟨cmd, vm, rfl, hs, ?_⟩
        by_contra hno
        push Not at hno
        have h1 : ¬ (vm.value helpName).isSome := by
          rw [flag hs (Or.inl rfl)]; rintro ⟨c, hc, e⟩; exact (hno c hc).1 e
        have h2 : ¬ (vm.value versionName).isSome := by
          rw [flag hs (Or.inr rfl)]; rintro ⟨c, hc, e⟩; exact (hno c hc).2 e
        rw [hp] at h
        simp only [Option.bind_some, hs, Option.map_some] at h
        rw [if_neg h1, if_neg h2] at h
        cases ho : vm.value outName with
        | none => rw [ho] at h; simp at h
        | some out =>
          rw [ho] at h
          simp only at h
          cases hr : vm.value responseFileName with
          | none => rw [hr] at h; simp at h
          | some r =>
            rw [hr] at h
            simp only at h
            cases hq : readResponseFile opts valid (fs.set (changeExtension out.text ['.', 'l', 'o', 'g']) (some env.logText) r.text) vm with
            | diverges => rw [hq] at h; simp [Res.map] at h
            | ub => rw [hq] at h; simp [Res.map] at h
            | val x =>
              rw [hq] at h
              cases x with
              | none => simp [Res.map] at h
              | some x => simp [Res.map] at h
  · rintro ⟨cmd, vm, hp, hs, c, hc, hk⟩
    unfold construct parseCommandLineOptions
    rw [hp]
    simp only [Option.bind_some, hs, Option.map_some]
    rcases hk with hk | hk
    · rw [if_pos ((flag hs (Or.inl rfl)).2 ⟨c, hc, hk⟩)]
    · have := (flag hs (Or.inr rfl)).2 ⟨c, hc, hk⟩
      split_ifs <;> rfl

/-- The parser accepts `--name` for an option without a value. -/
theorem parseArgs_flag {opts : List Opt} {valid : Text → Text → Bool} (hg : GoodOptions opts valid) {o : Opt} (ho : o ∈ opts)
    (ht : o.takesValue = false) (rest : List Text) :
    parseArgs opts ((['-', '-'] ++ o.name) :: rest) = (parseArgs opts rest).map fun r => ⟨o.name, []⟩ :: r := by
  obtain ⟨h1, h2, -⟩ := hg.name o ho
  have hd : o.name.dropWhile (· ≠ '=') = [] := by
    rw [List.dropWhile_eq_nil_iff]; intro c hc; simp only [decide_eq_true_eq]; rintro rfl; exact h2 hc
  have hw : o.name.takeWhile (· ≠ '=') = o.name := by
    rw [List.takeWhile_eq_self_iff]; intro c hc; simp only [decide_eq_true_eq]; rintro rfl; exact h2 hc
  rw [parseArgs, if_neg (by simpa using h1), if_pos (by simp [List.isPrefixOf])]
  simp only [List.cons_append, List.nil_append, List.drop_succ_cons, List.drop_zero, hd, hw, find_name hg.nodup ho, ht, Bool.false_eq_true, if_false]

/-- **C79** for the programs of the repository: a command line with `--help` or `--version` among settings `--name=value` prints and
exits; nothing is computed and no file is written. -/
theorem help_exits {p : Prog} (hp : p ∈ programs) {valid : Text → Text → Bool} (hv : ∀ o ∈ p.own, valid o.1 o.2 = true)
    (ho : valid "out".toList (p.name ++ ".txt".toList) = true) (env : Env) (fs : FS) {flag : Text}
    (hf : flag = "--help".toList ∨ flag = "--version".toList) (pre post : List (Text × Text))
    (hset : ∀ o ∈ pre ++ post, o.2 ≠ [] ∧ valid o.1 o.2 = true ∧ (o.1 = "out".toList ∨ o.1 ∈ p.own.map Prod.fst))
    (hn : ((pre ++ post).map Prod.fst).Nodup) :
    construct p.options valid env fs ((pre.map fun o => "--".toList ++ o.1 ++ "=".toList ++ o.2) ++ flag ::
      (post.map fun o => "--".toList ++ o.1 ++ "=".toList ++ o.2)) = .val (some .exited) := by
  have eo : "out".toList = outName := by decide
  have et : ".txt".toList = ['.', 't', 'x', 't'] := by decide
  have el : ∀ o : Text × Text, "--".toList ++ o.1 ++ "=".toList ++ o.2 = longArg o := by
    intro o
    rw [show "--".toList = ['-', '-'] by decide, show "=".toList = ['='] by decide]; rfl
  simp only [el, eo, et] at ho hset ⊢
  have hg := programs_good hp hv ho
  have hnew : ∀ o ∈ p.own, o.1 ∉ [helpName, versionName, responseFileName, outName] ∧ o.1 ≠ [] := by
    simp only [programs, List.mem_cons, List.not_mem_nil, or_false] at hp
    rcases hp with rfl | rfl | rfl | rfl | rfl | rfl | rfl <;> decide
  have hall : ∀ o ∈ pre ++ post, o.2 ≠ [] ∧ (o.1 = [] ∨ ∃ x ∈ p.options, x.name = o.1 ∧ x.takesValue = true) := by
    intro o ho'
    refine ⟨(hset o ho').1, Or.inr ?_⟩
    rcases (hset o ho').2.2 with h3 | h3
    · obtain ⟨d, hd⟩ := hg.out
      exact ⟨_, hd, h3.symm, rfl⟩
    · obtain ⟨x, hx, e⟩ := List.mem_map.1 h3
      refine ⟨⟨x.1, true, some x.2⟩, ?_, e, rfl⟩
      simp only [Prog.options, programOptions, List.mem_append, List.mem_map]
      exact Or.inr ⟨x, hx, rfl⟩
  have hflag : ∃ o ∈ p.options, o.takesValue = false ∧ (o.name = "help".toList ∨ o.name = "version".toList) ∧ flag = ['-', '-'] ++ o.name := by
    rcases hf with rfl | rfl
    · exact ⟨⟨helpName, false, none⟩, by simp [Prog.options, programOptions], rfl, Or.inl (by decide), by decide⟩
    · exact ⟨⟨versionName, false, none⟩, by simp [Prog.options, programOptions], rfl, Or.inr (by decide), by decide⟩
  obtain ⟨o, hom, hot, hon, rfl⟩ := hflag
  have hpost : parseArgs p.options (post.map longArg) = some (post.map fun o => ⟨o.1, [o.2]⟩) := by
    have := parseArgs_longArg hg post (fun o ho => hall o (List.mem_append_right _ ho)) []
    simpa [parseArgs] using this
  have hparse : parseArgs p.options (pre.map longArg ++ (['-', '-'] ++ o.name) :: post.map longArg) =
      some ((pre.map fun o => ⟨o.1, [o.2]⟩) ++ ⟨o.name, []⟩ :: (post.map fun o => ⟨o.1, [o.2]⟩)) := by
    rw [parseArgs_longArg hg pre (fun o ho => hall o (List.mem_append_left _ ho)), parseArgs_flag hg hom hot, hpost]
    rfl
  rw [exits_iff hg]
  have hkeys : ∀ x ∈ pre ++ post, x.1 ≠ o.name := by
    intro x hx e
    have h1 : o.name = helpName ∨ o.name = versionName := by
      rw [option_names.1, option_names.2.1]; exact hon
    rcases (hset x hx).2.2 with h3 | h3
    · rw [e] at h3; rw [h3] at h1; exact absurd h1 (by decide)
    · obtain ⟨y, hy, e'⟩ := List.mem_map.1 h3
      refine (hnew y hy).1 ?_
      rw [e', e]
      simp only [List.mem_cons, List.not_mem_nil, or_false]
      tauto
  obtain ⟨vm, hs⟩ := store_new (opts := p.options) (valid := valid)
    ((pre.map fun o => ⟨o.1, [o.2]⟩) ++ ⟨o.name, []⟩ :: (post.map fun o => ⟨o.1, [o.2]⟩)) (by
      have hperm : ((pre.map fun o => (⟨o.1, [o.2]⟩ : Parsed)) ++ (⟨o.name, []⟩ : Parsed) :: (post.map fun o => (⟨o.1, [o.2]⟩ : Parsed))).map
          (fun p : Parsed => p.key) =
          pre.map Prod.fst ++ o.name :: post.map Prod.fst := by
        simp [Function.comp_def]
      rw [hperm, (List.perm_middle).nodup_iff, List.nodup_cons, ← List.map_append]
      refine ⟨fun h => ?_, hn⟩
      obtain ⟨x, hx, e⟩ := List.mem_map.1 h
      exact hkeys x hx e) (by
      intro q hq v hv'
      simp only [List.mem_append, List.mem_cons, List.mem_map] at hq
      rcases hq with ⟨x, hx, rfl⟩ | rfl | ⟨x, hx, rfl⟩
      · rw [List.mem_singleton] at hv'; subst hv'; exact (hset x (List.mem_append_left _ hx)).2.1
      · simp at hv'
      · rw [List.mem_singleton] at hv'; subst hv'; exact (hset x (List.mem_append_right _ hx)).2.1)
  exact ⟨_, vm, hparse, hs, ⟨o.name, []⟩, by simp, hon⟩

/-! ### C80: the default output files -/

/-- **C80** (part): two programs with different names write to different files when they are run without options. -/
theorem default_outputs_partial {p q : Prog} (hp : p ∈ programs) (hq : q ∈ programs) {validp validq : Text → Text → Bool}
    (hpv : ∀ o ∈ p.own, validp o.1 o.2 = true) (hpo : validp "out".toList (p.name ++ ".txt".toList) = true)
    (hqv : ∀ o ∈ q.own, validq o.1 o.2 = true) (hqo : validq "out".toList (q.name ++ ".txt".toList) = true)
    (hne : p.name ≠ q.name) (env env' : Env) (fs fs' : FS) :
    ∃ a b, construct p.options validp env fs [] = .val (some (.app a)) ∧ construct q.options validq env' fs' [] = .val (some (.app b)) ∧
      ∀ x ∈ [a.outputPath, a.logPath, a.responsePath, a.matrixPath], ∀ y ∈ [b.outputPath, b.logPath, b.responsePath, b.matrixPath], x ≠ y := by
  obtain ⟨a, ha, -, -, -, hao⟩ := program_starts hp hpv hpo env fs [] (by simp) (by simp)
  obtain ⟨b, hb, -, -, -, hbo⟩ := program_starts hq hqv hqo env' fs' [] (by simp) (by simp)
  refine ⟨a, b, ha, hb, ?_⟩
  have hao := hao (by simp)
  have hbo := hbo (by simp)
  obtain ⟨_, _, -, -, -, -, -, -, hr, hl, hm, hc, -⟩ := construct_app ha
  obtain ⟨_, _, -, -, -, -, -, -, hr', hl', hm', hc', -⟩ := construct_app hb
  rw [hr, hl, hm, hao, hr', hl', hm', hbo]
  have key : ∀ (p q : Prog), p ∈ programs → q ∈ programs → p.name ≠ q.name → ∀ x ∈ [p.name ++ ".txt".toList,
      changeExtension (p.name ++ ".txt".toList) ['.', 'l', 'o', 'g'], changeExtension (p.name ++ ".txt".toList) ['.', 'r', 's', 'p'],
      changeExtension (p.name ++ ".txt".toList) [] ++ ['_', 'm', 'a', 't', 'r', 'i', 'x', '.', 'b', 'l', 'a', 'z', 'e']],
      ∀ y ∈ [q.name ++ ".txt".toList,
      changeExtension (q.name ++ ".txt".toList) ['.', 'l', 'o', 'g'], changeExtension (q.name ++ ".txt".toList) ['.', 'r', 's', 'p'],
      changeExtension (q.name ++ ".txt".toList) [] ++ ['_', 'm', 'a', 't', 'r', 'i', 'x', '.', 'b', 'l', 'a', 'z', 'e']], x ≠ y := by
    intro p q hp hq hne
    simp only [programs, List.mem_cons, List.not_mem_nil, or_false] at hp hq
    rcases hp with rfl | rfl | rfl | rfl | rfl | rfl | rfl <;> rcases hq with rfl | rfl | rfl | rfl | rfl | rfl | rfl <;>
      first | exact absurd rfl hne | decide
  exact key p q hp hq hne

/-- **C80** refuted: two of the programs have the same name, hence the same default output; the second one truncates the results of
the first. -/
theorem default_outputs_wrong {validp validq : Text → Text → Bool}
    (hpv : ∀ o ∈ progReal1dRk4Coefficients.own, validp o.1 o.2 = true) (hpo : validp "out".toList (progReal1dRk4Coefficients.name ++ ".txt".toList) = true)
    (hqv : ∀ o ∈ progReal1dKineticRk4Coefficients.own, validq o.1 o.2 = true)
    (hqo : validq "out".toList (progReal1dKineticRk4Coefficients.name ++ ".txt".toList) = true) (env env' : Env) (fs fs' : FS) :
    progReal1dRk4Coefficients ∈ programs ∧ progReal1dKineticRk4Coefficients ∈ programs ∧
    progReal1dRk4Coefficients.executable ≠ progReal1dKineticRk4Coefficients.executable ∧
    ∃ a b, construct progReal1dRk4Coefficients.options validp env fs [] = .val (some (.app a)) ∧
      construct progReal1dKineticRk4Coefficients.options validq env' fs' [] = .val (some (.app b)) ∧
      a.outputPath = b.outputPath ∧ a.outputPath = "hubbard_real_1d_rk4_coefficients.txt".toList ∧
      ∃ all, b.fs a.outputPath = some (headerText env'.platform all) := by
  have h1 : progReal1dRk4Coefficients ∈ programs := by simp [programs]
  have h2 : progReal1dKineticRk4Coefficients ∈ programs := by simp [programs]
  obtain ⟨a, ha, -, -, -, hao⟩ := program_starts h1 hpv hpo env fs [] (by simp) (by simp)
  obtain ⟨b, hb, -, -, -, hbo⟩ := program_starts h2 hqv hqo env' fs' [] (by simp) (by simp)
  have hao := hao (by simp)
  have hbo := hbo (by simp)
  have e : a.outputPath = b.outputPath := by rw [hao, hbo]; rfl
  refine ⟨h1, h2, by decide, a, b, ha, hb, e, by rw [hao]; decide, ?_⟩
  rw [e]
  obtain ⟨cmd, _, -, -, -, -, -, -, -, -, -, -, hm⟩ := construct_app hb
  refine ⟨allOptions progReal1dKineticRk4Coefficients.options cmd, ?_⟩
  split at hm
  · obtain ⟨_, _, _, hf⟩ := hm
    rw [hf, FS.set, if_pos rfl]
  · rw [hm.2, FS.set, if_pos rfl]

end Ieompp.App
