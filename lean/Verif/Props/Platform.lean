import Verif.Props.ProgramOptions
import Verif.Model.Platform

/-!
# C83: the programs on different machines
-/

set_option autoImplicit false
set_option linter.unusedSectionVars false

namespace Ieompp.Spec

/-- The machines on which the platform texts can be determined: `LOGNAME` is set and the host name fits into 127 characters. -/
def Usable (m : App.Machine) : Prop := m.logname.isSome ∧ m.hostname.length < 128

/-- The label and text of the line "compiled by". -/
def userAtHost (m : App.Machine) : IO.Text := m.logname.getD [] ++ ['@'] ++ m.hostname

end Ieompp.Spec

namespace Ieompp.App

open IO Spec

theorem platformLines_usable {m : Machine} (h : Usable m) : ∃ ls, platformLines m = .val ls ∧ ls.length = 10 ∧
    ("compiled by:".toList, userAtHost m) ∈ ls ∧ loggersInit m = .val m.logText := by
  obtain ⟨h1, h2⟩ := h
  obtain ⟨t, ht⟩ := Option.isSome_iff_exists.1 h1
  have hu : user m = .val t := by unfold user; rw [ht]
  have hh : host m = .val m.hostname := if_pos h2
  refine ⟨_, by unfold platformLines; rw [hu, hh]; rfl, rfl, ?_, by unfold loggersInit; rw [hu, hh]; rfl⟩
  unfold userAtHost
  rw [ht]
  simp

theorem platformLines_not_usable {m : Machine} (h : ¬ Usable m) : platformLines m = .ub ∧ loggersInit m = .ub := by
  unfold platformLines loggersInit
  cases ht : m.logname with
  | none =>
    have hu : user m = .ub := by unfold user; rw [ht]
    rw [hu]; exact ⟨rfl, rfl⟩
  | some t =>
    have hu : user m = .val t := by unfold user; rw [ht]
    have hh : host m = .ub := if_neg fun h2 => h ⟨by rw [ht]; rfl, h2⟩
    rw [hu, hh]; exact ⟨rfl, rfl⟩

/-- What is known about the options when the constructor makes an object. -/
theorem construct_app_inv {opts : List Opt} {valid : Text → Text → Bool} {env : Env} {fs : FS} {args : List Text} {a : App}
    (h : construct opts valid env fs args = .val (some (.app a))) :
    ∃ all vm out, parseCommandLineOptions opts valid args VM.empty = some (all, vm) ∧ ¬ (vm.value helpName).isSome ∧
      ¬ (vm.value versionName).isSome ∧ vm.value outName = some out := by
  unfold construct at h
  cases hp : parseCommandLineOptions opts valid args VM.empty with
  | none => rw [hp] at h; simp at h
  | some x =>
    obtain ⟨all, vm⟩ := x
    rw [hp] at h
    simp only at h
    by_cases h1 : (vm.value helpName).isSome
    · rw [if_pos h1] at h; simp at h
    rw [if_neg h1] at h
    by_cases h2 : (vm.value versionName).isSome
    · rw [if_pos h2] at h; simp at h
    cases ho : vm.value outName with
    | none => rw [if_neg h2, ho] at h; simp at h
    | some out => exact ⟨all, vm, out, rfl, h1, h2, ho⟩

/-- A start that makes an object in some environment makes the object on every usable machine, and is undefined on all others. -/
theorem start_of_construct {opts : List Opt} {valid : Text → Text → Bool} {fs : FS} {args : List Text} (name description : Text)
    (h : ∀ env, ∃ a, construct opts valid env fs args = .val (some (.app a))) (m : Machine) :
    (Usable m → ∃ ls a, platformLines m = .val ls ∧
      construct opts valid ⟨m.logText, ("program     ".toList, name) :: ls⟩ fs args = .val (some (.app a)) ∧
      start m name description opts valid fs args = .val (.app a)) ∧
    (¬ Usable m → start m name description opts valid fs args = .ub) := by
  obtain ⟨a0, h0⟩ := h ⟨[], []⟩
  obtain ⟨all, vm, out, hp, h1, h2, h3⟩ := construct_app_inv h0
  constructor
  · intro hu
    obtain ⟨ls, hl, -, -, hi⟩ := platformLines_usable hu
    obtain ⟨a, ha⟩ := h ⟨m.logText, ("program     ".toList, name) :: ls⟩
    refine ⟨ls, a, hl, ha, ?_⟩
    unfold start
    rw [hp]
    simp only
    rw [if_neg h1, if_neg h2, h3]
    simp only
    rw [hi, Res.bind_val, hl, Res.bind_val, ha]; rfl
  · intro hu
    unfold start
    rw [hp]
    simp only
    rw [if_neg h1, if_neg h2, h3]
    simp only
    rw [(platformLines_not_usable hu).2]; rfl

/-- **C83.** For every program, settings as in C79 and every machine: the program starts, with the settings and with the platform in the
header of its output, exactly when `LOGNAME` is set (and the host name shorter than 128 characters); otherwise the behaviour is
undefined. -/
theorem start_iff {p : Prog} (hp : p ∈ programs) {valid : Text → Text → Bool} (hv : ∀ o ∈ p.own, valid o.1 o.2 = true)
    (ho : valid "out".toList (p.name ++ ".txt".toList) = true) (fs : FS) (set : List (Text × Text))
    (hset : ∀ o ∈ set, o.2 ≠ [] ∧ valid o.1 o.2 = true ∧ (o.1 = "out".toList ∨ o.1 ∈ p.own.map Prod.fst)) (hn : (set.map Prod.fst).Nodup)
    (m : Machine) (description : Text) :
    (Usable m → ∃ a, start m p.name description p.options valid fs (set.map fun o => "--".toList ++ o.1 ++ "=".toList ++ o.2) = .val (.app a) ∧
      (∀ o ∈ set, parameter a o.1 = some o.2) ∧ (∀ o ∈ p.own, o.1 ∉ set.map Prod.fst → parameter a o.1 = some o.2)) ∧
    (¬ Usable m → start m p.name description p.options valid fs (set.map fun o => "--".toList ++ o.1 ++ "=".toList ++ o.2) = .ub) := by
  have h := fun env => program_starts hp hv ho env fs set hset hn
  obtain ⟨h1, h2⟩ := start_of_construct p.name description (fun env => (h env).imp fun a ha => ha.1) m
  refine ⟨fun hu => ?_, h2⟩
  obtain ⟨ls, a, -, ha, hs⟩ := h1 hu
  obtain ⟨a', ha', hb, hc, -⟩ := h ⟨m.logText, ("program     ".toList, p.name) :: ls⟩
  rw [ha] at ha'
  simp only [Res.val.injEq, Option.some.injEq, Started.app.injEq] at ha'
  subst ha'
  exact ⟨a, hs, hb, hc⟩

/-- **C83** refuted: without `LOGNAME` (cron, containers, many batch systems) no program starts with any settings. -/
theorem start_without_logname {p : Prog} (hp : p ∈ programs) {valid : Text → Text → Bool} (hv : ∀ o ∈ p.own, valid o.1 o.2 = true)
    (ho : valid "out".toList (p.name ++ ".txt".toList) = true) (fs : FS) (set : List (Text × Text))
    (hset : ∀ o ∈ set, o.2 ≠ [] ∧ valid o.1 o.2 = true ∧ (o.1 = "out".toList ∨ o.1 ∈ p.own.map Prod.fst)) (hn : (set.map Prod.fst).Nodup)
    (m : Machine) (hm : m.logname = none) (description : Text) :
    start m p.name description p.options valid fs (set.map fun o => "--".toList ++ o.1 ++ "=".toList ++ o.2) = .ub :=
  (start_iff hp hv ho fs set hset hn m description).2 fun h => by have := h.1; rw [hm] at this; simp at this

/-! ### `--help` and `--version` -/

theorem store_flag {opts : List Opt} {valid : Text → Text → Bool} (hg : GoodOptions opts valid) {cmd : List Parsed} {vm : VM}
    (hs : store opts valid cmd VM.empty = some vm) {k : Text} (hk : k = helpName ∨ k = versionName) :
    (vm.value k).isSome ↔ ∃ c ∈ cmd, c.key = k := by
  have hh : Holds (defaultOf opts) cmd vm := store_holds (src := []) (fun k => Or.inl rfl) holds_empty hs
  rw [hh.value k (by rcases hk with rfl | rfl <;> decide), hg.noDefault hk, ← given_isSome]
  cases given cmd k <;> simp

/-- A single flag on the command line. -/
theorem parse_flag {p : Prog} (hp : p ∈ programs) {valid : Text → Text → Bool} (hv : ∀ o ∈ p.own, valid o.1 o.2 = true)
    (ho : valid "out".toList (p.name ++ ".txt".toList) = true) {flag : Text} (hf : flag = helpName ∨ flag = versionName) :
    ∃ all vm, parseCommandLineOptions p.options valid [['-', '-'] ++ flag] VM.empty = some (all, vm) ∧
      ∀ k, k = helpName ∨ k = versionName → ((vm.value k).isSome ↔ k = flag) := by
  have hg := programs_good hp hv (by rw [show outName = "out".toList by decide, show ['.', 't', 'x', 't'] = ".txt".toList by decide]; exact ho)
  have hmem : (⟨flag, false, none⟩ : Opt) ∈ p.options := by
    rcases hf with rfl | rfl <;> simp [Prog.options, programOptions]
  have hpa : parseArgs p.options [['-', '-'] ++ flag] = some [⟨flag, []⟩] := by
    rw [parseArgs_flag hg hmem rfl]; rfl
  obtain ⟨vm, hs⟩ := store_new (opts := p.options) (valid := valid) [⟨flag, []⟩] (by simp) (by
    intro q hq v hv'
    rw [List.mem_singleton] at hq
    subst hq
    simp at hv')
  refine ⟨allOptions p.options [⟨flag, []⟩], vm, ?_, fun k hk => ?_⟩
  · unfold parseCommandLineOptions
    rw [hpa, Option.bind_some, hs]; rfl
  · rw [store_flag hg hs hk]
    simp [eq_comm]

/-- **C83**: `--help` prints the help on every machine ... -/
theorem help_prints {p : Prog} (hp : p ∈ programs) {valid : Text → Text → Bool} (hv : ∀ o ∈ p.own, valid o.1 o.2 = true)
    (ho : valid "out".toList (p.name ++ ".txt".toList) = true) (fs : FS) (m : Machine) (description : Text) :
    start m p.name description p.options valid fs ["--help".toList] = .val (.printed (helpText m p.name description)) := by
  obtain ⟨all, vm, h1, h2⟩ := parse_flag hp hv ho (Or.inl rfl)
  rw [show "--help".toList = ['-', '-'] ++ helpName by decide]
  unfold start
  rw [h1]
  simp only
  rw [if_pos ((h2 helpName (Or.inl rfl)).2 rfl)]

/-- ... but `--version` prints the version only where `LOGNAME` is set. -/
theorem version_prints {p : Prog} (hp : p ∈ programs) {valid : Text → Text → Bool} (hv : ∀ o ∈ p.own, valid o.1 o.2 = true)
    (ho : valid "out".toList (p.name ++ ".txt".toList) = true) (fs : FS) (m : Machine) (description : Text) :
    (Usable m → ∃ t, start m p.name description p.options valid fs ["--version".toList] = .val (.printed t) ∧
      ("program:    \t".toList ++ p.name) <+: t) ∧
    (¬ Usable m → start m p.name description p.options valid fs ["--version".toList] = .ub) := by
  obtain ⟨all, vm, h1, h2⟩ := parse_flag hp hv ho (Or.inr rfl)
  rw [show "--version".toList = ['-', '-'] ++ versionName by decide]
  have e : start m p.name description p.options valid fs [['-', '-'] ++ versionName] = (versionText m p.name).map .printed := by
    unfold start
    rw [h1]
    simp only
    rw [if_neg (fun h => absurd ((h2 helpName (Or.inl rfl)).1 h) (by decide)), if_pos ((h2 versionName (Or.inr rfl)).2 rfl)]
  constructor
  · intro hu
    obtain ⟨ls, hl, -⟩ := platformLines_usable hu
    rw [e, versionText, hl]
    refine ⟨_, rfl, ?_⟩
    simp only [List.append_assoc]
    rw [← List.append_assoc]
    exact List.prefix_append _ _
  · intro hu
    rw [e, versionText, (platformLines_not_usable hu).1]; rfl

/-- The version of boost in the header: 1.65.1 is `BOOST_VERSION` 106501. -/
example (m : Machine) (h : m.boost = 106501) : boostText m = "1.65.1".toList := by
  unfold boostText
  rw [h]
  decide

/-- The hypotheses are met by all programs. -/
example : programs ≠ [] ∧ Usable ⟨some ['u'], ['h'], [], 106501, [], [], [], [], [], [], 4, [], []⟩ ∧
    ¬ Usable ⟨none, ['h'], [], 106501, [], [], [], [], [], [], 4, [], []⟩ := by
  refine ⟨by simp [programs], ⟨rfl, by decide⟩, fun h => by simpa [Usable] using h.1⟩

end Ieompp.App
