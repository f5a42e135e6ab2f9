import Verif.Spec.Application
import Verif.Props.Lines
import Mathlib.Data.List.TakeWhile

/-! # C68-C71: command line, response file, header and paths of the programs -/

set_option autoImplicit false
set_option linter.unusedSectionVars false

namespace Ieompp.App

open Ieompp.Spec IO

/-! ### given -/

theorem given_nil (k : Text) : given [] k = none := rfl

theorem given_append (a b : List Parsed) (k : Text) : given (a ++ b) k = (given a k).or (given b k) := by
  unfold given
  rw [List.find?_append]
  cases a.find? _ <;> simp

theorem given_isSome {ps : List Parsed} {k : Text} : (given ps k).isSome ↔ ∃ p ∈ ps, p.key = k := by
  unfold given
  simp

theorem given_prefix {a b : List Parsed} (h : a <+: b) (k : Text) : (given a k).or (given b k) = given b k := by
  obtain ⟨c, rfl⟩ := h
  rw [given_append]
  cases given a k <;> simp

/-! ### store -/

/-- The map holds, for each option, the first value of the source, or else the value of `d`, marked as a default. -/
structure Holds (d : Text → Option Text) (src : List Parsed) (vm : VM) : Prop where
  value : ∀ k, k ≠ [] → vm.value k = match given src k with
    | some t => some ⟨t, false⟩
    | none => (d k).map fun t => ⟨t, true⟩
  final : ∀ k, k ≠ [] → (vm.final k = true ↔ (given src k).isSome)

theorem holds_empty : Holds (fun _ => none) [] VM.empty := ⟨fun _ _ => rfl, fun _ _ => by simp [VM.empty, given_nil]⟩

/-- The map after the default of `k` was discarded. -/
theorem discard_ne {m : Text → Option Value} {k j : Text} (hj : j ≠ k) :
    discard m k j = m j := by
  unfold discard
  cases m k with
  | none => rfl
  | some v =>
    simp only
    split_ifs
    · rw [Function.update_of_ne hj]
    · rfl

theorem given_cons (p : Parsed) (ps : List Parsed) (k : Text) :
    given (p :: ps) k = if p.key = k then some (p.value.headD []) else given ps k := by
  unfold given
  rw [List.find?_cons]
  by_cases e : p.key = k <;> simp [e]

/-- A value which is neither final nor a default does not occur again. -/
theorem storeLoop_once {valid : Text → Text → Bool} {final : Text → Bool} {ps : List Parsed} {m m' : Text → Option Value}
    (h : storeLoop valid final ps m = some m') {k : Text} (hk : k ≠ []) (hf : final k = false) {v : Value} (hv : m k = some v)
    (hd : v.defaulted = false) : given ps k = none ∧ m' k = some v := by
  induction ps generalizing m with
  | nil =>
    simp only [storeLoop, Option.some.injEq] at h
    exact ⟨rfl, h ▸ hv⟩
  | cons p ps ih =>
    rw [storeLoop] at h
    rw [given_cons]
    split_ifs at h with h1 h2
    · rw [if_neg (by rw [h1]; exact Ne.symm hk)]
      exact ih h hv
    · rw [if_neg (by intro e; rw [e, hf] at h2; exact absurd h2 (by simp))]
      exact ih h hv
    · by_cases e : p.key = k
      · exfalso
        subst e
        simp [discard, hd, hv] at h
      · rw [if_neg e]
        simp only at h
        split_ifs at h with h3 h4
        refine ih h ?_
        rw [Function.update_of_ne (Ne.symm e), discard_ne (Ne.symm e), hv]

theorem storeLoop_value {valid : Text → Text → Bool} {final : Text → Bool} {ps : List Parsed} {m m' : Text → Option Value}
    (h : storeLoop valid final ps m = some m') (k : Text) (hk : k ≠ []) :
    m' k = if final k then m k else match given ps k with
      | some t => some ⟨t, false⟩
      | none => m k := by
  induction ps generalizing m with
  | nil =>
    simp only [storeLoop, Option.some.injEq] at h
    rw [h, given_nil]
    split_ifs <;> rfl
  | cons p ps ih =>
    rw [storeLoop] at h
    rw [given_cons]
    split_ifs at h with h1 h2
    · have e : p.key ≠ k := by rw [h1]; exact Ne.symm hk
      rw [ih h, if_neg e]
    · rw [ih h]
      by_cases e : p.key = k
      · rw [e] at h2; simp [h2]
      · rw [if_neg e]
    · simp only at h
      split_ifs at h with h3 h4
      by_cases e : p.key = k
      · subst e
        rw [if_neg h2, if_pos rfl]
        exact (storeLoop_once h hk (by simpa using h2) (Function.update_self ..) rfl).2
      · rw [ih h, if_neg e, Function.update_of_ne (Ne.symm e), discard_ne (Ne.symm e)]

/-- The defaults. -/
theorem defaults_value (opts : List Opt) (m : Text → Option Value) (k : Text) :
    opts.foldl applyDefault m k = (m k).or ((defaultOf opts k).map fun t => ⟨t, true⟩) := by
  induction opts generalizing m with
  | nil => simp [defaultOf]
  | cons o opts ih =>
    rw [List.foldl_cons, ih]
    have hc : defaultOf (o :: opts) k = (if o.name = k then o.default else none).or (defaultOf opts k) := by
      unfold defaultOf
      rw [List.findSome?_cons]
      cases (if o.name = k then o.default else none) <;> rfl
    rw [hc]
    by_cases e : o.name = k
    · subst e
      rw [if_pos rfl]
      cases hm : m o.name with
      | none => cases hd : o.default <;> simp [applyDefault, hm, hd]
      | some v => simp [applyDefault, hm]
    · rw [if_neg e]
      have : applyDefault m o k = m k := by
        unfold applyDefault
        cases m o.name <;> cases o.default <;> simp [Function.update_of_ne (Ne.symm e)]
      simp only [Option.none_or]
      rw [this]

/-- One call of `store`. -/
theorem store_holds {opts : List Opt} {valid : Text → Text → Bool} {parsed : List Parsed} {vm vm' : VM}
    {d : Text → Option Text} {src : List Parsed} (hd : ∀ k, d k = none ∨ d k = defaultOf opts k) (h : Holds d src vm)
    (hs : store opts valid parsed vm = some vm') : Holds (defaultOf opts) (src ++ parsed) vm' := by
  unfold store at hs
  cases hl : storeLoop valid vm.final parsed vm.value with
  | none => rw [hl] at hs; simp at hs
  | some m =>
    rw [hl] at hs
    simp only [Option.some.injEq] at hs
    subst hs
    constructor
    · intro k hk
      simp only
      rw [defaults_value, storeLoop_value hl k hk, given_append, h.value k hk]
      have hf := h.final k hk
      cases hg : given src k with
      | some t =>
        rw [hg] at hf
        rw [if_pos (hf.2 rfl)]
        simp
      | none =>
        rw [hg] at hf
        rw [if_neg (by simpa using hf)]
        simp only [Option.none_or]
        cases given parsed k with
        | some t => simp
        | none =>
          simp only
          rcases hd k with e | e <;> rw [e]
          · simp
          · cases defaultOf opts k <;> simp
    · intro k hk
      simp only [Bool.or_eq_true, h.final k hk, List.any_eq_true, Bool.and_eq_true, decide_eq_true_eq]
      rw [given_append, Option.isSome_or, Bool.or_eq_true, given_isSome (ps := parsed)]
      constructor
      · rintro (h | ⟨p, hp, _, rfl⟩)
        · exact Or.inl h
        · exact Or.inr ⟨p, hp, rfl⟩
      · rintro (h | ⟨p, hp, rfl⟩)
        · exact Or.inl h
        · exact Or.inr ⟨p, hp, hk, rfl⟩

/-! ### Reading a response file -/

theorem parseArgs_prefix (opts : List Opt) {a b : List Text} {x y : List Parsed} (ha : parseArgs opts a = some x)
    (hb : parseArgs opts (a ++ b) = some y) : x <+: y := by
  induction hn : a.length using Nat.strong_induction_on generalizing a x y with
  | _ n ih =>
    subst hn
    cases a with
    | nil =>
      simp only [parseArgs, Option.some.injEq] at ha
      rw [← ha]; exact List.nil_prefix
    | cons tok rest =>
      have step : ∀ {q : Parsed} {r : List Text}, r.length < (tok :: rest).length →
          (parseArgs opts r).map (fun z => q :: z) = some x → (parseArgs opts (r ++ b)).map (fun z => q :: z) = some y → x <+: y := by
        intro q r hr hx hy
        obtain ⟨x', hx', rfl⟩ := Option.map_eq_some_iff.1 hx
        obtain ⟨y', hy', rfl⟩ := Option.map_eq_some_iff.1 hy
        exact List.cons_prefix_cons.2 ⟨rfl, ih r.length hr hx' hy' rfl⟩
      rw [List.cons_append, parseArgs] at hb
      rw [parseArgs] at ha
      split_ifs at ha hb with h1 h2 h3
      · simp only [Option.some.injEq] at ha hb
        rw [← ha, ← hb, List.map_append]
        exact List.prefix_append _ _
      · simp only at ha hb
        split at ha
        · rename_i c adjacent he
          rw [he] at hb
          simp only at hb
          split_ifs at ha hb with h4 h5
          · exact step (by simp) ha hb
          · split at ha
            · simp at ha
            · rename_i o ho
              rw [ho] at hb
              simp only at hb
              split_ifs at ha hb
              exact step (by simp) ha hb
        · rename_i he
          rw [he] at hb
          simp only at hb
          split at ha
          · simp at ha
          · rename_i o ho
            rw [ho] at hb
            simp only at hb
            split_ifs at ha hb
            · cases rest with
              | nil => simp at ha
              | cons v rest =>
                simp only [List.cons_append] at ha hb
                exact step (by simp only [List.length_cons]; omega) ha hb
            · exact step (by simp) ha hb
      · exact step (by simp) ha hb

/-- The calls of `store` while the lines are read, `args` being the lines read before. -/
def runStores (opts : List Opt) (valid : Text → Text → Bool) : List Text → List Text → VM → Option VM
  | _, [], vm => some vm
  | args, l :: ls, vm =>
    ((parseArgs opts (args ++ [l])).bind fun parsed => store opts valid parsed vm).bind fun vm => runStores opts valid (args ++ [l]) ls vm

/-- `read_response_file` on a file that can be opened stores the options of its first line, of its first two lines, and so on. -/
theorem readResponseFile_some (opts : List Opt) (valid : Text → Text → Bool) (content : Text) (vm : VM) :
    readResponseFile opts valid (some content) vm = .val (runStores opts valid [] (lines content) vm) := by
  have key : ∀ (n : ℕ) (c : Text), c.length = n → ∀ (args : List Text) (buf : Text) (vm : VM), ∃ s : ReadState,
      whileLoop (fun s : ReadState => s.vm.isSome = true ∧ (!s.stream.good) = false) (readRound opts valid)
        (readRound opts valid ⟨⟨c, true⟩, buf, args, some vm⟩) = .val s ∧ s.vm = runStores opts valid args (lines c) vm := by
    intro n
    induction n using Nat.strong_induction_on with
    | _ n ih =>
      intro c hc args buf vm
      rw [lines_takeWhile, runStores]
      cases hd : c.dropWhile (· ≠ '\n') with
      | nil =>
        have e : readRound opts valid ⟨⟨c, true⟩, buf, args, some vm⟩ = ⟨⟨[], false⟩, c.takeWhile (· ≠ '\n'),
            args ++ [c.takeWhile (· ≠ '\n')],
            (parseArgs opts (args ++ [c.takeWhile (· ≠ '\n')])).bind fun parsed => store opts valid parsed vm⟩ := by
          simp only [readRound, getline, hd, if_true]
          rfl
        rw [e, (whileLoop_eq _ _ _).2 (by simp)]
        refine ⟨_, rfl, ?_⟩
        simp only [runStores]
        cases (parseArgs opts (args ++ [c.takeWhile (· ≠ '\n')])).bind fun parsed => store opts valid parsed vm <;> rfl
      | cons x r =>
        have e : readRound opts valid ⟨⟨c, true⟩, buf, args, some vm⟩ = ⟨⟨r, true⟩, c.takeWhile (· ≠ '\n'),
            args ++ [c.takeWhile (· ≠ '\n')],
            (parseArgs opts (args ++ [c.takeWhile (· ≠ '\n')])).bind fun parsed => store opts valid parsed vm⟩ := by
          simp only [readRound, getline, hd, if_true]
          rfl
        rw [e]
        cases hs : (parseArgs opts (args ++ [c.takeWhile (· ≠ '\n')])).bind fun parsed => store opts valid parsed vm with
        | none =>
          rw [(whileLoop_eq _ _ _).2 (by simp)]
          exact ⟨_, rfl, rfl⟩
        | some vm' =>
          rw [(whileLoop_eq _ _ _).1 (by simp)]
          have hlt : r.length < n := by
            have := (List.dropWhile_sublist (l := c) (· ≠ '\n')).length_le
            rw [hd, List.length_cons] at this
            omega
          exact ih r.length hlt r rfl _ _ vm'
  obtain ⟨s, hs, hv⟩ := key _ content rfl [] [] vm
  unfold readResponseFile
  simp only [Option.isSome_some, Bool.true_and]
  rw [hs, Res.map_val, hv]

theorem parseArgs_blank (opts : List Opt) (n : ℕ) : parseArgs opts (List.replicate n []) = some (List.replicate n ⟨[], [[]]⟩) := by
  induction n with
  | zero => rfl
  | succ n ih =>
    rw [List.replicate_succ, parseArgs]
    simp [ih, List.replicate_succ]

theorem store_blank (opts : List Opt) (valid : Text → Text → Bool) (n : ℕ) (vm : VM) :
    ∃ vm', store opts valid (List.replicate n ⟨[], [[]]⟩) vm = some vm' := by
  have : ∀ m, storeLoop valid vm.final (List.replicate n ⟨[], [[]]⟩) m = some m := by
    intro m
    induction n with
    | zero => rfl
    | succ n ih => rw [List.replicate_succ, storeLoop, if_pos rfl, ih]
  unfold store
  rw [this]
  exact ⟨_, rfl⟩

/-- A response file which cannot be opened makes the program hang. -/
theorem readResponseFile_none (opts : List Opt) (valid : Text → Text → Bool) (vm : VM) :
    readResponseFile opts valid none vm = .diverges := by
  have inv : ∀ n, ∃ vm', ((readRound opts valid)^[n + 1] ⟨⟨[], false⟩, [], [], some vm⟩) =
      ⟨⟨[], false⟩, [], List.replicate (n + 1) [], some vm'⟩ := by
    intro n
    induction n with
    | zero =>
      obtain ⟨vm', h⟩ := store_blank opts valid 1 vm
      refine ⟨vm', ?_⟩
      have hp := parseArgs_blank opts 1
      simp only [List.replicate_one] at hp h
      simp [readRound, getline, hp, h]
    | succ n ih =>
      obtain ⟨vm₁, h₁⟩ := ih
      obtain ⟨vm', h⟩ := store_blank opts valid (n + 2) vm₁
      refine ⟨vm', ?_⟩
      rw [Function.iterate_succ_apply', h₁]
      have hp := parseArgs_blank opts (n + 2)
      have e : List.replicate (n + 1) ([] : Text) ++ [[]] = List.replicate (n + 2) [] := by
        rw [← List.replicate_succ']
      simp [readRound, getline, e, hp, h]
  unfold readResponseFile
  dsimp only
  rw [whileLoop_diverges]
  · rfl
  · intro n
    obtain ⟨vm', h⟩ := inv n
    rw [← Function.iterate_succ_apply, h]
    simp

/-- What the map holds after a response file was read. -/
theorem runStores_holds {opts : List Opt} {valid : Text → Text → Bool} {args ls : List Text} {vm vm' : VM} {src p₀ : List Parsed}
    (hp : parseArgs opts args = some p₀) (h : Holds (defaultOf opts) (src ++ p₀) vm) (hne : ls ≠ [])
    (hr : runStores opts valid args ls vm = some vm') :
    ∃ p, parseArgs opts (args ++ ls) = some p ∧ Holds (defaultOf opts) (src ++ p) vm' := by
  induction ls generalizing args vm p₀ with
  | nil => exact absurd rfl hne
  | cons l ls ih =>
    rw [runStores, Option.bind_eq_some_iff] at hr
    obtain ⟨vm₁, h1, h2⟩ := hr
    obtain ⟨p₁, hp₁, hs⟩ := Option.bind_eq_some_iff.1 h1
    have h3 := store_holds (fun k => Or.inr rfl) h hs
    have h4 : Holds (defaultOf opts) (src ++ p₁) vm₁ := by
      have e : ∀ k, given (src ++ p₀ ++ p₁) k = given (src ++ p₁) k := by
        intro k
        rw [List.append_assoc, given_append, given_append src, given_append p₀, given_prefix (parseArgs_prefix opts hp hp₁)]
      refine ⟨fun k hk => ?_, fun k hk => ?_⟩
      · rw [h3.value k hk, e]
      · rw [h3.final k hk, e]
    cases ls with
    | nil =>
      simp only [runStores, Option.some.injEq] at h2
      subst h2
      exact ⟨p₁, hp₁, h4⟩
    | cons l' ls =>
      obtain ⟨p, hp', hh⟩ := ih hp₁ h4 (by simp) h2
      exact ⟨p, by rw [← hp']; simp, hh⟩

/-! ### C68: where parameters come from -/

/-- The cases of the constructor. -/
theorem construct_app {opts : List Opt} {valid : Text → Text → Bool} {env : Env} {fs : FS} {args : List Text} {a : App}
    (h : construct opts valid env fs args = .val (some (.app a))) :
    ∃ cmd vm, parseArgs opts args = some cmd ∧ store opts valid cmd VM.empty = some vm ∧
      Holds (defaultOf opts) cmd vm ∧ (vm.value helpName) = none ∧ (vm.value versionName) = none ∧
      (∃ d, vm.value outName = some ⟨a.outputPath, d⟩) ∧
      a.responsePath = changeExtension a.outputPath ['.', 'r', 's', 'p'] ∧
      a.logPath = changeExtension a.outputPath ['.', 'l', 'o', 'g'] ∧
      a.matrixPath = changeExtension a.outputPath [] ++ ['_', 'm', 'a', 't', 'r', 'i', 'x', '.', 'b', 'l', 'a', 'z', 'e'] ∧
      a.checkpointPrefix = changeExtension a.outputPath [] ++ ['_', 'c', 'h', 'e', 'c', 'k', 'p', 'o', 'i', 'n', 't', '_'] ∧
      (match vm.value responseFileName with
        | some r => ∃ c, (fs.set a.logPath (some env.logText)) r.text = some c ∧
            runStores opts valid [] (lines c) vm = some a.vars ∧
            a.fs = (fs.set a.logPath (some env.logText)).set a.outputPath (some (headerText env.platform (allOptions opts cmd)))
        | none => a.vars = vm ∧ a.fs = ((fs.set a.logPath (some env.logText)).set a.responsePath
            (some (responseText (allOptions opts cmd)))).set a.outputPath (some (headerText env.platform (allOptions opts cmd)))) := by
  unfold construct parseCommandLineOptions at h
  cases hp : parseArgs opts args with
  | none => rw [hp] at h; simp at h
  | some cmd =>
    rw [hp] at h
    cases hs : store opts valid cmd VM.empty with
    | none => simp [hs] at h
    | some vm =>
      simp only [Option.bind_some, hs, Option.map_some] at h
      have hh : Holds (defaultOf opts) cmd vm := store_holds (src := []) (fun k => Or.inl rfl) holds_empty hs
      refine ⟨cmd, vm, rfl, hs, hh, ?_⟩
      split_ifs at h with h1 h2
      · simp at h
      · simp at h
      · cases ho : vm.value outName with
        | none => rw [ho] at h; simp at h
        | some out =>
          rw [ho] at h
          simp only at h
          cases hr : vm.value responseFileName with
          | none =>
            rw [hr] at h
            simp only [Res.val.injEq, Option.some.injEq, Started.app.injEq] at h
            subst h
            exact ⟨by simpa using h1, by simpa using h2, ⟨out.defaulted, rfl⟩, rfl, rfl, rfl, rfl, rfl, rfl⟩
          | some r =>
            rw [hr] at h
            simp only at h
            cases hc : (fs.set (changeExtension out.text ['.', 'l', 'o', 'g']) (some env.logText)) r.text with
            | none =>
              rw [hc, readResponseFile_none] at h
              simp at h
            | some c =>
              rw [hc, readResponseFile_some] at h
              simp only [Res.map_val, Res.val.injEq] at h
              cases hv : runStores opts valid [] (lines c) vm with
              | none => rw [hv] at h; simp at h
              | some vm' =>
                rw [hv] at h
                simp only [Option.bind_some, Option.some.injEq, Started.app.injEq] at h
                subst h
                exact ⟨by simpa using h1, by simpa using h2, ⟨out.defaulted, rfl⟩, rfl, rfl, rfl, rfl, c, hc, hv, rfl⟩

/-- **C68**: a program that starts sees for each option the value of the command line if there is one, otherwise the first one in
the response file, otherwise the default. The response file is read completely; its lines are arguments. -/
theorem construct_precedence {opts : List Opt} {valid : Text → Text → Bool} {env : Env} {fs : FS} {args : List Text} {a : App}
    (h : construct opts valid env fs args = .val (some (.app a))) (hdef : defaultOf opts responseFileName = none) :
    ∃ cmd rsp, parseArgs opts args = some cmd ∧
      (match given cmd responseFileName with
        | none => rsp = []
        | some path => ∃ content, (fs.set a.logPath (some env.logText)) path = some content ∧
            parseArgs opts (lines content) = some rsp) ∧
      ∀ k, k ≠ [] → parameter a k = (given cmd k).or ((given rsp k).or (defaultOf opts k)) := by
  obtain ⟨cmd, vm, hp, hs, hh, -, -, -, -, -, -, -, hm⟩ := construct_app h
  have hrf := hh.value responseFileName (by decide)
  rw [hdef] at hrf
  have fin : ∀ {src : List Parsed} {vm : VM}, Holds (defaultOf opts) src vm → ∀ k, k ≠ [] →
      (vm.value k).map (fun v => v.text) = (given src k).or (defaultOf opts k) := by
    intro src vm hh k hk
    rw [hh.value k hk]
    cases given src k with
    | some t => rfl
    | none => cases defaultOf opts k <;> rfl
  cases hg : given cmd responseFileName with
  | none =>
    rw [hg] at hrf
    simp only [Option.map_none] at hrf
    rw [hrf] at hm
    refine ⟨cmd, [], hp, by rw [hg], fun k hk => ?_⟩
    rw [parameter, hm.1, fin hh k hk, given_nil, Option.none_or]
  | some path =>
    rw [hg] at hrf
    simp only at hrf
    rw [hrf] at hm
    obtain ⟨c, hc, hr, -⟩ := hm
    obtain ⟨rsp, hrsp, hh'⟩ := runStores_holds (src := cmd) (p₀ := []) rfl (by rwa [List.append_nil]) (lines_ne_nil _) hr
    refine ⟨cmd, rsp, hp, by rw [hg]; exact ⟨c, hc, hrsp⟩, fun k hk => ?_⟩
    rw [parameter, fin hh' k hk, given_append, Option.or_assoc]

/-- The program hangs when it is started with a response file that does not exist. -/
theorem construct_diverges {opts : List Opt} {valid : Text → Text → Bool} {env : Env} {fs : FS} {args : List Text} {cmd : List Parsed}
    {vm : VM} (hp : parseArgs opts args = some cmd) (hs : store opts valid cmd VM.empty = some vm)
    (hhelp : vm.value helpName = none) (hversion : vm.value versionName = none) {out r : Value}
    (hout : vm.value outName = some out) (hr : vm.value responseFileName = some r)
    (hlog : r.text ≠ changeExtension out.text ['.', 'l', 'o', 'g']) (hfs : fs r.text = none) :
    construct opts valid env fs args = .diverges := by
  unfold construct parseCommandLineOptions
  rw [hp]
  simp only [Option.bind_some, hs, Option.map_some, hhelp, hversion, Option.isSome_none, Bool.false_eq_true, if_false, hout, hr]
  rw [FS.set, if_neg hlog, hfs, readResponseFile_none]
  rfl

/-! ### C69: the response file reproduces the parameters -/

/-- Options as the programs declare them: distinct names without `=` and line breaks; `help` and `version` are the only ones
without a value; defaults are valid, not empty and have no line breaks; `response_file` has no default and `out` has one. -/
structure GoodOptions (opts : List Opt) (valid : Text → Text → Bool) : Prop where
  nodup : (opts.map fun o => o.name).Nodup
  name : ∀ o ∈ opts, o.name ≠ [] ∧ '=' ∉ o.name ∧ '\n' ∉ o.name
  flag : ∀ o ∈ opts, o.takesValue = false → o.name = helpName ∨ o.name = versionName
  default : ∀ o ∈ opts, ∀ d, o.default = some d → o.takesValue = true ∧ regexDefault d = true ∧ valid o.name d = true
  response : (⟨responseFileName, true, none⟩ : Opt) ∈ opts
  out : ∃ d, (⟨outName, true, some d⟩ : Opt) ∈ opts
  noHelp : ∀ o ∈ opts, (o.name = helpName ∨ o.name = versionName) → o.default = none

/-- The argument `--name=value`. -/
def longArg (o : Text × Text) : Text := ['-', '-'] ++ o.1 ++ ['='] ++ o.2

theorem filter_name {opts : List Opt} (hn : (opts.map fun o => o.name).Nodup) {o : Opt} (ho : o ∈ opts) :
    opts.filter (fun x => x.name = o.name) = [o] := by
  induction opts with
  | nil => simp at ho
  | cons x opts ih =>
    rw [List.map_cons, List.nodup_cons] at hn
    rcases List.mem_cons.1 ho with rfl | ho
    · rw [List.filter_cons_of_pos (by simp)]
      congr 1
      rw [List.filter_eq_nil_iff]
      intro y hy
      simp only [decide_eq_true_eq]
      intro e
      exact hn.1 (List.mem_map.2 ⟨y, hy, e⟩)
    · rw [List.filter_cons_of_neg, ih hn.2 ho]
      simp only [decide_eq_true_eq]
      intro e
      exact hn.1 (List.mem_map.2 ⟨o, ho, e.symm⟩)

theorem find_name {opts : List Opt} (hn : (opts.map fun o => o.name).Nodup) {o : Opt} (ho : o ∈ opts) : find opts o.name = some o := by
  unfold find
  rw [filter_name hn ho]

theorem find_mem {opts : List Opt} {n : Text} {o : Opt} (h : find opts n = some o) : o ∈ opts := by
  unfold find at h
  split at h
  · rename_i x hx
    have : x ∈ opts.filter (fun o => o.name = n) := by rw [hx]; exact List.mem_singleton_self _
    simp only [Option.some.injEq] at h
    exact h ▸ (List.mem_filter.1 this).1
  · simp at h
  · split at h
    · rename_i x hx
      have : x ∈ opts.filter (fun o => n.isPrefixOf o.name) := by rw [hx]; exact List.mem_singleton_self _
      simp only [Option.some.injEq] at h
      exact h ▸ (List.mem_filter.1 this).1
    · simp at h

/-- What the parser returns: positional arguments, and described options with a value if they take one. -/
theorem parseArgs_sound {opts : List Opt} {args : List Text} {cmd : List Parsed} (h : parseArgs opts args = some cmd) :
    ∀ p ∈ cmd, (p.key = [] ∧ ∃ v, p.value = [v]) ∨ ∃ o ∈ opts, p.key = o.name ∧
      ((o.takesValue = true ∧ ∃ v, p.value = [v]) ∨ (o.takesValue = false ∧ p.value = [])) := by
  induction hn : args.length using Nat.strong_induction_on generalizing args cmd with
  | _ n ih =>
    subst hn
    cases args with
    | nil =>
      simp only [parseArgs, Option.some.injEq] at h
      subst h; simp
    | cons tok rest =>
      have step : ∀ {q : Parsed} {r : List Text}, r.length < (tok :: rest).length →
          (parseArgs opts r).map (fun z => q :: z) = some cmd → ((q.key = [] ∧ ∃ v, q.value = [v]) ∨ ∃ o ∈ opts, q.key = o.name ∧
            ((o.takesValue = true ∧ ∃ v, q.value = [v]) ∨ (o.takesValue = false ∧ q.value = []))) →
          ∀ p ∈ cmd, (p.key = [] ∧ ∃ v, p.value = [v]) ∨ ∃ o ∈ opts, p.key = o.name ∧
            ((o.takesValue = true ∧ ∃ v, p.value = [v]) ∨ (o.takesValue = false ∧ p.value = [])) := by
        intro q r hr hx hq p hp
        obtain ⟨x', hx', rfl⟩ := Option.map_eq_some_iff.1 hx
        rcases List.mem_cons.1 hp with rfl | hp
        · exact hq
        · exact ih r.length hr hx' rfl p hp
      rw [parseArgs] at h
      split_ifs at h with h1 h2 h3
      · simp only [Option.some.injEq] at h
        subst h
        intro p hp
        obtain ⟨x, _, rfl⟩ := List.mem_map.1 hp
        exact Or.inl ⟨rfl, x, rfl⟩
      · simp only at h
        split at h
        · rename_i c adjacent he
          split_ifs at h with h4 h5
          · exact step (by simp) h (Or.inl ⟨rfl, _, rfl⟩)
          · split at h
            · simp at h
            · rename_i o ho
              split_ifs at h with h6
              exact step (by simp) h (Or.inr ⟨o, find_mem ho, rfl, Or.inl ⟨h6, _, rfl⟩⟩)
        · split at h
          · simp at h
          · rename_i o ho
            split_ifs at h with h6
            · cases rest with
              | nil => simp at h
              | cons v rest =>
                exact step (by simp only [List.length_cons]; omega) h (Or.inr ⟨o, find_mem ho, rfl, Or.inl ⟨h6, _, rfl⟩⟩)
            · exact step (by simp) h (Or.inr ⟨o, find_mem ho, rfl, Or.inr ⟨by simpa using h6, rfl⟩⟩)
      · exact step (by simp) h (Or.inl ⟨rfl, _, rfl⟩)

/-- Values that were stored convert. -/
theorem storeLoop_valid {valid : Text → Text → Bool} {final : Text → Bool} {ps : List Parsed} {m m' : Text → Option Value}
    (h : storeLoop valid final ps m = some m') : ∀ p ∈ ps, p.key ≠ [] → final p.key = false → ∀ v, p.value = [v] → valid p.key v = true := by
  induction ps generalizing m with
  | nil => simp
  | cons q ps ih =>
    intro p hp hk hf v hv
    rw [storeLoop] at h
    split_ifs at h with h1 h2
    · rcases List.mem_cons.1 hp with rfl | hp
      · exact absurd h1 hk
      · exact ih h p hp hk hf v hv
    · rcases List.mem_cons.1 hp with rfl | hp
      · rw [hf] at h2; exact absurd h2 (by simp)
      · exact ih h p hp hk hf v hv
    · simp only at h
      split_ifs at h with h3 h4
      rcases List.mem_cons.1 hp with rfl | hp
      · rw [hv] at h4
        simpa using h4
      · exact ih h p hp hk hf v hv

theorem store_valid {opts : List Opt} {valid : Text → Text → Bool} {cmd : List Parsed} {vm : VM}
    (h : store opts valid cmd VM.empty = some vm) : ∀ p ∈ cmd, p.key ≠ [] → ∀ v, p.value = [v] → valid p.key v = true := by
  unfold store at h
  cases hl : storeLoop valid VM.empty.final cmd VM.empty.value with
  | none => rw [hl] at h; simp at h
  | some m => exact fun p hp hk v hv => storeLoop_valid hl p hp hk rfl v hv

/-- The parser reads `--name=value` back. -/
theorem parseArgs_longArg {opts : List Opt} {valid : Text → Text → Bool} (hg : GoodOptions opts valid) (all : List (Text × Text))
    (hall : ∀ o ∈ all, o.2 ≠ [] ∧ (o.1 = [] ∨ ∃ x ∈ opts, x.name = o.1 ∧ x.takesValue = true)) (rest : List Text) :
    parseArgs opts (all.map longArg ++ rest) = (parseArgs opts rest).map fun r => (all.map fun o => ⟨o.1, [o.2]⟩) ++ r := by
  induction all with
  | nil => simp
  | cons o all ih =>
    have ih' := ih fun x hx => hall x (List.mem_cons_of_mem _ hx)
    obtain ⟨hv, hk⟩ := hall o List.mem_cons_self
    obtain ⟨k, v⟩ := o
    simp only at hv hk
    have hne : '=' ∉ k := by
      rcases hk with rfl | ⟨x, hx, rfl, -⟩
      · simp
      · exact (hg.name x hx).2.1
    have ht : (k ++ '=' :: v).takeWhile (· ≠ '=') = k := by
      rw [List.takeWhile_append_of_pos (by intro c hc; simp only [decide_eq_true_eq]; rintro rfl; exact hne hc)]
      simp
    have hd : (k ++ '=' :: v).dropWhile (· ≠ '=') = '=' :: v := by
      rw [List.dropWhile_append_of_pos (by intro c hc; simp only [decide_eq_true_eq]; rintro rfl; exact hne hc)]
      simp
    rw [List.map_cons, List.cons_append, parseArgs]
    have e : longArg (k, v) = '-' :: '-' :: (k ++ '=' :: v) := by simp [longArg]
    rw [e, if_neg (by simp), if_pos (by simp [List.isPrefixOf])]
    simp only [List.drop_succ_cons, List.drop_zero, hd, ht]
    rw [if_neg hv]
    have hmap : ∀ q : Parsed, (parseArgs opts (all.map longArg ++ rest)).map (fun r => q :: r) =
        (parseArgs opts rest).map fun r => (q :: (all.map fun o => (⟨o.1, [o.2]⟩ : Parsed))) ++ r := by
      intro q
      rw [ih', Option.map_map]
      rfl
    rcases hk with rfl | ⟨x, hx, rfl, hxt⟩
    · rw [if_pos rfl, hmap]
      rfl
    · rw [if_neg (hg.name x hx).1, find_name hg.nodup hx]
      simp only [hxt, if_true]
      rw [hmap]
      rfl

theorem storeLoop_skip {valid : Text → Text → Bool} {final : Text → Bool} (ps qs : List Parsed) (m : Text → Option Value)
    (h : ∀ p ∈ ps, p.key = [] ∨ final p.key = true) : storeLoop valid final (ps ++ qs) m = storeLoop valid final qs m := by
  induction ps with
  | nil => rfl
  | cons p ps ih =>
    rw [List.cons_append, storeLoop, ih fun q hq => h q (List.mem_cons_of_mem _ hq)]
    rcases h p List.mem_cons_self with e | e <;> simp [e]

/-- One more option can be stored. -/
theorem store_ok {opts : List Opt} {valid : Text → Text → Bool} {src ps : List Parsed} {q : Parsed} {vm : VM}
    (h : Holds (defaultOf opts) src vm) (hps : ∀ p ∈ ps, p.key = [] ∨ (given src p.key).isSome)
    (hq : q.key = [] ∨ ∃ v, q.value = [v] ∧ valid q.key v = true) : ∃ vm', store opts valid (ps ++ [q]) vm = some vm' := by
  have hskip : ∀ p ∈ ps, p.key = [] ∨ vm.final p.key = true := by
    intro p hp
    by_cases e : p.key = []
    · exact Or.inl e
    · exact Or.inr ((h.final _ e).2 ((hps p hp).resolve_left e))
  unfold store
  rw [storeLoop_skip ps [q] vm.value hskip]
  have : ∃ m, storeLoop valid vm.final [q] vm.value = some m := by
    rw [storeLoop]
    split_ifs with h1 h2
    · exact ⟨_, rfl⟩
    · exact ⟨_, rfl⟩
    · obtain ⟨v, hv, hvalid⟩ := hq.resolve_left h1
      have hf := h.final _ h1
      have hval := h.value _ h1
      cases hgv : given src q.key with
      | some t => rw [hgv] at hf; exact absurd (hf.2 rfl) h2
      | none =>
        rw [hgv] at hval
        simp only at hval
        have hn : discard vm.value q.key q.key = none := by
          unfold discard
          rw [hval]
          cases hdd : defaultOf opts q.key with
          | none => simp only [Option.map_none]; rw [hval, hdd]; rfl
          | some d => simp
        simp only [hn, Option.isSome_none, Bool.false_eq_true, if_false, hv, List.headD_cons, hvalid]
        exact ⟨_, rfl⟩
  obtain ⟨m, hm⟩ := this
  rw [hm]
  exact ⟨_, rfl⟩

/-- Reading back lines `--name=value` succeeds. -/
theorem runStores_ok {opts : List Opt} {valid : Text → Text → Bool} (hg : GoodOptions opts valid) (src : List Parsed)
    (done todo : List (Text × Text)) (hall : ∀ o ∈ done ++ todo, o.2 ≠ [] ∧ (o.1 = [] ∨ ∃ x ∈ opts, x.name = o.1 ∧ x.takesValue = true))
    (hvalid : ∀ o ∈ todo, o.1 = [] ∨ valid o.1 o.2 = true) (vm : VM)
    (h : Holds (defaultOf opts) (src ++ done.map fun o => ⟨o.1, [o.2]⟩) vm) :
    ∃ vm', runStores opts valid (done.map longArg) (todo.map longArg ++ [[]]) vm = some vm' := by
  have hdone : ∀ p ∈ done.map (fun o => (⟨o.1, [o.2]⟩ : Parsed)), p.key = [] ∨
      (given (src ++ done.map fun o => (⟨o.1, [o.2]⟩ : Parsed)) p.key).isSome := by
    intro p hp
    right
    rw [given_isSome]
    exact ⟨p, List.mem_append_right _ hp, rfl⟩
  induction todo generalizing done vm with
  | nil =>
    obtain ⟨vm', hvm⟩ := store_ok (valid := valid) (q := ⟨[], [[]]⟩) h hdone (Or.inl rfl)
    refine ⟨vm', ?_⟩
    rw [List.map_nil, List.nil_append, runStores]
    rw [parseArgs_longArg hg done fun o ho => hall o (by simpa using ho)]
    have : parseArgs opts [[]] = some [⟨[], [[]]⟩] := by simpa using parseArgs_blank opts 1
    rw [this]
    simp only [Option.map_some, Option.bind_some, hvm, runStores]
  | cons o todo ih =>
    have ho := hall o (by simp)
    have hpar : parseArgs opts (done.map longArg ++ [longArg o]) = some ((done.map fun o => (⟨o.1, [o.2]⟩ : Parsed)) ++ [⟨o.1, [o.2]⟩]) := by
      have := parseArgs_longArg hg (done ++ [o]) (fun x hx => hall x (by
        rcases List.mem_append.1 hx with hx | hx
        · exact List.mem_append_left _ hx
        · rw [List.mem_singleton.1 hx]; simp)) []
      simp only [List.map_append, List.map_cons, List.map_nil, List.append_nil, parseArgs, Option.map_some] at this
      exact this
    obtain ⟨vm₁, hvm₁⟩ := store_ok (valid := valid) (q := ⟨o.1, [o.2]⟩) h hdone
      ((hvalid o List.mem_cons_self).imp id fun hv => ⟨o.2, rfl, hv⟩)
    have h₁ := store_holds (fun k => Or.inr rfl) h hvm₁
    have h₂ : Holds (defaultOf opts) (src ++ (done ++ [o]).map fun o => (⟨o.1, [o.2]⟩ : Parsed)) vm₁ := by
      have e : ∀ k, given (src ++ (done.map fun o => (⟨o.1, [o.2]⟩ : Parsed)) ++ ((done.map fun o => (⟨o.1, [o.2]⟩ : Parsed)) ++ [⟨o.1, [o.2]⟩])) k =
          given (src ++ (done ++ [o]).map fun o => (⟨o.1, [o.2]⟩ : Parsed)) k := by
        intro k
        rw [List.append_assoc, given_append, given_append src, given_append (List.map _ done), given_prefix (List.prefix_append _ _),
          List.map_append]
        rfl
      refine ⟨fun k hk => ?_, fun k hk => ?_⟩
      · rw [h₁.value k hk, e]
      · rw [h₁.final k hk, e]
    obtain ⟨vm', hvm'⟩ := ih (done ++ [o]) (fun x hx => hall x (by simpa using hx))
      (fun x hx => hvalid x (List.mem_cons_of_mem _ hx)) vm₁ h₂ (by
        intro p hp
        right
        rw [given_isSome]
        exact ⟨p, List.mem_append_right _ hp, rfl⟩)
    refine ⟨vm', ?_⟩
    rw [List.map_cons, List.cons_append, runStores, hpar, Option.bind_some, hvm₁, Option.bind_some, ← hvm']
    simp

theorem lines_append_newline {l : Text} (h : '\n' ∉ l) (rest : Text) : lines (l ++ '\n' :: rest) = l :: lines rest := by
  rw [lines_takeWhile]
  have hp : ∀ c ∈ l, decide (c ≠ '\n') = true := by
    intro c hc; simp only [decide_eq_true_eq]; rintro rfl; exact h hc
  rw [List.takeWhile_append_of_pos hp, List.dropWhile_append_of_pos hp]
  simp

theorem lines_responseText {all : List (Text × Text)} (h : ∀ o ∈ all, '\n' ∉ o.1 ∧ '\n' ∉ o.2) :
    lines (responseText all) = all.map longArg ++ [[]] := by
  induction all with
  | nil => rfl
  | cons o all ih =>
    have ho := h o List.mem_cons_self
    have e : responseText (o :: all) = longArg o ++ '\n' :: responseText all := by
      simp [responseText, longArg]
    rw [e, lines_append_newline (by simp [longArg, ho.1, ho.2]), ih fun x hx => h x (List.mem_cons_of_mem _ hx)]
    rfl

theorem allOptions_mem {opts : List Opt} {valid : Text → Text → Bool} (hg : GoodOptions opts valid) {args : List Text} {cmd : List Parsed}
    (hp : parseArgs opts args = some cmd) {vm : VM} (hs : store opts valid cmd VM.empty = some vm)
    (hval : ∀ p ∈ cmd, ∀ v ∈ p.value, v ≠ [] ∧ '\n' ∉ v) :
    ∀ o ∈ allOptions opts cmd, (o.2 ≠ [] ∧ '\n' ∉ o.2) ∧ '\n' ∉ o.1 ∧ (o.1 = [] ∨ ∃ x ∈ opts, x.name = o.1 ∧ x.takesValue = true) ∧
      (o.1 = [] ∨ valid o.1 o.2 = true) := by
  intro o ho
  unfold allOptions at ho
  rcases List.mem_append.1 ho with ho | ho
  · obtain ⟨p, hpc, hpv⟩ := List.mem_flatMap.1 ho
    obtain ⟨v, hv, rfl⟩ := List.mem_map.1 hpv
    refine ⟨hval p hpc v hv, ?_⟩
    rcases parseArgs_sound hp p hpc with ⟨hk, -⟩ | ⟨x, hx, hk, ⟨hxt, w, hw⟩ | ⟨-, hw⟩⟩
    · rw [hk]; simp
    · refine ⟨by rw [hk]; exact (hg.name x hx).2.2, Or.inr ⟨x, hx, hk.symm, hxt⟩, Or.inr ?_⟩
      rw [hw, List.mem_singleton] at hv
      subst hv
      exact store_valid hs p hpc (by rw [hk]; exact (hg.name x hx).1) _ hw
    · rw [hw] at hv; simp at hv
  · obtain ⟨x, hx, hxo⟩ := List.mem_filterMap.1 ho
    split_ifs at hxo with h1
    cases hd : x.default with
    | none => rw [hd] at hxo; simp at hxo
    | some d =>
      rw [hd] at hxo
      obtain ⟨ht, hr, hv⟩ := hg.default x hx d hd
      simp only [hr, if_true, Option.some.injEq] at hxo
      subst hxo
      have hr' := hr
      simp only [regexDefault, Bool.and_eq_true, decide_eq_true_eq, Bool.not_eq_true', List.contains_eq_mem, decide_eq_false_iff_not] at hr'
      exact ⟨⟨hr'.1.1, hr'.1.2⟩, (hg.name x hx).2.2, Or.inr ⟨x, hx, rfl, ht⟩, Or.inr hv⟩

theorem defaultOf_eq {opts : List Opt} (hn : (opts.map fun o => o.name).Nodup) {o : Opt} (ho : o ∈ opts) : defaultOf opts o.name = o.default := by
  unfold defaultOf
  induction opts with
  | nil => simp at ho
  | cons x opts ih =>
    rw [List.map_cons, List.nodup_cons] at hn
    rw [List.findSome?_cons]
    have hnot : ∀ y ∈ opts, y.name ≠ x.name := fun y hy e => hn.1 (List.mem_map.2 ⟨y, hy, e⟩)
    rcases List.mem_cons.1 ho with rfl | ho
    · rw [if_pos rfl]
      cases o.default with
      | some d => rfl
      | none =>
        simp only
        rw [List.findSome?_eq_none_iff]
        intro y hy
        rw [if_neg (hnot y hy)]
    · rw [if_neg (Ne.symm (hnot o ho)), ih hn.2 ho]

/-- The recorded options hold the parameters. -/
theorem given_allOptions {opts : List Opt} {valid : Text → Text → Bool} (hg : GoodOptions opts valid) {args : List Text} {cmd : List Parsed}
    (hp : parseArgs opts args = some cmd) {k : Text} (hk : k ≠ []) (hflag : ∀ o ∈ opts, o.name = k → o.takesValue = true) :
    given ((allOptions opts cmd).map fun o => ⟨o.1, [o.2]⟩) k = (given cmd k).or (defaultOf opts k) := by
  unfold allOptions
  rw [List.map_append, given_append]
  have h1 : given (((cmd.flatMap fun p => p.value.map fun v => (p.key, v))).map fun o => (⟨o.1, [o.2]⟩ : Parsed)) k = given cmd k := by
    have hsound := parseArgs_sound hp
    clear hp
    induction cmd with
    | nil => rfl
    | cons p cmd ih =>
      rw [List.flatMap_cons, List.map_append, given_append, ih fun q hq => hsound q (List.mem_cons_of_mem _ hq), given_cons]
      by_cases e : p.key = k
      · rw [if_pos e]
        rcases hsound p List.mem_cons_self with ⟨h, -⟩ | ⟨x, hx, hxk, ⟨-, v, hv⟩ | ⟨hf, -⟩⟩
        · exact absurd (e ▸ h) hk
        · rw [hv]
          simp [given_cons, e]
        · have := hflag x hx (hxk ▸ e)
          rw [hf] at this; exact absurd this (by simp)
      · rw [if_neg e]
        have : given ((p.value.map fun v => (p.key, v)).map fun o => (⟨o.1, [o.2]⟩ : Parsed)) k = none := by
          rw [← Option.not_isSome_iff_eq_none, given_isSome]
          simp [e]
        rw [this, Option.none_or]
  rw [h1]
  cases hgk : given cmd k with
  | some t => simp
  | none =>
    rw [Option.none_or, Option.none_or]
    have hnone : ¬ ∃ p ∈ cmd, p.key = k := by rw [← given_isSome, hgk]; simp
    have hn := hg.nodup
    have hname := hg.default
    unfold defaultOf
    clear hp hflag h1 hg
    induction opts with
    | nil => rfl
    | cons o opts ih =>
      rw [List.map_cons, List.nodup_cons] at hn
      have ih' := ih hn.2 fun x hx => hname x (List.mem_cons_of_mem _ hx)
      rw [List.filterMap_cons, List.findSome?_cons]
      by_cases e : o.name = k
      · have hany : (cmd.any fun p => p.key = o.name) = false := by
          rw [← Bool.not_eq_true, List.any_eq_true]
          rintro ⟨p, hpc, hpk⟩
          exact hnone ⟨p, hpc, by rw [← e]; simpa using hpk⟩
        rw [hany, if_pos e]
        simp only [Bool.false_eq_true, if_false]
        cases hd : o.default with
        | none => simpa using ih'
        | some d =>
          have := (hname o List.mem_cons_self d hd).2.1
          simp [this, given_cons, e]
      · rw [if_neg e]
        simp only
        split
        · exact ih'
        · rename_i b hb
          have hb1 : b.1 = o.name := by
            split_ifs at hb
            cases hd : o.default with
            | none => rw [hd] at hb; simp at hb
            | some d =>
              rw [hd] at hb
              simp only at hb
              split_ifs at hb
              simp only [Option.some.injEq] at hb
              rw [← hb]
          rw [List.map_cons, given_cons, if_neg (by rw [hb1]; exact e), ih']

/-- Every described option, except `help` and `version`, takes a value. -/
theorem GoodOptions.takes {opts : List Opt} {valid : Text → Text → Bool} (hg : GoodOptions opts valid) {k : Text} (h1 : k ≠ helpName)
    (h2 : k ≠ versionName) : ∀ o ∈ opts, o.name = k → o.takesValue = true := by
  intro o ho e
  cases ht : o.takesValue with
  | true => rfl
  | false => rcases hg.flag o ho ht with h | h <;> simp_all

theorem changeExtension_suffix (p e : Text) (h : e ≠ []) : changeExtension p e ≠ [] := by
  unfold changeExtension
  simp [h]

/-- **C69**: a program started with the response file which an earlier run has written sees the same parameters as that run. The
earlier run was started without a response file; no value is empty or contains a line break; the response file was not
overwritten by the output file of its own run and is not the log file of the new one. -/
theorem response_file_reproduces {opts : List Opt} {valid : Text → Text → Bool} (hg : GoodOptions opts valid) {env env' : Env}
    {fs fs' : FS} {args : List Text} {a : App} (h : construct opts valid env fs args = .val (some (.app a)))
    (hno : parameter a responseFileName = none)
    (hval : ∀ cmd, parseArgs opts args = some cmd → ∀ p ∈ cmd, ∀ v ∈ p.value, v ≠ [] ∧ '\n' ∉ v)
    (hkeep : a.responsePath ≠ a.outputPath) (hfs : fs' a.responsePath = a.fs a.responsePath)
    (hvalid : valid responseFileName a.responsePath = true)
    (hlog : ∀ d, defaultOf opts outName = some d → a.responsePath ≠ changeExtension d ['.', 'l', 'o', 'g']) :
    ∃ b, construct opts valid env' fs' [longArg (responseFileName, a.responsePath)] = .val (some (.app b)) ∧
      ∀ k, k ≠ [] → k ≠ responseFileName → parameter b k = parameter a k := by
  obtain ⟨cmd, vm, hp, hs, hh, hhelp, hver, -, hrp, -, -, -, hm⟩ := construct_app h
  have hdefr : defaultOf opts responseFileName = none := defaultOf_eq hg.nodup hg.response
  -- the first run
  have hvm : vm.value responseFileName = none := by
    cases hv : vm.value responseFileName with
    | none => rfl
    | some r =>
      exfalso
      rw [hv] at hm
      obtain ⟨c, -, hr, -⟩ := hm
      have h1 := hh.value responseFileName (by decide)
      rw [hdefr, hv] at h1
      cases hgr : given cmd responseFileName with
      | none => rw [hgr] at h1; simp at h1
      | some t =>
        obtain ⟨rsp, -, hh'⟩ := runStores_holds (src := cmd) (p₀ := []) rfl (by rwa [List.append_nil]) (lines_ne_nil _) hr
        have h2 := hh'.value responseFileName (by decide)
        rw [given_append, hgr] at h2
        simp only [Option.some_or] at h2
        unfold parameter at hno
        rw [h2] at hno
        simp at hno
  rw [hvm] at hm
  obtain ⟨hvars, hfsa⟩ := hm
  have hcontent : fs' a.responsePath = some (responseText (allOptions opts cmd)) := by
    rw [hfs, hfsa, FS.set, if_neg hkeep, FS.set, if_pos rfl]
  have hmem := allOptions_mem hg hp hs (hval cmd hp)
  -- the command line of the second run
  obtain ⟨dout, hout⟩ := hg.out
  have hdo : defaultOf opts outName = some dout := defaultOf_eq hg.nodup hout
  have hpath : a.responsePath ≠ [] := by rw [hrp]; exact changeExtension_suffix _ _ (by simp)
  have hp2 : parseArgs opts [longArg (responseFileName, a.responsePath)] = some [⟨responseFileName, [a.responsePath]⟩] := by
    have := parseArgs_longArg hg [(responseFileName, a.responsePath)] (by
      intro o ho
      rw [List.mem_singleton.1 ho]
      exact ⟨hpath, Or.inr ⟨_, hg.response, rfl, rfl⟩⟩) []
    simpa [parseArgs] using this
  have hs2 : ∃ vm₂, store opts valid [⟨responseFileName, [a.responsePath]⟩] VM.empty = some vm₂ := by
    unfold store
    have : storeLoop valid VM.empty.final [⟨responseFileName, [a.responsePath]⟩] VM.empty.value =
        some (Function.update VM.empty.value responseFileName (some ⟨a.responsePath, false⟩)) := by
      simp [storeLoop, VM.empty, discard, responseFileName]
      exact hvalid
    rw [this]
    exact ⟨_, rfl⟩
  obtain ⟨vm₂, hs2⟩ := hs2
  have hh2 : Holds (defaultOf opts) [⟨responseFileName, [a.responsePath]⟩] vm₂ := store_holds (src := []) (fun k => Or.inl rfl) holds_empty hs2
  have hgiven2 : ∀ k, k ≠ responseFileName → given [(⟨responseFileName, [a.responsePath]⟩ : Parsed)] k = none := by
    intro k hk
    rw [given_cons, if_neg (Ne.symm hk), given_nil]
  have hnodef : ∀ k, (k = helpName ∨ k = versionName) → defaultOf opts k = none := by
    intro k hk
    unfold defaultOf
    rw [List.findSome?_eq_none_iff]
    intro o ho
    split_ifs with e
    · exact hg.noHelp o ho (by rw [e]; exact hk)
    · rfl
  have hhelp2 : vm₂.value helpName = none := by
    rw [hh2.value _ (by decide), hgiven2 _ (by decide), hnodef _ (Or.inl rfl)]; rfl
  have hver2 : vm₂.value versionName = none := by
    rw [hh2.value _ (by decide), hgiven2 _ (by decide), hnodef _ (Or.inr rfl)]; rfl
  have hout2 : vm₂.value outName = some ⟨dout, true⟩ := by
    rw [hh2.value _ (by decide), hgiven2 _ (by decide), hdo]; rfl
  have hresp2 : vm₂.value responseFileName = some ⟨a.responsePath, false⟩ := by
    rw [hh2.value _ (by decide), given_cons, if_pos rfl]; rfl
  have hlines : lines (responseText (allOptions opts cmd)) = (allOptions opts cmd).map longArg ++ [[]] :=
    lines_responseText fun o ho => ⟨(hmem o ho).2.1, (hmem o ho).1.2⟩
  obtain ⟨vm₃, hvm₃⟩ := runStores_ok hg [⟨responseFileName, [a.responsePath]⟩] [] (allOptions opts cmd)
    (fun o ho => ⟨(hmem o (by simpa using ho)).1.1, (hmem o (by simpa using ho)).2.2.1⟩) (fun o ho => (hmem o ho).2.2.2) vm₂ hh2
  have hread : ∃ b, construct opts valid env' fs' [longArg (responseFileName, a.responsePath)] = .val (some (.app b)) := by
    unfold construct parseCommandLineOptions
    rw [hp2]
    simp only [Option.bind_some, hs2, Option.map_some, hhelp2, hver2, Option.isSome_none, Bool.false_eq_true, if_false, hout2, hresp2]
    rw [FS.set, if_neg (hlog dout hdo), hcontent, readResponseFile_some, hlines]
    rw [List.map_nil] at hvm₃
    rw [hvm₃]
    exact ⟨_, rfl⟩
  obtain ⟨b, hb⟩ := hread
  refine ⟨b, hb, fun k hk hkr => ?_⟩
  obtain ⟨cmd', rsp, hp', hr', hpar⟩ := construct_precedence hb hdefr
  obtain ⟨cmd₁, rsp₁, hp₁, hr₁, hpar₁⟩ := construct_precedence h hdefr
  rw [hp] at hp₁
  rw [hp2] at hp'
  obtain rfl := Option.some.inj hp₁
  obtain rfl := Option.some.inj hp'
  rw [hpar k hk, hpar₁ k hk, hgiven2 k hkr, Option.none_or]
  have hgr : given cmd responseFileName = none := by
    have h1 := hh.value responseFileName (by decide)
    rw [hvm] at h1
    cases hgr : given cmd responseFileName with
    | none => rfl
    | some t => rw [hgr] at h1; simp at h1
  rw [hgr] at hr₁
  subst hr₁
  rw [given_nil, Option.none_or]
  have hr'' : ∃ content, (fs'.set b.logPath (some env'.logText)) a.responsePath = some content ∧
      parseArgs opts (lines content) = some rsp := by
    rw [given_cons, if_pos rfl] at hr'
    exact hr'
  obtain ⟨content, hc, hpc⟩ := hr''
  have hblog : b.logPath = changeExtension dout ['.', 'l', 'o', 'g'] := by
    obtain ⟨cmd₃, vm₄, hp₃, hs₃, -, -, -, ⟨d, hod⟩, -, hl, -⟩ := construct_app hb
    rw [hp2] at hp₃
    obtain rfl := Option.some.inj hp₃
    rw [hs2] at hs₃
    obtain rfl := Option.some.inj hs₃
    rw [hout2] at hod
    simp only [Option.some.injEq, Value.mk.injEq] at hod
    rw [hl, hod.1]
  rw [FS.set, hblog, if_neg (hlog dout hdo), hcontent] at hc
  obtain rfl := Option.some.inj hc
  rw [hlines, parseArgs_longArg hg _ fun o ho => ⟨(hmem o ho).1.1, (hmem o ho).2.2.1⟩] at hpc
  have hbl : parseArgs opts [[]] = some [⟨[], [[]]⟩] := by simpa using parseArgs_blank opts 1
  rw [hbl] at hpc
  simp only [Option.map_some, Option.some.injEq] at hpc
  subst hpc
  rw [given_append, given_cons, if_neg (Ne.symm hk), given_nil, Option.or_none]
  by_cases hf : k = helpName ∨ k = versionName
  · -- neither run has these
    have hgn : ∀ k, (k = helpName ∨ k = versionName) → given cmd k = none := by
      intro k hk
      have hk0 : k ≠ [] := by rcases hk with rfl | rfl <;> decide
      have h1 := hh.value k hk0
      have h2 : vm.value k = none := by rcases hk with rfl | rfl <;> assumption
      rw [h2] at h1
      cases hgk : given cmd k with
      | none => rfl
      | some t => rw [hgk] at h1; simp at h1
    rw [hgn k hf, hnodef k hf]
    have : given ((allOptions opts cmd).map fun o => (⟨o.1, [o.2]⟩ : Parsed)) k = none := by
      rw [← Option.not_isSome_iff_eq_none, given_isSome]
      rintro ⟨p, hpm, hpk⟩
      obtain ⟨o, ho, rfl⟩ := List.mem_map.1 hpm
      simp only at hpk
      unfold allOptions at ho
      rcases List.mem_append.1 ho with ho | ho
      · obtain ⟨q, hq, hqv⟩ := List.mem_flatMap.1 ho
        obtain ⟨v, -, rfl⟩ := List.mem_map.1 hqv
        have : (given cmd k).isSome := given_isSome.2 ⟨q, hq, hpk⟩
        rw [hgn k hf] at this
        simp at this
      · obtain ⟨x, hx, hxo⟩ := List.mem_filterMap.1 ho
        split_ifs at hxo
        have hxd := hnodef k hf
        cases hd : x.default with
        | none => rw [hd] at hxo; simp at hxo
        | some d =>
          rw [hd] at hxo
          simp only at hxo
          split_ifs at hxo
          simp only [Option.some.injEq] at hxo
          rw [← hxo] at hpk
          rw [← hpk, defaultOf_eq hg.nodup hx, hd] at hxd
          simp at hxd
    rw [this]
  · rw [not_or] at hf
    rw [given_allOptions hg hp hk (hg.takes hf.1 hf.2)]
    cases given cmd k <;> cases defaultOf opts k <;> rfl

/-! ### C70: the header -/

theorem storeLoop_nodup {valid : Text → Text → Bool} {ps : List Parsed} {m m' : Text → Option Value}
    (h : storeLoop valid (fun _ => false) ps m = some m') : ∀ p ∈ ps, p.key ≠ [] → given ps p.key = some (p.value.headD []) := by
  induction ps generalizing m with
  | nil => simp
  | cons q ps ih =>
    intro p hp hk
    rw [given_cons]
    rcases List.mem_cons.1 hp with rfl | hp
    · rw [if_pos rfl]
    · rw [storeLoop] at h
      split_ifs at h with h1 h2
      · rw [if_neg (by rw [h1]; exact Ne.symm hk)]
        exact ih h p hp hk
      · exact absurd h2 (by simp)
      · dsimp only at h
        split_ifs at h with h3 h4
        have hq : q.key ≠ p.key := by
          intro e
          have := (storeLoop_once h (k := q.key) h1 rfl (Function.update_self ..) rfl).1
          have h5 : (given ps q.key).isSome := given_isSome.2 ⟨p, hp, e.symm⟩
          rw [this] at h5
          simp at h5
        rw [if_neg hq]
        exact ih h p hp hk

/-- The recorded options are the parameters, as long as no response file is read. -/
theorem allOptions_iff {opts : List Opt} {valid : Text → Text → Bool} (hg : GoodOptions opts valid) {args : List Text} {cmd : List Parsed}
    (hp : parseArgs opts args = some cmd) {vm : VM} (hs : store opts valid cmd VM.empty = some vm)
    (hhelp : given cmd helpName = none) (hver : given cmd versionName = none) {k v : Text} (hk : k ≠ []) :
    (k, v) ∈ allOptions opts cmd ↔ (given cmd k).or (defaultOf opts k) = some v := by
  have hloop : ∀ p ∈ cmd, p.key ≠ [] → given cmd p.key = some (p.value.headD []) := by
    unfold store at hs
    cases hl : storeLoop valid VM.empty.final cmd VM.empty.value with
    | none => rw [hl] at hs; simp at hs
    | some m => exact storeLoop_nodup hl
  unfold allOptions
  rw [List.mem_append]
  constructor
  · rintro (ho | ho)
    · obtain ⟨p, hpc, hpv⟩ := List.mem_flatMap.1 ho
      obtain ⟨w, hw, e⟩ := List.mem_map.1 hpv
      obtain ⟨rfl, rfl⟩ := Prod.mk.inj e
      rw [hloop p hpc hk]
      rcases parseArgs_sound hp p hpc with ⟨h, -⟩ | ⟨x, hx, hxk, ⟨-, u, hu⟩ | ⟨-, hu⟩⟩
      · exact absurd h hk
      · rw [hu, List.mem_singleton] at hw
        rw [hu, hw]; rfl
      · rw [hu] at hw; simp at hw
    · obtain ⟨x, hx, hxo⟩ := List.mem_filterMap.1 ho
      split_ifs at hxo with h1
      cases hd : x.default with
      | none => rw [hd] at hxo; simp at hxo
      | some d =>
        rw [hd] at hxo
        simp only at hxo
        split_ifs at hxo
        obtain ⟨rfl, rfl⟩ := Prod.mk.inj (Option.some.inj hxo)
        have : given cmd x.name = none := by
          rw [← Option.not_isSome_iff_eq_none, given_isSome]
          rintro ⟨p, hpc, hpk⟩
          exact h1 (List.any_eq_true.2 ⟨p, hpc, by simpa using hpk⟩)
        rw [this, Option.none_or, defaultOf_eq hg.nodup hx, hd]
  · intro h
    cases hgk : given cmd k with
    | some t =>
      rw [hgk, Option.some_or, Option.some.injEq] at h
      subst h
      left
      obtain ⟨p, hpc, hpk⟩ := given_isSome.1 (by rw [hgk]; rfl : (given cmd k).isSome)
      have h1 := hloop p hpc (by rw [hpk]; exact hk)
      rw [hpk, hgk, Option.some.injEq] at h1
      refine List.mem_flatMap.2 ⟨p, hpc, ?_⟩
      rcases parseArgs_sound hp p hpc with ⟨h, -⟩ | ⟨x, hx, hxk, ⟨-, u, hu⟩ | ⟨hf, hu⟩⟩
      · exact absurd (hpk ▸ h) hk
      · rw [hu] at h1 ⊢
        rw [hpk, h1]; simp
      · exfalso
        rcases hg.flag x hx hf with e | e
        · rw [← hxk, hpk] at e; rw [e, hhelp] at hgk; simp at hgk
        · rw [← hxk, hpk] at e; rw [e, hver] at hgk; simp at hgk
    | none =>
      right
      rw [hgk, Option.none_or] at h
      obtain ⟨x, hx, hxd⟩ := List.exists_of_findSome?_eq_some h
      split_ifs at hxd with e
      have hany : (cmd.any fun p => p.key = x.name) = false := by
        rw [← Bool.not_eq_true, List.any_eq_true]
        rintro ⟨p, hpc, hpk⟩
        have h5 : (given cmd k).isSome := given_isSome.2 ⟨p, hpc, by rw [← e]; simpa using hpk⟩
        rw [hgk] at h5; simp at h5
      refine List.mem_filterMap.2 ⟨x, hx, ?_⟩
      rw [hany, hxd]
      simp [(hg.default x hx v hxd).2.1, e]

theorem construct_flags {opts : List Opt} {cmd : List Parsed} {vm : VM} (hh : Holds (defaultOf opts) cmd vm) {k : Text} (hk : k ≠ [])
    (h : vm.value k = none) : given cmd k = none := by
  have h1 := hh.value k hk
  rw [h] at h1
  cases hgk : given cmd k with
  | none => rfl
  | some t => rw [hgk] at h1; simp at h1

/-- **C70** (without response file): the header of the output file, and the response file, list exactly the parameters the program
sees. -/
theorem header_partial {opts : List Opt} {valid : Text → Text → Bool} (hg : GoodOptions opts valid) {env : Env} {fs : FS}
    {args : List Text} {a : App} (h : construct opts valid env fs args = .val (some (.app a)))
    (hno : ∀ cmd, parseArgs opts args = some cmd → given cmd responseFileName = none) :
    ∃ all, a.fs a.outputPath = some (headerText env.platform all) ∧
      (a.responsePath ≠ a.outputPath → a.fs a.responsePath = some (responseText all)) ∧
      ∀ k v, k ≠ [] → ((k, v) ∈ all ↔ parameter a k = some v) := by
  obtain ⟨cmd, vm, hp, hs, hh, hhelp, hver, -, -, -, -, -, hm⟩ := construct_app h
  have hdefr : defaultOf opts responseFileName = none := defaultOf_eq hg.nodup hg.response
  have hvr : vm.value responseFileName = none := by
    rw [hh.value _ (by decide), hno cmd hp, hdefr]; rfl
  rw [hvr] at hm
  obtain ⟨hv, hf⟩ := hm
  refine ⟨allOptions opts cmd, ?_, ?_, ?_⟩
  · rw [hf, FS.set, if_pos rfl]
  · intro hne
    rw [hf, FS.set, if_neg hne, FS.set, if_pos rfl]
  · intro k v hk
    rw [allOptions_iff hg hp hs (construct_flags hh (by decide) hhelp) (construct_flags hh (by decide) hver) hk]
    rw [parameter, hv, hh.value k hk]
    cases given cmd k with
    | some t => simp
    | none => cases defaultOf opts k <;> simp

/-- **C70** refuted: with a response file the header lists the default of every option which only the response file gives. -/
theorem header_wrong {opts : List Opt} {valid : Text → Text → Bool} (hg : GoodOptions opts valid) {env : Env} {fs : FS}
    {args : List Text} {a : App} (h : construct opts valid env fs args = .val (some (.app a))) {cmd rsp : List Parsed} {path content : Text}
    (hp : parseArgs opts args = some cmd) (hr : given cmd responseFileName = some path) (hne : path ≠ a.logPath) (hfs : fs path = some content)
    (hrsp : parseArgs opts (lines content) = some rsp) {k v d : Text} (hk : k ≠ []) (hcmd : given cmd k = none) (hgv : given rsp k = some v)
    (hd : defaultOf opts k = some d) (hvd : v ≠ d) :
    parameter a k = some v ∧ ∃ all, a.fs a.outputPath = some (headerText env.platform all) ∧ (k, d) ∈ all ∧ (k, v) ∉ all := by
  obtain ⟨cmd₁, vm, hp₁, hs, hh, hhelp, hver, -, -, -, -, -, hm⟩ := construct_app h
  rw [hp] at hp₁
  obtain rfl := Option.some.inj hp₁
  have hdefr : defaultOf opts responseFileName = none := defaultOf_eq hg.nodup hg.response
  obtain ⟨cmd₁, rsp₁, hp₁, hr₁, hpar⟩ := construct_precedence h hdefr
  rw [hp] at hp₁
  obtain rfl := Option.some.inj hp₁
  rw [hr] at hr₁
  obtain ⟨c, hc, hrsp₁⟩ := hr₁
  rw [FS.set, if_neg hne, hfs] at hc
  obtain rfl := Option.some.inj hc
  rw [hrsp] at hrsp₁
  obtain rfl := Option.some.inj hrsp₁
  have hvr : vm.value responseFileName = some ⟨path, false⟩ := by
    rw [hh.value _ (by decide), hr]
  rw [hvr] at hm
  obtain ⟨_, -, -, hf⟩ := hm
  refine ⟨by rw [hpar k hk, hcmd, hgv]; rfl, allOptions opts cmd, by rw [hf, FS.set, if_pos rfl], ?_, ?_⟩
  · rw [allOptions_iff hg hp hs (construct_flags hh (by decide) hhelp) (construct_flags hh (by decide) hver) hk, hcmd, hd]; rfl
  · rw [allOptions_iff hg hp hs (construct_flags hh (by decide) hhelp) (construct_flags hh (by decide) hver) hk, hcmd, hd, Option.none_or]
    exact fun e => hvd (Option.some.inj e).symm

/-- The lines of the header. -/
theorem lines_headerText {platform all : List (Text × Text)} (hp : ∀ l ∈ platform, '\n' ∉ l.1 ∧ '\n' ∉ l.2)
    (ha : ∀ l ∈ all, '\n' ∉ l.1 ∧ '\n' ∉ l.2) : lines (headerText platform all) =
      (platform.map fun l => ['#', ' '] ++ l.1 ++ ['\t'] ++ l.2) ++
        [['#'], ['#', ' ', 'C', 'L', 'I', ' ', 'o', 'p', 't', 'i', 'o', 'n', 's', ':']] ++
        (all.map fun o => ['#', '\t'] ++ o.1 ++ [' ', '=', ' '] ++ o.2) ++ [[]] := by
  have key : ∀ (ls : List Text) (rest : Text), (∀ l ∈ ls, '\n' ∉ l) →
      lines ((ls.map fun l => l ++ ['\n']).flatten ++ rest) = ls ++ lines rest := by
    intro ls rest h
    induction ls with
    | nil => rfl
    | cons l ls ih =>
      have := ih fun x hx => h x (List.mem_cons_of_mem _ hx)
      simp only [List.map_cons, List.flatten_cons, List.append_assoc, List.cons_append, List.nil_append] at this ⊢
      rw [lines_append_newline (h l List.mem_cons_self), this]
  have e : headerText platform all = (((platform.map fun l => ['#', ' '] ++ l.1 ++ ['\t'] ++ l.2).map fun l => l ++ ['\n']).flatten ++
      ((([['#'], ['#', ' ', 'C', 'L', 'I', ' ', 'o', 'p', 't', 'i', 'o', 'n', 's', ':']] : List Text).map fun l => l ++ ['\n']).flatten ++
        (((all.map fun o => ['#', '\t'] ++ o.1 ++ [' ', '=', ' '] ++ o.2).map fun l => l ++ ['\n']).flatten ++ []))) := by
    simp [headerText, Function.comp_def]
  rw [e, key, key, key]
  · simp [lines]
  · intro l hl
    obtain ⟨o, ho, rfl⟩ := List.mem_map.1 hl
    simp [(ha o ho).1, (ha o ho).2]
  · intro l hl
    simp only [List.mem_cons, List.not_mem_nil, or_false] at hl
    rcases hl with rfl | rfl <;> decide
  · intro l hl
    obtain ⟨o, ho, rfl⟩ := List.mem_map.1 hl
    simp [(hp o ho).1, (hp o ho).2]

/-- **C70**: every line of the header is a comment that the readers skip, provided names and values contain no line breaks. -/
theorem header_comments {platform all : List (Text × Text)} (hp : ∀ l ∈ platform, ∀ c ∈ l.1 ++ l.2, c ≠ '\n' ∧ c ≠ '\r')
    (ha : ∀ l ∈ all, ∀ c ∈ l.1 ++ l.2, c ≠ '\n' ∧ c ≠ '\r') : ∀ l ∈ lines (headerText platform all), isSkippableLine l := by
  have nl : ∀ {x : List (Text × Text)}, (∀ l ∈ x, ∀ c ∈ l.1 ++ l.2, c ≠ '\n' ∧ c ≠ '\r') → ∀ l ∈ x, '\n' ∉ l.1 ∧ '\n' ∉ l.2 :=
    fun h l hl => ⟨fun hm => (h l hl _ (List.mem_append_left _ hm)).1 rfl, fun hm => (h l hl _ (List.mem_append_right _ hm)).1 rfl⟩
  have skip : ∀ r : Text, (∀ c ∈ r, c ≠ '\n' ∧ c ≠ '\r') → isSkippableLine ('#' :: r) := by
    intro r hr
    rw [isSkippableLine_iff]
    right
    exact ⟨[], r, rfl, by simp [Blank], hr⟩
  intro l hl
  rw [lines_headerText (nl hp) (nl ha)] at hl
  simp only [List.mem_append, List.mem_map, List.mem_cons, List.not_mem_nil, or_false] at hl
  rcases hl with ((⟨o, ho, rfl⟩ | rfl | rfl) | ⟨o, ho, rfl⟩) | rfl
  · rw [show ['#', ' '] ++ o.1 ++ ['\t'] ++ o.2 = '#' :: (' ' :: (o.1 ++ '\t' :: o.2)) by simp]
    refine skip _ fun c hc => ?_
    simp only [List.mem_append, List.mem_cons] at hc
    rcases hc with rfl | hc | rfl | hc
    · decide
    · exact hp o ho c (List.mem_append_left _ hc)
    · decide
    · exact hp o ho c (List.mem_append_right _ hc)
  · exact skip [] (by simp)
  · exact skip _ (by decide)
  · rw [show ['#', '\t'] ++ o.1 ++ [' ', '=', ' '] ++ o.2 = '#' :: ('\t' :: (o.1 ++ ' ' :: '=' :: ' ' :: o.2)) by simp]
    refine skip _ fun c hc => ?_
    simp only [List.mem_append, List.mem_cons] at hc
    rcases hc with rfl | hc | rfl | rfl | rfl | hc
    · decide
    · exact ha o ho c (List.mem_append_left _ hc)
    · decide
    · decide
    · decide
    · exact ha o ho c (List.mem_append_right _ hc)
  · rw [isSkippableLine_iff]
    left
    simp [Blank]

/-! ### C71: the files of a run -/

/-- The output path without its extension. -/
def stem (p : Text) : Text := changeExtension p []

theorem extension_suffix (p : Text) : extension p <:+ p := by
  unfold extension
  simp only
  split_ifs with h
  · exact List.nil_suffix
  · simp only [Bool.or_eq_true, decide_eq_true_eq, Bool.not_eq_true', not_or, Bool.not_eq_false] at h
    have hdot : '.' ∈ filename p := by simpa using h.2
    have hsub : filename p <:+ p := by
      unfold filename
      have := List.takeWhile_prefix (l := p.reverse) (fun c => decide (c ≠ '/'))
      rw [← List.reverse_suffix, List.reverse_reverse] at this
      exact this
    refine List.IsSuffix.trans ?_ hsub
    generalize filename p = n at hdot
    have hr : '.' ∈ n.reverse := by simpa using hdot
    have h1 : n.reverse = n.reverse.takeWhile (· ≠ '.') ++ n.reverse.dropWhile (· ≠ '.') := (List.takeWhile_append_dropWhile).symm
    cases hd : n.reverse.dropWhile (· ≠ '.') with
    | nil =>
      rw [hd, List.append_nil] at h1
      rw [h1] at hr
      have := List.mem_takeWhile_imp hr
      simp at this
    | cons c r =>
      have hc : c = '.' := by
        have := List.head?_dropWhile_not (fun c => decide (c ≠ '.')) n.reverse
        rw [hd] at this
        simpa using this
      rw [hd, hc] at h1
      refine ⟨r.reverse, ?_⟩
      have h2 := congrArg List.reverse h1
      simp only [List.reverse_reverse, List.reverse_append, List.reverse_cons, List.append_assoc, List.cons_append, List.nil_append] at h2
      exact h2.symm

/-- A path is its stem followed by its extension; the new extension follows the stem. -/
theorem stem_append (p : Text) : stem p ++ extension p = p ∧ ∀ e, changeExtension p e = stem p ++ e := by
  obtain ⟨t, ht⟩ := extension_suffix p
  have hl : p.length - (extension p).length = t.length := by
    have := congrArg List.length ht
    rw [List.length_append] at this
    omega
  have hs : p.take (p.length - (extension p).length) = t := by
    rw [hl]
    conv_lhs => rw [← ht]
    simp
  unfold stem changeExtension
  rw [hs, List.append_nil]
  exact ⟨ht, fun _ => rfl⟩

theorem extension_shape (p : Text) : extension p = [] ∨ ∃ r, extension p = '.' :: r := by
  unfold extension
  simp only
  split_ifs
  · exact Or.inl rfl
  · exact Or.inr ⟨_, rfl⟩

/-- The stem of `dir/base.ext`: everything before the last dot of the file name. -/
theorem stem_eq {dir base ext : Text} (hdir : dir = [] ∨ ∃ d, dir = d ++ ['/']) (hb : '/' ∉ base) (he : '/' ∉ ext) (hdot : '.' ∉ ext)
    (h1 : base ++ '.' :: ext ≠ ['.']) (h2 : base ++ '.' :: ext ≠ ['.', '.']) :
    stem (dir ++ (base ++ '.' :: ext)) = dir ++ base ∧ extension (dir ++ (base ++ '.' :: ext)) = '.' :: ext := by
  have hf : filename (dir ++ (base ++ '.' :: ext)) = base ++ '.' :: ext := by
    unfold filename
    rw [List.reverse_append]
    have hn : ∀ c ∈ (base ++ '.' :: ext).reverse, decide (c ≠ '/') = true := by
      intro c hc
      rw [List.mem_reverse, List.mem_append, List.mem_cons] at hc
      simp only [decide_eq_true_eq]
      rintro rfl
      rcases hc with hc | hc | hc
      · exact hb hc
      · exact absurd hc (by decide)
      · exact he hc
    rw [List.takeWhile_append_of_pos hn]
    have : dir.reverse.takeWhile (fun c => decide (c ≠ '/')) = [] := by
      rcases hdir with rfl | ⟨d, rfl⟩
      · rfl
      · simp
    rw [this, List.append_nil, List.reverse_reverse]
  have hext : extension (dir ++ (base ++ '.' :: ext)) = '.' :: ext := by
    unfold extension
    simp only [hf]
    rw [if_neg (by simp [h1, h2])]
    have : (base ++ '.' :: ext).reverse = ext.reverse ++ '.' :: base.reverse := by simp
    rw [this, List.takeWhile_append_of_pos (by
      intro c hc
      simp only [decide_eq_true_eq]
      rintro rfl
      exact hdot (by simpa using hc))]
    simp
  refine ⟨?_, hext⟩
  have := (stem_append (dir ++ (base ++ '.' :: ext))).1
  rw [hext] at this
  have e : dir ++ (base ++ '.' :: ext) = (dir ++ base) ++ '.' :: ext := by simp
  rw [e] at this ⊢
  exact List.append_cancel_right this

/-- The names of the checkpoints (checkpoint.hpp). -/
def checkpointFile (a : App) (n : ℕ) : Text := a.checkpointPrefix ++ Nat.toDigits 10 n ++ ['.', 'b', 'l', 'a', 'z', 'e']

/-- **C71**: the files of one run are different, except that the output file is the response file when it is called `*.rsp` and
the log file when it is called `*.log`. -/
theorem paths_partial {opts : List Opt} {valid : Text → Text → Bool} {env : Env} {fs : FS} {args : List Text} {a : App}
    (h : construct opts valid env fs args = .val (some (.app a))) :
    (a.responsePath = a.outputPath ↔ extension a.outputPath = ['.', 'r', 's', 'p']) ∧
    (a.logPath = a.outputPath ↔ extension a.outputPath = ['.', 'l', 'o', 'g']) ∧
    a.responsePath ≠ a.logPath ∧ a.matrixPath ≠ a.outputPath ∧ a.matrixPath ≠ a.responsePath ∧ a.matrixPath ≠ a.logPath ∧
    ∀ n, checkpointFile a n ≠ a.outputPath ∧ checkpointFile a n ≠ a.responsePath ∧ checkpointFile a n ≠ a.logPath ∧
      checkpointFile a n ≠ a.matrixPath := by
  obtain ⟨cmd, vm, -, -, -, -, -, -, hr, hl, hm, hc, -⟩ := construct_app h
  obtain ⟨h1, h2⟩ := stem_append a.outputPath
  unfold checkpointFile
  rw [hr, hl, hm, hc, h2, h2, h2]
  have cancel : ∀ e, stem a.outputPath ++ e = a.outputPath ↔ e = extension a.outputPath := by
    intro e
    conv_lhs => rhs; rw [← h1]
    exact List.append_right_inj _
  have shape : ∀ r : Text, ('_' :: r) ≠ extension a.outputPath := by
    intro r e
    rcases extension_shape a.outputPath with h | ⟨s, h⟩
    · rw [h] at e; simp at e
    · rw [h] at e; exact absurd (List.cons.inj e).1 (by decide)
  simp only [List.append_assoc, List.append_nil, cancel, List.append_right_inj, ne_eq]
  refine ⟨eq_comm, eq_comm, by decide, shape _, by decide, by decide, fun n => ⟨shape _, ?_, ?_, ?_⟩⟩ <;> simp

/-- **C71** refuted for runs with different output files: if the names differ only after the last dot, for instance
`U_0.5` and `U_0.75`, the runs share response, log, matrix and checkpoint files. -/
theorem paths_shared {opts : List Opt} {valid : Text → Text → Bool} {env env' : Env} {fs fs' : FS} {args args' : List Text} {a b : App}
    (ha : construct opts valid env fs args = .val (some (.app a))) (hb : construct opts valid env' fs' args' = .val (some (.app b)))
    {dir base e₁ e₂ : Text} (hdir : dir = [] ∨ ∃ d, dir = d ++ ['/']) (hbase : '/' ∉ base ∧ base ≠ [] ∧ base ≠ ['.'])
    (h1 : '/' ∉ e₁ ∧ '.' ∉ e₁) (h2 : '/' ∉ e₂ ∧ '.' ∉ e₂) (hoa : a.outputPath = dir ++ (base ++ '.' :: e₁))
    (hob : b.outputPath = dir ++ (base ++ '.' :: e₂)) :
    a.responsePath = b.responsePath ∧ a.logPath = b.logPath ∧ a.matrixPath = b.matrixPath ∧ a.checkpointPrefix = b.checkpointPrefix := by
  obtain ⟨_, _, -, -, -, -, -, -, hr, hl, hm, hc, -⟩ := construct_app ha
  obtain ⟨_, _, -, -, -, -, -, -, hr', hl', hm', hc', -⟩ := construct_app hb
  have hne : ∀ e : Text, base ++ '.' :: e ≠ ['.'] ∧ base ++ '.' :: e ≠ ['.', '.'] := by
    intro e
    constructor <;> intro h
    · cases base with
      | nil => exact hbase.2.1 rfl
      | cons c r => simp at h
    · cases base with
      | nil => exact hbase.2.1 rfl
      | cons c r =>
        cases r with
        | nil =>
          simp only [List.cons_append, List.nil_append, List.cons.injEq] at h
          exact hbase.2.2 (by rw [h.1])
        | cons d r => simp at h
  have e1 := (stem_eq hdir hbase.1 h1.1 h1.2 (hne e₁).1 (hne e₁).2).1
  have e2 := (stem_eq hdir hbase.1 h2.1 h2.2 (hne e₂).1 (hne e₂).2).1
  have hs : stem a.outputPath = stem b.outputPath := by rw [hoa, hob, e1, e2]
  have ca := (stem_append a.outputPath).2
  have cb := (stem_append b.outputPath).2
  rw [hr, hr', hl, hl', hm, hm', hc, hc', ca, cb, ca, cb, ca, cb, hs]
  exact ⟨rfl, rfl, rfl, rfl⟩

/-- When the output file is called `*.rsp`, the response file is lost. -/
theorem response_lost {opts : List Opt} {valid : Text → Text → Bool} {env : Env} {fs : FS} {args : List Text} {a : App}
    (h : construct opts valid env fs args = .val (some (.app a))) (he : extension a.outputPath = ['.', 'r', 's', 'p']) :
    ∃ all, a.fs a.responsePath = some (headerText env.platform all) := by
  have hr := (paths_partial h).1.2 he
  obtain ⟨cmd, vm, -, -, -, -, -, -, -, -, -, -, hm⟩ := construct_app h
  refine ⟨allOptions opts cmd, ?_⟩
  rw [hr]
  split at hm
  · obtain ⟨_, _, _, hf⟩ := hm
    rw [hf, FS.set, if_pos rfl]
  · rw [hm.2, FS.set, if_pos rfl]

/-- The output goes to the path given on the command line, or to the default path ... -/
theorem output_path_eq {opts : List Opt} {valid : Text → Text → Bool} {env : Env} {fs : FS} {args : List Text} {a : App}
    (h : construct opts valid env fs args = .val (some (.app a))) :
    ∃ cmd, parseArgs opts args = some cmd ∧ (given cmd outName).or (defaultOf opts outName) = some a.outputPath := by
  obtain ⟨cmd, vm, hp, -, hh, -, -, ⟨d, hd⟩, -⟩ := construct_app h
  refine ⟨cmd, hp, ?_⟩
  have := hh.value outName (by decide)
  rw [hd] at this
  cases hg : given cmd outName with
  | some t => rw [hg] at this; simp_all
  | none =>
    rw [hg] at this
    cases hdo : defaultOf opts outName with
    | none => rw [hdo] at this; simp at this
    | some x => rw [hdo] at this; simp_all

/-- ... and not to the path which the response file gives, although the parameter `out` then has that value. -/
theorem output_path_wrong {opts : List Opt} {valid : Text → Text → Bool} {env : Env} {fs : FS} {args : List Text} {a : App}
    (h : construct opts valid env fs args = .val (some (.app a))) (hdef : defaultOf opts responseFileName = none) {cmd rsp : List Parsed}
    {path content : Text} (hp : parseArgs opts args = some cmd) (hr : given cmd responseFileName = some path) (hne : path ≠ a.logPath)
    (hfs : fs path = some content) (hrsp : parseArgs opts (lines content) = some rsp) {v d : Text} (hcmd : given cmd outName = none)
    (hgv : given rsp outName = some v) (hd : defaultOf opts outName = some d) :
    parameter a outName = some v ∧ a.outputPath = d := by
  obtain ⟨cmd₁, rsp₁, hp₁, hr₁, hpar⟩ := construct_precedence h hdef
  rw [hp] at hp₁
  obtain rfl := Option.some.inj hp₁
  rw [hr] at hr₁
  obtain ⟨c, hc, hrsp₁⟩ := hr₁
  rw [FS.set, if_neg hne, hfs] at hc
  obtain rfl := Option.some.inj hc
  rw [hrsp] at hrsp₁
  obtain rfl := Option.some.inj hrsp₁
  obtain ⟨cmd₂, hp₂, ho⟩ := output_path_eq h
  rw [hp] at hp₂
  obtain rfl := Option.some.inj hp₂
  rw [hcmd, hd, Option.none_or] at ho
  exact ⟨by rw [hpar _ (by decide), hcmd, hgv]; rfl, (Option.some.inj ho).symm⟩

/-! ### Examples -/

/-- The options of a program, with one number. -/
def exampleOptions : List Opt := programOptions ['p'] [(['N'], ['1', '6'])]

theorem example_good : GoodOptions exampleOptions (fun _ _ => true) := by
  refine ⟨by decide, by decide, by decide, ?_, by decide, ⟨['p', '.', 't', 'x', 't'], by decide⟩, by decide⟩
  intro o ho d hd
  simp only [exampleOptions, programOptions, List.map_cons, List.map_nil, List.cons_append, List.nil_append, List.mem_cons,
    List.not_mem_nil, or_false] at ho
  rcases ho with rfl | rfl | rfl | rfl | rfl <;> simp at hd <;> subst hd <;> decide

/-- A run with `--N=32` starts, and its response file can be used by a second run: the hypotheses of C68-C71 can be met. -/
theorem example_run (env : Env) (fs : FS) : ∃ a, construct exampleOptions (fun _ _ => true) env fs [['-', '-', 'N', '=', '3', '2']] =
    .val (some (.app a)) ∧ parameter a ['N'] = some ['3', '2'] ∧ parameter a responseFileName = none ∧ a.responsePath = ['p', '.', 'r', 's', 'p'] ∧
    a.outputPath = ['p', '.', 't', 'x', 't'] ∧
    a.fs a.responsePath = some "--N=32\n--out=p.txt\n".toList := by
  have hp : parseArgs exampleOptions [['-', '-', 'N', '=', '3', '2']] = some [⟨['N'], [['3', '2']]⟩] := by
    have := parseArgs_longArg example_good [(['N'], ['3', '2'])] (by decide) []
    simpa [longArg, parseArgs] using this
  have hs : ∃ vm, store exampleOptions (fun _ _ => true) [⟨['N'], [['3', '2']]⟩] VM.empty = some vm := ⟨_, rfl⟩
  obtain ⟨vm, hs⟩ := hs
  have hh : Holds (defaultOf exampleOptions) [⟨['N'], [['3', '2']]⟩] vm := store_holds (src := []) (fun k => Or.inl rfl) holds_empty hs
  have v1 : vm.value helpName = none := by rw [hh.value _ (by decide)]; rfl
  have v2 : vm.value versionName = none := by rw [hh.value _ (by decide)]; rfl
  have v3 : vm.value outName = some ⟨['p', '.', 't', 'x', 't'], true⟩ := by rw [hh.value _ (by decide)]; rfl
  have v4 : vm.value responseFileName = none := by rw [hh.value _ (by decide)]; rfl
  have v5 : vm.value ['N'] = some ⟨['3', '2'], false⟩ := by rw [hh.value _ (by decide)]; rfl
  have h1 : changeExtension ['p', '.', 't', 'x', 't'] ['.', 'r', 's', 'p'] = ['p', '.', 'r', 's', 'p'] := by decide
  unfold construct parseCommandLineOptions
  rw [hp]
  simp only [Option.bind_some, hs, Option.map_some, v1, v2, v3, v4, Option.isSome_none, Bool.false_eq_true, if_false]
  refine ⟨_, rfl, by simp [parameter, v5], by simp [parameter, v4], h1, rfl, ?_⟩
  simp only [FS.set, h1]
  rw [if_neg (by decide), if_true]
  decide

/-- The second run of the example: it sees `N = 32`, and its header says `N = 16`. -/
theorem example_second (env env' : Env) (fs fs' : FS) (hfs' : fs' ['p', '.', 'r', 's', 'p'] = some "--N=32\n--out=p.txt\n".toList) :
    ∃ b all, construct exampleOptions (fun _ _ => true) env' fs' [longArg (responseFileName, ['p', '.', 'r', 's', 'p'])] =
      .val (some (.app b)) ∧ parameter b ['N'] = some ['3', '2'] ∧
      b.fs b.outputPath = some (headerText env'.platform all) ∧ (['N'], ['1', '6']) ∈ all ∧ (['N'], ['3', '2']) ∉ all := by
  obtain ⟨a, ha, hN, hno, hrp, hop, hf⟩ := example_run env fs
  have hp : parseArgs exampleOptions [['-', '-', 'N', '=', '3', '2']] = some [⟨['N'], [['3', '2']]⟩] := by
    have := parseArgs_longArg example_good [(['N'], ['3', '2'])] (by decide) []
    simpa [longArg, parseArgs] using this
  obtain ⟨b, hb, hpar⟩ := response_file_reproduces (env' := env') (fs' := fs') example_good ha hno
    (by
      intro cmd hcmd
      rw [hp] at hcmd
      obtain rfl := Option.some.inj hcmd
      decide) (by rw [hrp, hop]; decide) (by rw [hf, hrp, hfs']) rfl
    (by
      intro d hd
      have : defaultOf exampleOptions outName = some ['p', '.', 't', 'x', 't'] := by decide
      rw [this] at hd
      obtain rfl := Option.some.inj hd
      rw [hrp]; decide)
  rw [hrp] at hb
  have hp2 : parseArgs exampleOptions [longArg (responseFileName, ['p', '.', 'r', 's', 'p'])] =
      some [⟨responseFileName, [['p', '.', 'r', 's', 'p']]⟩] := by
    have := parseArgs_longArg example_good [(responseFileName, ['p', '.', 'r', 's', 'p'])] (by decide) []
    simpa [parseArgs] using this
  have hl : lines "--N=32\n--out=p.txt\n".toList = [(['N'], ['3', '2']), (outName, ['p', '.', 't', 'x', 't'])].map longArg ++ [[]] := by decide
  have hp3 : parseArgs exampleOptions (lines "--N=32\n--out=p.txt\n".toList) =
      some [⟨['N'], [['3', '2']]⟩, ⟨outName, [['p', '.', 't', 'x', 't']]⟩, ⟨[], [[]]⟩] := by
    rw [hl, parseArgs_longArg example_good _ (by decide)]
    simp [parseArgs]
  obtain ⟨cmd₃, hp₃, ho⟩ := output_path_eq hb
  rw [hp2] at hp₃
  obtain rfl := Option.some.inj hp₃
  have hout : b.outputPath = ['p', '.', 't', 'x', 't'] := by
    have : (given [(⟨responseFileName, [['p', '.', 'r', 's', 'p']]⟩ : Parsed)] outName).or (defaultOf exampleOptions outName) =
        some ['p', '.', 't', 'x', 't'] := by decide
    rw [this] at ho
    exact (Option.some.inj ho).symm
  have hlog : b.logPath = ['p', '.', 'l', 'o', 'g'] := by
    obtain ⟨_, _, -, -, -, -, -, -, -, hl, -⟩ := construct_app hb
    rw [hl, hout]; decide
  obtain ⟨h1, all, h2, h3, h4⟩ := header_wrong example_good hb hp2 (path := ['p', '.', 'r', 's', 'p']) (by decide) (by rw [hlog]; decide)
    hfs' hp3 (k := ['N']) (v := ['3', '2']) (d := ['1', '6']) (by decide) (by decide) (by decide) (by decide) (by decide)
  exact ⟨b, all, hb, h1, h2, h3, h4⟩

end Ieompp.App
