import Verif.Props.ProgramOptions
import Verif.Props.CleanOutput
import Verif.Props.Checkpoint

/-!
# C78: continuing from a checkpoint
-/

set_option autoImplicit false
set_option linter.unusedSectionVars false

namespace Ieompp.App

open IO Spec

variable {V : Type*}

/-- **C78** refuted: the option `--checkpoint=<path>`, which the help text of every program announces, is not declared; a program
called with it terminates with an exception, whatever else is on the command line (behind settings that parse). -/
theorem checkpoint_option_rejected {p : Prog} (hp : p ∈ programs) {valid : Text → Text → Bool} (hv : ∀ o ∈ p.own, valid o.1 o.2 = true)
    (ho : valid "out".toList (p.name ++ ".txt".toList) = true) (env : Env) (fs : FS) (pre : List (Text × Text))
    (hpre : ∀ o ∈ pre, o.2 ≠ [] ∧ (o.1 = "out".toList ∨ o.1 ∈ p.own.map Prod.fst)) (path : Text) (rest : List Text) :
    construct p.options valid env fs ((pre.map fun o => "--".toList ++ o.1 ++ "=".toList ++ o.2) ++ ("--checkpoint=".toList ++ path) :: rest) =
      .val none := by
  have eo : "out".toList = outName := by decide
  have et : ".txt".toList = ['.', 't', 'x', 't'] := by decide
  have el : ∀ o : Text × Text, "--".toList ++ o.1 ++ "=".toList ++ o.2 = longArg o := by
    intro o
    rw [show "--".toList = ['-', '-'] by decide, show "=".toList = ['='] by decide]; rfl
  simp only [el, eo, et] at ho hpre ⊢
  have hg := programs_good hp hv ho
  have hall : ∀ o ∈ pre, o.2 ≠ [] ∧ (o.1 = [] ∨ ∃ x ∈ p.options, x.name = o.1 ∧ x.takesValue = true) := by
    intro o ho'
    refine ⟨(hpre o ho').1, Or.inr ?_⟩
    rcases (hpre o ho').2 with h3 | h3
    · obtain ⟨d, hd⟩ := hg.out
      exact ⟨_, hd, h3.symm, rfl⟩
    · obtain ⟨x, hx, e⟩ := List.mem_map.1 h3
      refine ⟨⟨x.1, true, some x.2⟩, ?_, e, rfl⟩
      simp only [Prog.options, programOptions, List.mem_append, List.mem_map]
      exact Or.inr ⟨x, hx, rfl⟩
  have hfind : find p.options checkpointName = none := by
    simp only [programs, List.mem_cons, List.not_mem_nil, or_false] at hp
    rcases hp with rfl | rfl | rfl | rfl | rfl | rfl | rfl <;> decide
  have hnone : parseArgs p.options (("--checkpoint=".toList ++ path) :: rest) = none := by
    rw [show "--checkpoint=".toList ++ path = '-' :: '-' :: (checkpointName ++ '=' :: path) by
      rw [show "--checkpoint=".toList = '-' :: '-' :: (checkpointName ++ ['=']) by decide]; simp]
    have ht : (checkpointName ++ '=' :: path).takeWhile (· ≠ '=') = checkpointName := by
      rw [List.takeWhile_append_of_pos (by decide)]; simp
    have hd : (checkpointName ++ '=' :: path).dropWhile (· ≠ '=') = '=' :: path := by
      rw [List.dropWhile_append_of_pos (by decide)]; simp
    rw [parseArgs, if_neg (by simp), if_pos (by simp [List.isPrefixOf])]
    simp only [List.drop_succ_cons, List.drop_zero, hd, ht]
    split_ifs with h1 h2
    · rfl
    · exact absurd h2 (by decide)
    · rw [hfind]
  unfold construct parseCommandLineOptions
  rw [parseArgs_longArg hg pre hall, hnone]
  rfl

/-- **C78** refuted: hence a program that started cannot read a checkpoint; `read_vector_from_checkpoint` throws, with every command
line and every response file. -/
theorem restart_throws {p : Prog} (hp : p ∈ programs) {valid : Text → Text → Bool} {env : Env} {fs disk : FS} {args : List Text} {a : App}
    (h : construct p.options valid env fs args = .val (some (.app a))) (deser : List Char → Option V) :
    readVectorFromCheckpoint deser a disk = .val none := by
  have hno : ∀ o ∈ p.options, o.name ≠ checkpointName := by
    simp only [programs, List.mem_cons, List.not_mem_nil, or_false] at hp
    rcases hp with rfl | rfl | rfl | rfl | rfl | rfl | rfl <;> decide
  have hdef : defaultOf p.options checkpointName = none := by
    unfold defaultOf
    rw [List.findSome?_eq_none_iff]
    intro o ho
    rw [if_neg (hno o ho)]
  have hdefr : defaultOf p.options responseFileName = none := by
    simp only [programs, List.mem_cons, List.not_mem_nil, or_false] at hp
    rcases hp with rfl | rfl | rfl | rfl | rfl | rfl | rfl <;> decide
  have hgiven : ∀ {ts : List Text} {cmd : List Parsed}, parseArgs p.options ts = some cmd → given cmd checkpointName = none := by
    intro ts cmd hc
    cases hgv : given cmd checkpointName with
    | none => rfl
    | some t =>
      obtain ⟨q, hq, e⟩ := given_isSome.1 (by rw [hgv]; rfl : (given cmd checkpointName).isSome = true)
      rcases parseArgs_sound hc q hq with h' | h'
      · rw [e] at h'; exact absurd h'.1 (by decide)
      · obtain ⟨o, ho, h', -⟩ := h'
        exact absurd (h'.symm.trans e) (hno o ho)
  obtain ⟨cmd, rsp, hc, hr, hpar⟩ := construct_precedence h hdefr
  have hrsp : given rsp checkpointName = none := by
    cases hgr : given cmd responseFileName with
    | none => rw [hgr] at hr; simp only at hr; rw [hr]; rfl
    | some path =>
      rw [hgr] at hr
      obtain ⟨content, -, hx⟩ := hr
      exact hgiven hx
  have hp' := hpar checkpointName (by decide)
  rw [hgiven hc, hrsp, hdef] at hp'
  unfold readVectorFromCheckpoint
  cases hval : a.vars.value checkpointName with
  | none => rfl
  | some v => rw [parameter, hval] at hp'; simp at hp'

/-- Every line of an initial part of a text is the initial part of a line. -/
theorem lines_prefix {w s : Text} (h : w <+: s) : ∀ l ∈ lines w, ∃ l' ∈ lines s, l <+: l' := by
  obtain ⟨t, rfl⟩ := h
  have head : ∀ t : Text, ∃ l ls, lines t = l :: ls := by
    intro t
    cases h : lines t with
    | nil => exact absurd h (lines_ne_nil t)
    | cons l ls => exact ⟨l, ls, rfl⟩
  have key : ∀ w : Text, ∃ l ls, lines w = l :: ls ∧ ∃ l' ls', lines (w ++ t) = l' :: ls' ∧ l <+: l' ∧ ∀ x ∈ ls, ∃ x' ∈ ls', x <+: x' := by
    intro w
    induction w with
    | nil =>
      obtain ⟨l, ls, e⟩ := head t
      exact ⟨[], [], rfl, l, ls, e, List.nil_prefix, by simp⟩
    | cons c w ih =>
      obtain ⟨l, ls, e, l', ls', e', h1, h2⟩ := ih
      rw [List.cons_append]
      simp only [lines]
      split_ifs with hc
      · refine ⟨[], lines w, rfl, [], lines (w ++ t), rfl, List.nil_prefix, ?_⟩
        rw [e, e']
        intro x hx
        rcases List.mem_cons.1 hx with rfl | hx
        · exact ⟨l', List.mem_cons_self, h1⟩
        · obtain ⟨x', hx', h⟩ := h2 x hx
          exact ⟨x', List.mem_cons_of_mem _ hx', h⟩
      · rw [e, e']
        exact ⟨c :: l, ls, rfl, c :: l', ls', rfl, by simpa using h1, h2⟩
  obtain ⟨l, ls, e, l', ls', e', h1, h2⟩ := key w
  rw [e, e']
  intro x hx
  rcases List.mem_cons.1 hx with rfl | hx
  · exact ⟨l', List.mem_cons_self, h1⟩
  · obtain ⟨x', hx', h⟩ := h2 x hx
    exact ⟨x', List.mem_cons_of_mem _ hx', h⟩

/-- An initial part of a skippable line is skippable. -/
theorem skippable_prefix {l l' : Text} (h : l <+: l') (hs : isSkippableLine l') : isSkippableLine l := by
  rw [isSkippableLine_iff] at hs ⊢
  rcases hs with hs | ⟨ws, r, rfl, hb, hr⟩
  · left
    exact fun c hc => hs c (h.subset hc)
  · rcases le_total l.length ws.length with hlen | hlen
    · left
      have := List.prefix_of_prefix_length_le h (List.prefix_append ws ('#' :: r)) hlen
      exact fun c hc => hb c (this.subset hc)
    · obtain ⟨t, rfl⟩ := List.prefix_of_prefix_length_le (List.prefix_append ws ('#' :: r)) h hlen
      rw [List.prefix_append_right_inj] at h
      cases t with
      | nil => left; simpa using hb
      | cons c t =>
        obtain ⟨rfl, ht⟩ := List.cons_prefix_cons.1 h
        exact Or.inr ⟨ws, t, rfl, hb, fun x hx => hr x (ht.subset hx)⟩

theorem skippable_not_data {l : Text} (hs : isSkippableLine l) : ¬ IsData l := by
  rw [isSkippableLine_iff] at hs
  rintro ⟨h1, h2⟩
  rcases hs with hs | ⟨ws, r, e, hb, -⟩
  · exact h1 hs
  · exact h2 ⟨ws, r, e, hb⟩

/-- The header of a run consists of comments when no argument, option name or platform text contains a line break. -/
theorem started_header {opts : List Opt} {valid : Text → Text → Bool} (hg : GoodOptions opts valid) {env : Env} {fs : FS} {args : List Text}
    {a : App} (h : construct opts valid env fs args = .val (some (.app a))) (hname : ∀ o ∈ opts, '\r' ∉ o.name)
    (hval : ∀ cmd, parseArgs opts args = some cmd → ∀ p ∈ cmd, ∀ v ∈ p.value, '\n' ∉ v ∧ '\r' ∉ v)
    (hplat : ∀ l ∈ env.platform, ∀ c ∈ l.1 ++ l.2, c ≠ '\n' ∧ c ≠ '\r') :
    ∃ hdr, a.fs a.outputPath = some hdr ∧ ∀ l ∈ lines hdr, isSkippableLine l := by
  obtain ⟨cmd, vm, hp, hs, hh, -, -, -, -, -, -, -, hm⟩ := construct_app h
  refine ⟨headerText env.platform (allOptions opts cmd), ?_, header_comments hplat ?_⟩
  · split at hm
    · obtain ⟨_, _, _, hf⟩ := hm
      rw [hf, FS.set, if_pos rfl]
    · rw [hm.2, FS.set, if_pos rfl]
  · have fin : ∀ {t : Text}, '\n' ∉ t → '\r' ∉ t → ∀ c ∈ t, c ≠ '\n' ∧ c ≠ '\r' := by
      intro t h1 h2 c hc
      exact ⟨fun e => h1 (e ▸ hc), fun e => h2 (e ▸ hc)⟩
    intro o ho c hc
    unfold allOptions at ho
    rcases List.mem_append.1 ho with ho | ho
    · obtain ⟨p, hpc, hpv⟩ := List.mem_flatMap.1 ho
      obtain ⟨v, hv, rfl⟩ := List.mem_map.1 hpv
      rcases List.mem_append.1 hc with hc | hc
      · rcases parseArgs_sound hp p hpc with ⟨hk, -⟩ | ⟨x, hx, hk, -⟩
        · simp only [hk, List.not_mem_nil] at hc
        · exact fin (t := p.key) (by rw [hk]; exact (hg.name x hx).2.2) (by rw [hk]; exact hname x hx) c hc
      · exact fin (hval cmd hp p hpc v hv).1 (hval cmd hp p hpc v hv).2 c hc
    · obtain ⟨x, hx, hxo⟩ := List.mem_filterMap.1 ho
      split_ifs at hxo
      cases hd : x.default with
      | none => rw [hd] at hxo; simp at hxo
      | some d =>
        rw [hd] at hxo
        simp only at hxo
        split_ifs at hxo with hre
        obtain rfl := Option.some.inj hxo
        rcases List.mem_append.1 hc with hc | hc
        · exact fin (hg.name x hx).2.2 (hname x hx) c hc
        · simp only [regexDefault, Bool.and_eq_true, Bool.not_eq_true', List.contains_eq_mem, decide_eq_false_iff_not] at hre
          exact fin hre.1.2 hre.2 c hc

/-- **C78** refuted: starting a program deletes the rows which an earlier run has written to the output file ... -/
theorem restart_loses_rows {opts : List Opt} {valid : Text → Text → Bool} (hg : GoodOptions opts valid) {env : Env} {fs : FS} {args : List Text}
    {a : App} (h : construct opts valid env fs args = .val (some (.app a))) (hname : ∀ o ∈ opts, '\r' ∉ o.name)
    (hval : ∀ cmd, parseArgs opts args = some cmd → ∀ p ∈ cmd, ∀ v ∈ p.value, '\n' ∉ v ∧ '\r' ∉ v)
    (hplat : ∀ l ∈ env.platform, ∀ c ∈ l.1 ++ l.2, c ≠ '\n' ∧ c ≠ '\r') {flushed hdr : Text} (hhdr : a.fs a.outputPath = some hdr)
    (hfl : flushed <+: hdr) : ∃ content, a.disk flushed a.outputPath = some content ∧ ∀ l ∈ lines content, isSkippableLine l ∧ ¬ IsData l := by
  obtain ⟨hdr', e, hs⟩ := started_header hg h hname hval hplat
  rw [hhdr] at e
  obtain rfl := Option.some.inj e
  refine ⟨flushed, by simp [App.disk, FS.set], fun l hl => ?_⟩
  obtain ⟨l', hl', hpre⟩ := lines_prefix hfl l hl
  have := skippable_prefix hpre (hs l' hl')
  exact ⟨this, skippable_not_data this⟩

/-- ... and if the option `checkpoint` were declared, reading the checkpoint would hang: `read_vector_from_checkpoint` calls
`clean_output_file` for the fixed number of 42 rows on the output file which the program has just truncated. -/
theorem restart_hangs {opts : List Opt} {valid : Text → Text → Bool} (hg : GoodOptions opts valid) {env : Env} {fs : FS} {args : List Text}
    {a : App} (h : construct opts valid env fs args = .val (some (.app a))) (hname : ∀ o ∈ opts, '\r' ∉ o.name)
    (hval : ∀ cmd, parseArgs opts args = some cmd → ∀ p ∈ cmd, ∀ v ∈ p.value, '\n' ∉ v ∧ '\r' ∉ v)
    (hplat : ∀ l ∈ env.platform, ∀ c ∈ l.1 ++ l.2, c ≠ '\n' ∧ c ≠ '\r') {flushed hdr : Text} (hhdr : a.fs a.outputPath = some hdr)
    (hfl : flushed <+: hdr) {path : Text} (hck : parameter a "checkpoint".toList = some path) (deser : List Char → Option V) {v : V}
    (hread : readCheckpoint deser (a.disk flushed) path = some v) :
    readVectorFromCheckpoint deser a (a.disk flushed) = .diverges := by
  obtain ⟨content, hc, hl⟩ := restart_loses_rows hg h hname hval hplat hhdr hfl
  rw [← option_names.2.2.2.2] at hck
  unfold readVectorFromCheckpoint
  cases hx : a.vars.value checkpointName with
  | none => rw [parameter, hx] at hck; simp at hck
  | some c =>
    rw [parameter, hx] at hck
    obtain rfl := Option.some.inj hck
    simp only [hread]
    rw [cleanOutputFile_diverges hc (entries := 42) ?_ (hl _ (List.getLast_mem _)).1]
    · rfl
    · have : dataCount (lines content) = 0 := by
        unfold dataCount
        rw [List.countP_eq_zero]
        intro l hm
        simpa using (hl l hm).1
      omega

/-- The checkpoint itself can be read: the vector is the one stored, and no error is caused by the start of the program, provided
the checkpoint file is none of the files which the start writes. -/
theorem restart_reads_partial {opts : List Opt} {valid : Text → Text → Bool} {env : Env} {fs : FS} {args : List Text}
    {a : App} (h : construct opts valid env fs args = .val (some (.app a))) {flushed : Text} {ser : V → List Char}
    {deser : List Char → Option V} (hdeser : ∀ v, deser (ser v) = some v) {path : Text} {v : V} (hpath : fs path = some (ser v))
    (h1 : path ≠ a.outputPath) (h2 : path ≠ a.logPath) (h3 : path ≠ a.responsePath) :
    readCheckpoint deser (a.disk flushed) path = some v := by
  have : a.disk flushed path = some (ser v) := by
    obtain ⟨cmd, vm, -, -, -, -, -, -, hr, hlg, -, -, hm⟩ := construct_app h
    rw [App.disk, FS.set, if_neg h1]
    split at hm
    · obtain ⟨_, _, _, hf⟩ := hm
      rw [hf, FS.set, if_neg h1, FS.set, if_neg h2, hpath]
    · rw [hm.2, FS.set, if_neg h1, FS.set, if_neg h3, FS.set, if_neg h2, hpath]
  rw [readCheckpoint, this]
  exact hdeser v

/-! ### Examples -/

/-- A program with the option `checkpoint`. -/
def restartOptions : List Opt := programOptions ['p'] [(checkpointName, ['c'])]

/-- The hypotheses of `restart_hangs` can be met: a program with the option `checkpoint`, started without arguments. -/
theorem example_restart (fs : FS) (hfs : fs ['c'] = some ['x']) :
    ∃ a hdr, construct restartOptions (fun _ _ => true) ⟨[], []⟩ fs [] = .val (some (.app a)) ∧ a.fs a.outputPath = some hdr ∧
      readCheckpoint (fun t => some t) (a.disk hdr) ['c'] = some ['x'] ∧
      readVectorFromCheckpoint (fun t => some t) a (a.disk hdr) = .diverges := by
  have hg : GoodOptions restartOptions (fun _ _ => true) :=
    programOptions_good (by decide) (by decide) (by decide) (by decide) (by decide) rfl
  obtain ⟨a, ha, hpar⟩ := command_line_starts hg ⟨[], []⟩ fs [] (by simp) (by simp)
  have hval : ∀ cmd, parseArgs restartOptions [] = some cmd → ∀ p ∈ cmd, ∀ v ∈ p.value, '\n' ∉ v ∧ '\r' ∉ v := by
    intro cmd hc
    simp only [parseArgs, Option.some.injEq] at hc
    subst hc; simp
  obtain ⟨hdr, hh, -⟩ := started_header hg ha (by decide) hval (by simp)
  have hck : parameter a "checkpoint".toList = some ['c'] := by
    rw [hpar _ (by decide)]; decide
  have ho : a.outputPath = ['p', '.', 't', 'x', 't'] := by
    obtain ⟨cmd, hc, h⟩ := output_path_eq ha
    simp only [List.map_nil, parseArgs, Option.some.injEq] at hc
    subst hc
    have : (given [] outName).or (defaultOf restartOptions outName) = some ['p', '.', 't', 'x', 't'] := by decide
    rw [this] at h
    exact (Option.some.inj h).symm
  have hread : readCheckpoint (fun t => some t) (a.disk hdr) ['c'] = some ['x'] := by
    obtain ⟨_, _, -, -, -, -, -, -, hr, hl, -⟩ := construct_app ha
    refine restart_reads_partial (ser := fun t => t) ha (fun _ => rfl) hfs (by rw [ho]; decide) (by rw [hl, ho]; decide) (by rw [hr, ho]; decide)
  exact ⟨a, hdr, ha, hh, hread, restart_hangs hg ha (by decide) hval (by simp) hh List.prefix_rfl hck _ hread⟩

/-- A run of one of the programs with two settings. -/
example (env : Env) (fs : FS) : ∃ a, construct progReal1dRk4.options (fun _ _ => true) env fs
    [['-', '-', 'N', '=', '3', '2'], ['-', '-', 'o', 'u', 't', '=', 'x']] = .val (some (.app a)) ∧
    parameter a ['N'] = some ['3', '2'] ∧ parameter a ['U'] = some ['1'] ∧ a.outputPath = ['x'] := by
  obtain ⟨a, ha, h1, h2, h3, -⟩ := program_starts (p := progReal1dRk4) (by simp [programs]) (valid := fun _ _ => true) (by decide) rfl env fs
    [(['N'], ['3', '2']), ("out".toList, ['x'])] (by decide) (by decide)
  refine ⟨a, ?_, h1 (['N'], ['3', '2']) (by decide), h2 (['U'], ['1']) (by decide) (by decide), h3 ['x'] (by decide)⟩
  rw [← ha]
  congr 1

end Ieompp.App
