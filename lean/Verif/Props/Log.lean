import Verif.Model.LogCalls
import Verif.Spec.Log
import Verif.Props.Durability

/-! # C100, C101: the log -/

set_option autoImplicit false
set_option linter.unusedSectionVars false

namespace Ieompp.Log

open IO (Text)
open Sim
open Ieompp.Spec.Log

/-! ## The formatter -/

theorem format_spec_append (s cs : Text) (acc : Text) (args : List Arg) (h1 : '{' ∉ s) (h2 : '}' ∉ s) :
    format (.spec acc) (s ++ cs) args = format (.spec (acc ++ s)) cs args := by
  induction s generalizing acc with
  | nil => simp
  | cons c s ih =>
    simp only [List.mem_cons, not_or] at h1 h2
    rw [List.cons_append, format, if_neg (Ne.symm h2.1), if_neg (Ne.symm h1.1), ih _ h1.2 h2.2]
    simp

/-- Formatting the format string of a template fills it in. -/
theorem format_source (ps : List Piece) (hps : ∀ p ∈ ps, p.WF) (args : List Arg) :
    format .text (source ps) args = fill ps args := by
  induction ps generalizing args with
  | nil => rfl
  | cons p ps ih =>
    have ih := fun args => ih (fun q hq => hps q (List.mem_cons_of_mem _ hq)) args
    have hp := hps p (List.mem_cons_self ..)
    have e : source (p :: ps) = p.source ++ source ps := by simp [source]
    rw [e]
    cases p with
    | lit c =>
      by_cases h1 : c = '{'
      · subst h1; simp [Piece.source, format, fill, ih, useArg]
      · by_cases h2 : c = '}'
        · subst h2; simp [Piece.source, format, fill, ih, useArg]
        · simp [Piece.source, format, fill, ih, h1, h2]
    | hole s =>
      cases s with
      | none =>
        cases args with
        | nil => simp [Piece.source, format, fill, useArg]
        | cons a as => simp [Piece.source, format, fill, ih, useArg]
      | some s =>
        have e2 : (Piece.hole (some s)).source ++ source ps = '{' :: ':' :: (s ++ ('}' :: source ps)) := by
          simp [Piece.source]
        rw [e2, format, if_pos rfl, format, if_neg (by decide), if_pos rfl, format_spec_append _ _ _ _ hp.1 hp.2,
          List.nil_append, format, if_pos rfl]
        cases args with
        | nil => simp [fill, useArg]
        | cons a as => simp [fill, ih, useArg]

/-- Whatever is formatted is the format string of a template. -/
theorem format_parse (cs : Text) : ∀ (args : List Arg) (t : Text),
    (format .text cs args = some t → ∃ ps : List Piece, (∀ p ∈ ps, p.WF) ∧ source ps = cs) ∧
    (format .opened cs args = some t → ∃ ps : List Piece, (∀ p ∈ ps, p.WF) ∧ source ps = '{' :: cs) ∧
    (∀ acc, '{' ∉ acc → '}' ∉ acc → format (.spec acc) cs args = some t →
      ∃ ps : List Piece, (∀ p ∈ ps, p.WF) ∧ source ps = '{' :: ':' :: (acc ++ cs)) ∧
    (format .closed cs args = some t → ∃ ps : List Piece, (∀ p ∈ ps, p.WF) ∧ source ps = '}' :: cs) := by
  have ext : ∀ (p : Piece) (ps : List Piece), p.WF → (∀ q ∈ ps, q.WF) → ∀ q ∈ p :: ps, q.WF := by
    intro p ps h1 h2 q hq
    rcases List.mem_cons.1 hq with rfl | hq
    · exact h1
    · exact h2 q hq
  induction cs with
  | nil =>
    intro args t
    refine ⟨fun _ => ⟨[], by simp, rfl⟩, ?_, ?_, ?_⟩
    · simp [format]
    · simp [format]
    · simp [format]
  | cons c cs ih =>
    intro args t
    refine ⟨?_, ?_, ?_, ?_⟩
    · intro h
      rw [format] at h
      split_ifs at h with h1 h2
      · subst h1; exact (ih args t).2.1 h
      · subst h2; exact (ih args t).2.2.2 h
      · obtain ⟨u, hu, -⟩ := Option.map_eq_some_iff.1 h
        obtain ⟨ps, hw, hs⟩ := (ih args u).1 hu
        exact ⟨.lit c :: ps, ext _ _ trivial hw, by simp [source, Piece.source, h1, h2, ← hs]⟩
    · intro h
      rw [format] at h
      split_ifs at h with h1 h2 h3
      · obtain ⟨u, hu, -⟩ := Option.map_eq_some_iff.1 h
        obtain ⟨ps, hw, hs⟩ := (ih args u).1 hu
        exact ⟨.lit '{' :: ps, ext _ _ trivial hw, by simp [source, Piece.source, h1, ← hs]⟩
      · obtain ⟨ps, hw, hs⟩ := (ih args t).2.2.1 [] (by simp) (by simp) h
        exact ⟨ps, hw, by rw [hs, h2]; rfl⟩
      · cases args with
        | nil => simp [useArg] at h
        | cons a as =>
          simp only [useArg, Option.bind_eq_some_iff] at h
          obtain ⟨v, -, h⟩ := h
          obtain ⟨u, hu, -⟩ := Option.map_eq_some_iff.1 h
          obtain ⟨ps, hw, hs⟩ := (ih as u).1 hu
          exact ⟨.hole none :: ps, ext _ _ trivial hw, by simp [source, Piece.source, h3, ← hs]⟩
    · intro acc ha1 ha2 h
      rw [format] at h
      split_ifs at h with h1 h2
      · cases args with
        | nil => simp [useArg] at h
        | cons a as =>
          simp only [useArg, Option.bind_eq_some_iff] at h
          obtain ⟨v, -, h⟩ := h
          obtain ⟨u, hu, -⟩ := Option.map_eq_some_iff.1 h
          obtain ⟨ps, hw, hs⟩ := (ih as u).1 hu
          exact ⟨.hole (some acc) :: ps, ext _ _ ⟨ha1, ha2⟩ hw, by simp [source, Piece.source, h1, ← hs]⟩
      · obtain ⟨ps, hw, hs⟩ := (ih args t).2.2.1 (acc ++ [c]) (by simp [ha1, Ne.symm h2]) (by simp [ha2, Ne.symm h1]) h
        exact ⟨ps, hw, by rw [hs]; simp⟩
    · intro h
      rw [format] at h
      split_ifs at h with h1
      obtain ⟨u, hu, -⟩ := Option.map_eq_some_iff.1 h
      obtain ⟨ps, hw, hs⟩ := (ih args u).1 hu
      exact ⟨.lit '}' :: ps, ext _ _ trivial hw, by simp [source, Piece.source, h1, ← hs]⟩

/-- **C101**: a text is formatted exactly if it is the format string of a template which the arguments fill, and then the
result is the filled template. -/
theorem format_iff (fmt : Text) (args : List Arg) (t : Text) :
    format .text fmt args = some t ↔
      ∃ ps : List Piece, (∀ p ∈ ps, p.WF) ∧ source ps = fmt ∧ fill ps args = some t := by
  constructor
  · intro h
    obtain ⟨ps, hw, hs⟩ := (format_parse fmt args t).1 h
    exact ⟨ps, hw, hs, by rw [← format_source ps hw, hs, h]⟩
  · rintro ⟨ps, hw, rfl, h⟩
    rw [format_source ps hw, h]

theorem fill_lits (cs : Text) (args : List Arg) : fill (cs.map Piece.lit) args = some cs := by
  induction cs with
  | nil => rfl
  | cons c cs ih => simp [fill, ih]

theorem source_lits (cs : Text) (h1 : '{' ∉ cs) (h2 : '}' ∉ cs) : source (cs.map Piece.lit) = cs := by
  induction cs with
  | nil => rfl
  | cons c cs ih =>
    simp only [List.mem_cons, not_or] at h1 h2
    have := ih h1.2 h2.2
    simp only [source, List.map_cons, List.flatMap_cons] at this ⊢
    rw [this]
    simp [Piece.source, Ne.symm h1.1, Ne.symm h2.1]

theorem fill_length (ps : List Piece) (t : Text) (h : fill ps [] = some t) :
    t.length + t.count '{' + t.count '}' = (source ps).length := by
  induction ps generalizing t with
  | nil => simp only [fill, Option.some.injEq] at h; subst h; rfl
  | cons p ps ih =>
    cases p with
    | hole s => simp [fill] at h
    | lit c =>
      simp only [fill] at h
      obtain ⟨u, hu, rfl⟩ := Option.map_eq_some_iff.1 h
      have := ih u hu
      have e : source (Piece.lit c :: ps) = (Piece.lit c).source ++ source ps := by simp [source]
      rw [e, List.length_append, ← this]
      by_cases h1 : c = '{'
      · subst h1; simp [Piece.source]; omega
      · by_cases h2 : c = '}'
        · subst h2; simp [Piece.source]; omega
        · simp [Piece.source, h1, h2]; omega

/-- **C101**: a message without arguments is logged literally by both kinds of loggers exactly if it has no braces. -/
theorem lone_message_iff (m : Text) : (∀ fs, info fs m [] = some m) ↔ '{' ∉ m ∧ '}' ∉ m := by
  constructor
  · intro h
    have h := h true
    have h : format .text m [] = some m := h
    obtain ⟨ps, hw, hs, hf⟩ := (format_iff _ _ _).1 h
    have := fill_length ps m hf
    rw [hs] at this
    exact ⟨List.count_eq_zero.1 (by omega), List.count_eq_zero.1 (by omega)⟩
  · rintro ⟨h1, h2⟩ fs
    cases fs with
    | false => rfl
    | true => exact (format_iff _ _ _).2 ⟨m.map Piece.lit, by simp [Piece.WF], source_lits m h1 h2, fill_lits m []⟩

/-! ## C100: the log of the time loop -/

variable {H O : Type*} {fs : Bool} {F : Formats} {T : Texts H O} {step : H → Res H} {measure : H → Res (H × O)} {dt tEnd : ℝ}
  {interval : ℕ} {h0 : H}

theorem maybeMeasureL_fst (s : Logged H O) :
    (maybeMeasureL fs F T measure dt interval s).map Prod.fst = maybeMeasureM measure dt interval s.1 := by
  unfold maybeMeasureL maybeMeasureM
  cases hasTimeIntervalPassed s.1.t s.1.last dt interval with
  | val b =>
    cases b with
    | false => simp
    | true =>
      simp only [Res.bind_val, if_true]
      cases measure s.1.h <;> rfl
  | ub => rfl
  | diverges => rfl

theorem bodyL_fst (s : Logged H O) :
    (bodyL fs F T step measure dt interval s).map Prod.fst = bodyM step measure dt interval s.1 := by
  unfold bodyL bodyM
  rw [← maybeMeasureL_fst (fs := fs) (F := F) (T := T)]
  cases maybeMeasureL fs F T measure dt interval s with
  | val s1 =>
    simp only [Res.bind_val, Res.map_val]
    cases step s1.1.h <;> rfl
  | ub => rfl
  | diverges => rfl

theorem mapL_bind_fst {x : Res (Logged H O)} {f : Logged H O → Res (Logged H O)} {g : State H O → Res (State H O)}
    (h : ∀ s, (f s).map Prod.fst = g s.1) : (x.bind f).map Prod.fst = (x.map Prod.fst).bind g := by
  cases x with
  | val s => exact h s
  | ub => rfl
  | diverges => rfl

/-- **C100**: logging changes nothing: without the log the program is the one of C45, C58, C60 and C61. -/
theorem simulateL_fst : (simulateL fs F T step measure dt tEnd interval h0).map Prod.fst =
    simulateM step measure dt tEnd interval h0 := by
  classical
  have hiter : ∀ (k : ℕ) (x : Res (Logged H O)),
      ((fun s : Res (Logged H O) => s.bind (bodyL fs F T step measure dt interval))^[k] x).map Prod.fst =
      (fun s : Res (State H O) => s.bind (bodyM step measure dt interval))^[k] (x.map Prod.fst) := by
    intro k
    induction k with
    | zero => intro x; rfl
    | succ k ih => intro x; rw [Function.iterate_succ_apply', Function.iterate_succ_apply', ← ih, mapL_bind_fst bodyL_fst]
  have hrun : ∀ x : Res (Logged H O), runningL tEnd x ↔ running tEnd (x.map Prod.fst) := by
    intro x; cases x <;> rfl
  have hwhile : ∀ x : Res (Logged H O),
      ((whileLoop (runningL tEnd) (fun s => s.bind (bodyL fs F T step measure dt interval)) x).bind id).map Prod.fst =
      (whileLoop (running tEnd) (fun s => s.bind (bodyM step measure dt interval)) (x.map Prod.fst)).bind id := by
    intro x
    unfold whileLoop
    have hex : ∀ n, ¬ runningL tEnd ((fun s : Res (Logged H O) => s.bind (bodyL fs F T step measure dt interval))^[n] x) ↔
        ¬ running tEnd ((fun s : Res (State H O) => s.bind (bodyM step measure dt interval))^[n] (x.map Prod.fst)) := by
      intro n; rw [hrun, hiter]
    by_cases h : ∃ n, ¬ runningL tEnd ((fun s : Res (Logged H O) => s.bind (bodyL fs F T step measure dt interval))^[n] x)
    · have h' : ∃ n, ¬ running tEnd ((fun s : Res (State H O) => s.bind (bodyM step measure dt interval))^[n] (x.map Prod.fst)) := by
        obtain ⟨n, hn⟩ := h; exact ⟨n, (hex n).1 hn⟩
      have hf : Nat.find h = Nat.find h' := Nat.find_congr' (fun {n} => hex n)
      rw [dif_pos h, dif_pos h', ← hf, Res.bind_val, Res.bind_val]
      exact hiter _ _
    · have h' : ¬ ∃ n, ¬ running tEnd ((fun s : Res (State H O) => s.bind (bodyM step measure dt interval))^[n] (x.map Prod.fst)) := by
        rintro ⟨n, hn⟩; exact h ⟨n, (hex n).2 hn⟩
      rw [dif_neg h, dif_neg h']; rfl
  unfold simulateL simulateM
  rw [mapL_bind_fst maybeMeasureL_fst, hwhile]
  unfold startL
  cases measure h0 with
  | val r => rfl
  | ub =>
    rw [Res.map, Res.map, (whileLoop_eq _ _ _).2 (by simp [running])]; rfl
  | diverges =>
    rw [Res.map, Res.map, (whileLoop_eq _ _ _).2 (by simp [running])]; rfl

theorem fill_append (cs : Text) (ps : List Piece) (args : List Arg) :
    fill (cs.map Piece.lit ++ ps) args = (fill ps args).map (cs ++ ·) := by
  induction cs with
  | nil => simp
  | cons c cs ih =>
    rw [List.map_cons, List.cons_append, fill, ih, Option.map_map]
    rfl

/-- A message with one place holder at the end. -/
theorem say_one {l : Logger} {f : String} {pre : Text} (h : f.toList = source (pre.map Piece.lit ++ [.hole none])) (t : Text) :
    say fs l f [t] = [(l, pre ++ t)] := by
  have hw : ∀ p ∈ pre.map Piece.lit ++ [Piece.hole none], p.WF := by
    intro p hp
    simp only [List.mem_append, List.mem_map, List.mem_singleton] at hp
    rcases hp with ⟨c, -, rfl⟩ | rfl <;> trivial
  have : info fs f.toList [Arg.plain t] = some (pre ++ t) := by
    show format .text _ _ = _
    rw [h, format_source _ hw, fill_append]
    simp [fill, Arg.plain]
  simp [say, this]

/-- A message with two place holders, the second at the end. -/
theorem say_two {l : Logger} {f : String} {pre mid : Text}
    (h : f.toList = source (pre.map Piece.lit ++ (.hole none :: (mid.map Piece.lit ++ [.hole none])))) (t u : Text) :
    say fs l f [t, u] = [(l, pre ++ t ++ mid ++ u)] := by
  have hw : ∀ p ∈ pre.map Piece.lit ++ (Piece.hole none :: (mid.map Piece.lit ++ [Piece.hole none])), p.WF := by
    intro p hp
    simp only [List.mem_append, List.mem_map, List.mem_cons, List.not_mem_nil, or_false] at hp
    rcases hp with ⟨c, -, rfl⟩ | rfl | ⟨c, -, rfl⟩ | rfl <;> trivial
  have : info fs f.toList [Arg.plain t, Arg.plain u] = some (pre ++ t ++ mid ++ u) := by
    show format .text _ _ = _
    rw [h, format_source _ hw, fill_append, fill, show Arg.plain t ((none : Option Text).getD []) = some t from rfl,
      Option.bind_some, fill_append, fill, show Arg.plain u ((none : Option Text).getD []) = some u from rfl,
      Option.bind_some, fill]
    simp
  simp [say, this]

/-- A message without place holder. -/
theorem say_none {l : Logger} {f : String} (h1 : '{' ∉ f.toList) (h2 : '}' ∉ f.toList) :
    say fs l f [] = [(l, f.toList)] := by
  simp [say, (lone_message_iff _).2 ⟨h1, h2⟩ fs]

/-- The programs with their messages, the name of the observable as the user reads it, and whether the first coefficient is
logged. -/
def programs : List (Formats × Option Text × Bool) :=
  [(formatsOccupation, some "<n_{0,↑}>".toList, true), (formatsKinetic, some "<n_{0,↑}>".toList, false),
   (formatsJump1D, some "<Δn_{k_F,↑}>".toList, false), (formatsJump2D, some "Δn_{k_F,↑}".toList, true),
   (formatsCoefficients, none, true)]

theorem programs_obs {name : Option Text} {first : Bool} (h : (F, name, first) ∈ programs) (t o x : Text) :
    sayOpt fs .main F.obs0 [o] =
      (name.toList.map fun n => (Logger.main, "  ".toList ++ n ++ "(".toList ++ "0".toList ++ ") = ".toList ++ o)) ∧
    sayOpt fs .main F.obs [t, o] =
      (name.toList.map fun n => (Logger.main, "  ".toList ++ n ++ "(".toList ++ t ++ ") = ".toList ++ o)) ∧
    sayOpt fs .main F.first [x] = if first then [(Logger.main, "h[0] = ".toList ++ x)] else [] := by
  have hf : say fs .main "h[0] = {}" [x] = [(Logger.main, "h[0] = ".toList ++ x)] := say_one (by decide) x
  simp only [programs, List.mem_cons, Prod.mk.injEq, List.not_mem_nil, or_false] at h
  rcases h with ⟨rfl, rfl, rfl⟩ | ⟨rfl, rfl, rfl⟩ | ⟨rfl, rfl, rfl⟩ | ⟨rfl, rfl, rfl⟩ | ⟨rfl, rfl, rfl⟩
  · exact ⟨say_one (pre := "  ".toList ++ "<n_{0,↑}>".toList ++ "(".toList ++ "0".toList ++ ") = ".toList) (by decide) o,
      say_two (pre := "  ".toList ++ "<n_{0,↑}>".toList ++ "(".toList) (mid := ") = ".toList) (by decide) t o, hf⟩
  · exact ⟨say_one (pre := "  ".toList ++ "<n_{0,↑}>".toList ++ "(".toList ++ "0".toList ++ ") = ".toList) (by decide) o,
      say_two (pre := "  ".toList ++ "<n_{0,↑}>".toList ++ "(".toList) (mid := ") = ".toList) (by decide) t o, rfl⟩
  · exact ⟨say_one (pre := "  ".toList ++ "<Δn_{k_F,↑}>".toList ++ "(".toList ++ "0".toList ++ ") = ".toList) (by decide) o,
      say_two (pre := "  ".toList ++ "<Δn_{k_F,↑}>".toList ++ "(".toList) (mid := ") = ".toList) (by decide) t o, rfl⟩
  · exact ⟨say_one (pre := "  ".toList ++ "Δn_{k_F,↑}".toList ++ "(".toList ++ "0".toList ++ ") = ".toList) (by decide) o,
      say_two (pre := "  ".toList ++ "Δn_{k_F,↑}".toList ++ "(".toList) (mid := ") = ".toList) (by decide) t o, hf⟩
  · exact ⟨rfl, rfl, hf⟩

theorem linesOf_append (l : Logger) (a b : List Line) : linesOf l (a ++ b) = linesOf l a ++ linesOf l b := by
  simp [linesOf]

theorem linesOf_same (l : Logger) (ts : List Text) : linesOf l (ts.map fun t => (l, t)) = ts := by
  induction ts with
  | nil => rfl
  | cons t ts ih => simp [linesOf] at ih ⊢; exact ih

theorem linesOf_other {l l' : Logger} (h : l' ≠ l) (ts : List Text) : linesOf l (ts.map fun t => (l', t)) = [] := by
  induction ts with
  | nil => rfl
  | cons t ts ih => simp [linesOf, h]

theorem sayMeasure_eq {name : Option Text} {first : Bool} (h : (F, name, first) ∈ programs) (t o : Text) :
    say fs .main "Measuring at t={}" [t] ++ sayOpt fs .main F.obs [t, o] ++ say fs .main "Finish measurement at t={}" [t] =
      (measurementLines name t o).map fun x => (Logger.main, x) := by
  rw [(programs_obs h t o []).2.1, say_one (pre := "Measuring at t=".toList) (by decide),
    say_one (pre := "Finish measurement at t=".toList) (by decide)]
  cases name <;> rfl

theorem sayStart_eq {name : Option Text} {first : Bool} (h : (F, name, first) ∈ programs) (o x : Text) :
    say fs .main "Measuring at t=0" [] ++ sayOpt fs .main F.obs0 [o] ++ say fs .main "Finish measurement at t=0" [] ++
        sayOpt fs .main F.first [x] =
      (measurementLines name "0".toList o ++ if first then ["h[0] = ".toList ++ x] else []).map fun y => (Logger.main, y) := by
  rw [(programs_obs h [] o x).1, (programs_obs h [] o x).2.2, say_none (by decide) (by decide), say_none (by decide) (by decide)]
  have e1 : "Measuring at t=0".toList = "Measuring at t=".toList ++ "0".toList := by decide
  have e2 : "Finish measurement at t=0".toList = "Finish measurement at t=".toList ++ "0".toList := by decide
  rw [e1, e2]
  cases name <;> cases first <;> rfl

theorem sayStep_eq (t t' : Text) :
    say fs .ode "Integrate from t={}" [t] ++ say fs .ode "Finished integration t={} -> t={}" [t, t'] =
      (stepLines t t').map fun x => (Logger.ode, x) := by
  rw [say_one (pre := "Integrate from t=".toList) (by decide),
    say_two (pre := "Finished integration t=".toList) (mid := " -> t=".toList) (by decide)]
  rfl

/-- What is known about the log while the program runs. -/
def LogInv (T : Texts H O) (dt : ℝ) (name : Option Text) (first : Bool) (h1 : H) (r : O) (s : Logged H O) : Prop :=
  ∃ n : ℕ, s.1.t = n * dt ∧ ∃ rows, s.1.out = (0, r) :: rows ∧
    linesOf .main s.2 = measurementLines name "0".toList (T.obs r) ++
      (if first then ["h[0] = ".toList ++ T.first h1] else []) ++
      rows.flatMap (fun x => measurementLines name (T.time x.1) (T.obs x.2)) ∧
    linesOf .ode s.2 = (List.range n).flatMap (fun k : ℕ => stepLines (T.time (k * dt)) (T.time ((k + 1 : ℕ) * dt))) ∧
    linesOf .io s.2 = []

variable {name : Option Text} {first : Bool}

attribute [local irreducible] measurementLines stepLines say sayOpt linesOf

theorem maybeMeasureL_inv (hF : (F, name, first) ∈ programs) {h1 : H} {r : O} {s s' : Logged H O}
    (hs : LogInv T dt name first h1 r s) (h : maybeMeasureL fs F T measure dt interval s = .val s') :
    LogInv T dt name first h1 r s' := by
  unfold maybeMeasureL at h
  cases hb : hasTimeIntervalPassed s.1.t s.1.last dt interval with
  | ub => rw [hb] at h; exact absurd h (by simp [Res.bind])
  | diverges => rw [hb] at h; exact absurd h (by simp [Res.bind])
  | val b =>
    rw [hb, Res.bind_val] at h
    cases b with
    | false =>
      simp only [Bool.false_eq_true, if_false, Res.val.injEq] at h
      exact h ▸ hs
    | true =>
      simp only [if_true] at h
      cases hm : measure s.1.h with
      | ub => rw [hm] at h; exact absurd h (by simp [Res.map])
      | diverges => rw [hm] at h; exact absurd h (by simp [Res.map])
      | val q =>
        rw [hm, Res.map_val, Res.val.injEq] at h
        obtain ⟨n, ht, rows, ho, hM, hO, hI⟩ := hs
        subst h
        have e : s.2 ++ say fs .main "Measuring at t={}" [T.time s.1.t] ++ sayOpt fs .main F.obs [T.time s.1.t, T.obs q.2] ++
            say fs .main "Finish measurement at t={}" [T.time s.1.t] =
            s.2 ++ (measurementLines name (T.time s.1.t) (T.obs q.2)).map fun x => (Logger.main, x) := by
          rw [← sayMeasure_eq (fs := fs) hF]; simp only [List.append_assoc]
        refine ⟨n, ht, rows ++ [(s.1.t, q.2)], by simp [ho], ?_, ?_, ?_⟩
        · show linesOf .main _ = _
          rw [e, linesOf_append, linesOf_same, hM, List.flatMap_append, List.flatMap_singleton, List.append_assoc]
        · show linesOf .ode _ = _
          rw [e, linesOf_append, linesOf_other (by decide), hO, List.append_nil]
        · show linesOf .io _ = _
          rw [e, linesOf_append, linesOf_other (by decide), hI]; rfl

theorem bodyL_inv (hF : (F, name, first) ∈ programs) {h1 : H} {r : O} {s s' : Logged H O}
    (hs : LogInv T dt name first h1 r s) (h : bodyL fs F T step measure dt interval s = .val s') :
    LogInv T dt name first h1 r s' := by
  unfold bodyL at h
  cases hm : maybeMeasureL fs F T measure dt interval s with
  | ub => rw [hm] at h; exact absurd h (by simp [Res.bind])
  | diverges => rw [hm] at h; exact absurd h (by simp [Res.bind])
  | val u =>
    rw [hm, Res.bind_val] at h
    obtain ⟨n, ht, rows, ho, hM, hO, hI⟩ := maybeMeasureL_inv hF hs hm
    cases hst : step u.1.h with
    | ub => rw [hst] at h; exact absurd h (by simp [Res.map])
    | diverges => rw [hst] at h; exact absurd h (by simp [Res.map])
    | val y =>
      rw [hst, Res.map_val, Res.val.injEq] at h
      subst h
      have et : u.1.t + dt = ((n + 1 : ℕ) : ℝ) * dt := by rw [ht]; push_cast; ring
      have e : u.2 ++ say fs .ode "Integrate from t={}" [T.time u.1.t] ++
          say fs .ode "Finished integration t={} -> t={}" [T.time u.1.t, T.time (u.1.t + dt)] =
          u.2 ++ (stepLines (T.time (n * dt)) (T.time ((n + 1 : ℕ) * dt))).map fun x => (Logger.ode, x) := by
        rw [← sayStep_eq (fs := fs), ← et, ← ht]; simp only [List.append_assoc]
      refine ⟨n + 1, et, rows, ho, ?_, ?_, ?_⟩
      · show linesOf .main _ = _
        rw [e, linesOf_append, linesOf_other (by decide), hM, List.append_nil]
      · show linesOf .ode _ = _
        rw [e, linesOf_append, linesOf_same, hO, List.range_succ, List.flatMap_append, List.flatMap_singleton]
      · show linesOf .io _ = _
        rw [e, linesOf_append, linesOf_other (by decide), hI]; rfl

/-- **C100**: the log of a finished run, for all steps, measurements, step sizes, end times, intervals and both kinds of
loggers. The lines of the main logger are: the measurement at `t = 0` with the observable of the first row of the output file,
possibly the first coefficient, and then three lines (two without observable) for each further row of the output file, in the
same order, with its time and its observable. The lines of the ode logger are two per integration step with the times
`k dt` and `(k + 1) dt`, where `n dt` is the final time. -/
theorem log_content (hF : (F, name, first) ∈ programs) {s : Logged H O}
    (h : simulateL fs F T step measure dt tEnd interval h0 = .val s) :
    ∃ (h1 : H) (r : O), measure h0 = .val (h1, r) ∧ ∃ n : ℕ, s.1.t = n * dt ∧ ∃ rows, s.1.out = (0, r) :: rows ∧
      linesOf .main s.2 = measurementLines name "0".toList (T.obs r) ++
        (if first then ["h[0] = ".toList ++ T.first h1] else []) ++
        rows.flatMap (fun x => measurementLines name (T.time x.1) (T.obs x.2)) ∧
      linesOf .ode s.2 = (List.range n).flatMap (fun k : ℕ => stepLines (T.time (k * dt)) (T.time ((k + 1 : ℕ) * dt))) ∧
      linesOf .io s.2 = [] := by
  unfold simulateL at h
  cases hm : measure h0 with
  | ub =>
    unfold startL at h
    rw [hm, Res.map, (whileLoop_eq _ _ _).2 (by simp [runningL])] at h
    exact absurd h (by simp [Res.bind])
  | diverges =>
    unfold startL at h
    rw [hm, Res.map, (whileLoop_eq _ _ _).2 (by simp [runningL])] at h
    exact absurd h (by simp [Res.bind])
  | val q =>
    refine ⟨q.1, q.2, rfl, ?_⟩
    have h0inv : LogInv T dt name first q.1 q.2
        (({ h := q.1, t := 0, last := 0, out := [(0, q.2)] } : State H O),
          say fs .main "Measuring at t=0" [] ++ sayOpt fs .main F.obs0 [T.obs q.2] ++
            say fs .main "Finish measurement at t=0" [] ++ sayOpt fs .main F.first [T.first q.1]) := by
      rw [sayStart_eq hF]
      exact ⟨0, by simp, [], rfl, by rw [linesOf_same, List.flatMap_nil, List.append_nil], by rw [linesOf_other (by decide)]; rfl,
        by rw [linesOf_other (by decide)]⟩
    have hstart : startL fs F T measure h0 = .val (({ h := q.1, t := 0, last := 0, out := [(0, q.2)] } : State H O),
          say fs .main "Measuring at t=0" [] ++ sayOpt fs .main F.obs0 [T.obs q.2] ++
            say fs .main "Finish measurement at t=0" [] ++ sayOpt fs .main F.first [T.first q.1]) := by
      unfold startL; rw [hm]; rfl
    rw [hstart] at h
    generalize (({ h := q.1, t := 0, last := 0, out := [(0, q.2)] } : State H O),
          say fs .main "Measuring at t=0" [] ++ sayOpt fs .main F.obs0 [T.obs q.2] ++
            say fs .main "Finish measurement at t=0" [] ++ sayOpt fs .main F.first [T.first q.1]) = s0 at h h0inv
    have hiter : ∀ (k : ℕ) (u : Logged H O),
        (fun s : Res (Logged H O) => s.bind (bodyL fs F T step measure dt interval))^[k] (.val s0) = .val u →
        LogInv T dt name first q.1 q.2 u := by
      intro k
      induction k with
      | zero => intro u hu; simp only [Function.iterate_zero, id, Res.val.injEq] at hu; exact hu ▸ h0inv
      | succ k ih =>
        intro u hu
        rw [Function.iterate_succ_apply'] at hu
        cases hk : (fun s : Res (Logged H O) => s.bind (bodyL fs F T step measure dt interval))^[k] (.val s0) with
        | ub => rw [hk] at hu; exact absurd hu (by simp [Res.bind])
        | diverges => rw [hk] at hu; exact absurd hu (by simp [Res.bind])
        | val v => rw [hk] at hu; exact bodyL_inv hF (ih v hk) hu
    cases hw : whileLoop (runningL tEnd) (fun s => s.bind (bodyL fs F T step measure dt interval)) (.val s0) with
    | ub => rw [hw] at h; exact absurd h (by simp [Res.bind])
    | diverges => rw [hw] at h; exact absurd h (by simp [Res.bind])
    | val x =>
      rw [hw, Res.bind_val] at h
      obtain ⟨k, hk, -, -⟩ := (whileLoop_val _ _ _ _).1 hw
      cases x with
      | ub => exact absurd h (by simp [Res.bind])
      | diverges => exact absurd h (by simp [Res.bind])
      | val v => exact maybeMeasureL_inv hF (hiter k v (by first | exact hk | exact hk.symm)) h

/-- The hypotheses are met: a run with two rows and 100 steps, whose log has the corresponding lines. -/
theorem log_example (fs : Bool) (T : Texts ℕ ℕ) :
    ∃ s, simulateL fs formatsOccupation T (fun k : ℕ => .val (k + 1)) (fun k : ℕ => .val (k, k)) (1 / 100) 1 100 0 = .val s ∧
      s.1.out.map Prod.snd = [0, 100] ∧ (linesOf .main s.2).length = 7 := by
  obtain ⟨s, e, -, -, ho⟩ := simulateM_output (step := fun k : ℕ => .val (k + 1)) (measure := fun k : ℕ => .val (k, k))
    (dt := 1 / 100) (tEnd := 1) (by norm_num) (interval := 100) (by norm_num) (inv := fun k x => x = k) (o := id) (h0 := 0)
    (fun k _ x hx => ⟨k + 1, by rw [hx], rfl⟩) (fun k _ x hx => ⟨k, by rw [hx]; rfl, rfl⟩) rfl
  rw [← simulateL_fst (fs := fs) (F := formatsOccupation) (T := T)] at e
  have : ∃ s', simulateL fs formatsOccupation T (fun k : ℕ => .val (k + 1)) (fun k : ℕ => .val (k, k)) (1 / 100) 1 100 0 =
      .val s' ∧ s'.1 = s := by
    cases hs : simulateL fs formatsOccupation T (fun k : ℕ => .val (k + 1)) (fun k : ℕ => .val (k, k)) (1 / 100) 1 100 0 with
    | val s' => rw [hs, Res.map_val, Res.val.injEq] at e; exact ⟨s', rfl, e⟩
    | ub => rw [hs] at e; exact absurd e (by simp [Res.map])
    | diverges => rw [hs] at e; exact absurd e (by simp [Res.map])
  obtain ⟨s', e', rfl⟩ := this
  have hn : ⌈(1 : ℝ) / (1 / 100)⌉₊ = 100 := by norm_num
  have hout : s'.1.out.map Prod.snd = [0, 100] := by rw [ho, hn]; rfl
  refine ⟨s', e', hout, ?_⟩
  obtain ⟨h1, r, -, n, -, rows, hr, hM, -⟩ := log_content (name := some "<n_{0,↑}>".toList) (first := true)
    (by simp [programs]) e'
  rw [hr, List.map_cons] at hout
  simp only [List.cons.injEq] at hout
  have hl : rows.length = 1 := by simpa using congrArg List.length hout.2
  obtain ⟨x, rfl⟩ := List.length_eq_one_iff.1 hl
  rw [hM, List.flatMap_singleton]
  simp [measurementLines]

end Ieompp.Log
