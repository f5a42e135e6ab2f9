import Verif.Spec.Durability
import Verif.Props.Simulation

/-!
# C89–C91: what a crash or a failing disk leaves of the results
-/

set_option autoImplicit false
set_option linter.unusedSectionVars false

namespace Ieompp.Durability

open Sim Ieompp.Spec

variable {H O : Type*}

/-! ## The possible contents of the file -/

/-- What is certainly on disk, what has been inserted in total, and the log. -/
structure Ghost (O : Type*) where
  synced : List Char
  total : List Char
  log : List (Line O)

/-- The effect of one action. -/
def Ghost.act (g : Ghost O) : Act O → Ghost O
  | .log l => { g with log := g.log ++ [l] }
  | .fopen => { g with synced := [], total := [] }
  | .put s => { g with total := g.total ++ s }
  | .flush => { g with synced := g.total }
  | .close => { g with synced := g.total }
  | .work => g

/-- The effect of a list of actions. -/
def Ghost.acts (g : Ghost O) (as : List (Act O)) : Ghost O := as.foldl Ghost.act g

theorem Ghost.acts_append (g : Ghost O) (a b : List (Act O)) : g.acts (a ++ b) = (g.acts a).acts b := List.foldl_append

theorem Ghost.acts_puts (g : Ghost O) (ss : List (List Char)) :
    g.acts (ss.map .put) = { g with total := g.total ++ ss.flatten } := by
  induction ss generalizing g with
  | nil => simp [Ghost.acts]
  | cons s ss ih =>
    show Ghost.acts (g.act (.put s)) (ss.map .put) = _
    rw [ih]; simp [Ghost.act]

/-- The invariant of a run on a reliable disk. -/
def Inv (g : Ghost O) (d : Disk O) : Prop :=
  g.synced <+: d.file ∧ d.file ++ d.pending = g.total ∧ d.log = g.log ∧ d.bad = false

theorem run_sound {d d' : Disk O} {as : List (Act O)} (h : Run True d as d') :
    ∀ {g : Ghost O}, Inv g d → Inv (g.acts as) d' := by
  induction h with
  | nil => intro g hg; exact hg
  | spill _ ih =>
    intro g ⟨h1, h2, h3, h4⟩
    exact ih ⟨h1.trans (List.prefix_append _ _), by simpa using h2, h3, h4⟩
  | spillFails hr => exact absurd trivial hr
  | log _ ih =>
    intro g ⟨h1, h2, h3, h4⟩
    exact ih (g := g.act (.log _)) ⟨h1, h2, by show _ = g.log ++ _; rw [← h3], h4⟩
  | work _ ih => intro g hg; exact ih (g := g.act .work) hg
  | fopen _ ih =>
    intro g ⟨h1, h2, h3, h4⟩
    exact ih (g := g.act .fopen) ⟨List.prefix_refl _, rfl, h3, rfl⟩
  | fopenFails hr => exact absurd trivial hr
  | put _ ih =>
    intro g ⟨h1, h2, h3, h4⟩
    exact ih (g := g.act (.put _)) ⟨h1, by show _ = g.total ++ _; rw [← h2]; simp, h3, rfl⟩
  | flush _ ih =>
    intro g ⟨h1, h2, h3, h4⟩
    exact ih (g := g.act .flush) ⟨(show _ = g.total from h2) ▸ List.prefix_refl _, (List.append_nil _).trans h2, h3, rfl⟩
  | close _ ih =>
    intro g ⟨h1, h2, h3, h4⟩
    exact ih (g := g.act .close) ⟨(show _ = g.total from h2) ▸ List.prefix_refl _, (List.append_nil _).trans h2, h3, rfl⟩
  | putBad _ ih => intro g ⟨_, _, _, h4⟩; exact absurd h4 (by simp)
  | flushBad _ ih => intro g ⟨_, _, _, h4⟩; exact absurd h4 (by simp)
  | closeBad _ ih => intro g ⟨_, _, _, h4⟩; exact absurd h4 (by simp)

theorem Run.snoc_spill {r : Prop} {d : Disk O} {as : List (Act O)} {f a b : List Char} {l : List (Line O)}
    (h : Run r d as ⟨f, a ++ b, l, false⟩) : Run r d as ⟨f ++ a, b, l, false⟩ := by
  generalize hd : (⟨f, a ++ b, l, false⟩ : Disk O) = d' at h
  induction h with
  | nil => subst hd; exact .spill (.nil _)
  | spill _ ih => exact .spill (ih hd)
  | spillFails hr _ ih => exact .spillFails hr (ih hd)
  | log _ ih => exact .log (ih hd)
  | work _ ih => exact .work (ih hd)
  | fopen _ ih => exact .fopen (ih hd)
  | fopenFails hr _ ih => exact .fopenFails hr (ih hd)
  | put _ ih => exact .put (ih hd)
  | flush _ ih => exact .flush (ih hd)
  | close _ ih => exact .close (ih hd)
  | putBad _ ih => exact .putBad (ih hd)
  | flushBad _ ih => exact .flushBad (ih hd)
  | closeBad _ ih => exact .closeBad (ih hd)

/-- A run in which the buffer is written only when the program asks for it. -/
theorem run_lazy (as : List (Act O)) : ∀ (f p : List Char) (l : List (Line O)), ∃ p',
    Run True (⟨f, p, l, false⟩ : Disk O) as
      ⟨((⟨f, f ++ p, l⟩ : Ghost O).acts as).synced, p', ((⟨f, f ++ p, l⟩ : Ghost O).acts as).log, false⟩ ∧
    ((⟨f, f ++ p, l⟩ : Ghost O).acts as).synced ++ p' = ((⟨f, f ++ p, l⟩ : Ghost O).acts as).total := by
  induction as with
  | nil => intro f p l; exact ⟨p, .nil _, rfl⟩
  | cons a as ih =>
    intro f p l
    cases a with
    | log x =>
      obtain ⟨p', hr, he⟩ := ih f p (l ++ [x])
      exact ⟨p', .log hr, he⟩
    | fopen =>
      obtain ⟨p', hr, he⟩ := ih [] [] l
      exact ⟨p', .fopen hr, he⟩
    | put s =>
      obtain ⟨p', hr, he⟩ := ih f (p ++ s) l
      have e : (⟨f, f ++ (p ++ s), l⟩ : Ghost O) = (⟨f, f ++ p, l⟩ : Ghost O).act (.put s) := by simp [Ghost.act]
      rw [e] at hr he
      exact ⟨p', .put hr, he⟩
    | flush =>
      obtain ⟨p', hr, he⟩ := ih (f ++ p) [] l
      have e : (⟨f ++ p, f ++ p ++ [], l⟩ : Ghost O) = (⟨f, f ++ p, l⟩ : Ghost O).act .flush := by simp [Ghost.act]
      rw [e] at hr he
      exact ⟨p', .flush hr, he⟩
    | close =>
      obtain ⟨p', hr, he⟩ := ih (f ++ p) [] l
      have e : (⟨f ++ p, f ++ p ++ [], l⟩ : Ghost O) = (⟨f, f ++ p, l⟩ : Ghost O).act .close := by simp [Ghost.act]
      rw [e] at hr he
      exact ⟨p', .close hr, he⟩
    | work =>
      obtain ⟨p', hr, he⟩ := ih f p l
      exact ⟨p', .work hr, he⟩

/-- The contents of the file which are possible after the actions `as`, exactly. -/
theorem run_iff (old : List Char) (as : List (Act O)) (f : List Char) (l : List (Line O)) :
    (∃ d, Run True (Disk.start old) as d ∧ d.file = f ∧ d.log = l) ↔
      ((⟨old, old, []⟩ : Ghost O).acts as).synced <+: f ∧ f <+: ((⟨old, old, []⟩ : Ghost O).acts as).total ∧
        l = ((⟨old, old, []⟩ : Ghost O).acts as).log := by
  constructor
  · rintro ⟨d, hr, rfl, rfl⟩
    obtain ⟨h1, h2, h3, -⟩ := run_sound hr (g := ⟨old, old, []⟩) ⟨List.prefix_refl _, by simp [Disk.start], rfl, rfl⟩
    exact ⟨h1, ⟨_, h2⟩, h3⟩
  · rintro ⟨⟨a, ha⟩, ⟨b, hb⟩, hl⟩
    obtain ⟨p', hr, he⟩ := run_lazy as old [] []
    rw [List.append_nil] at hr he
    have : p' = a ++ b := by
      rw [← ha, List.append_assoc] at hb
      exact (List.append_cancel_left (he.trans hb.symm))
    rw [this] at hr
    exact ⟨_, hr.snoc_spill, ha, hl.symm⟩

/-! ## The shape of the effects of a program -/

/-- Actions which do not concern the output file and announce nothing. -/
def Quiet : Act O → Prop
  | .log (.finished _) => False
  | .log _ => True
  | .work => True
  | _ => False

/-- The effects of a program which has written the rows `rows`. -/
inductive WF (header : List Char) (ins : ℝ → O → List (List Char)) : List (ℝ × O) → List (Act O) → Prop where
  | start : WF header ins [] (openActs header)
  | quiet {rows a b} : WF header ins rows a → (∀ x ∈ b, Quiet x) → WF header ins rows (a ++ b)
  | row {rows a t o} : WF header ins rows a → WF header ins (rows ++ [(t, o)]) (a ++ measureActs ins t o)

theorem finishedTimes_append (a b : List (Line O)) : finishedTimes (a ++ b) = finishedTimes a ++ finishedTimes b := by
  unfold finishedTimes; rw [List.filterMap_append]

theorem quiet_acts {b : List (Act O)} (hb : ∀ x ∈ b, Quiet x) (g : Ghost O) :
    (g.acts b).synced = g.synced ∧ (g.acts b).total = g.total ∧ finishedTimes (g.acts b).log = finishedTimes g.log := by
  induction b generalizing g with
  | nil => exact ⟨rfl, rfl, rfl⟩
  | cons x b ih =>
    obtain ⟨h1, h2, h3⟩ := ih (fun y hy => hb y (List.mem_cons_of_mem _ hy)) (g.act x)
    have hx := hb x (List.mem_cons_self)
    show ((g.act x).acts b).synced = _ ∧ ((g.act x).acts b).total = _ ∧ finishedTimes ((g.act x).acts b).log = _
    rw [h1, h2, h3]
    cases x with
    | log l =>
      refine ⟨rfl, rfl, ?_⟩
      show finishedTimes (g.log ++ [l]) = _
      rw [finishedTimes_append]
      cases l <;> first | (simp [finishedTimes]; done) | exact (hx : False).elim
    | work => exact ⟨rfl, rfl, rfl⟩
    | fopen => exact absurd hx (by simp [Quiet])
    | put s => exact absurd hx (by simp [Quiet])
    | flush => exact absurd hx (by simp [Quiet])
    | close => exact absurd hx (by simp [Quiet])

/-- The text of a row, from its insertions. -/
def rowText (ins : ℝ → O → List (List Char)) (t : ℝ) (o : O) : List Char := (ins t o).flatten

theorem fileText_concat (header : List Char) (row : ℝ → O → List Char) (rows : List (ℝ × O)) (t : ℝ) (o : O) :
    fileText header row (rows ++ [(t, o)]) = fileText header row rows ++ row t o := by
  simp [fileText]

/-- The state after complete effects. -/
theorem wf_acts {header : List Char} {ins : ℝ → O → List (List Char)} {rows : List (ℝ × O)} {as : List (Act O)}
    (h : WF header ins rows as) (old : List Char) :
    ((⟨old, old, []⟩ : Ghost O).acts as).synced = (if rows = [] then [] else fileText header (rowText ins) rows) ∧
      ((⟨old, old, []⟩ : Ghost O).acts as).total = fileText header (rowText ins) rows ∧
      finishedTimes ((⟨old, old, []⟩ : Ghost O).acts as).log = rows.map Prod.fst := by
  induction h with
  | start => exact ⟨rfl, by simp [openActs, Ghost.acts, Ghost.act, fileText], rfl⟩
  | @quiet rows a b _ hb ih =>
    rw [Ghost.acts_append]
    obtain ⟨h1, h2, h3⟩ := quiet_acts hb ((⟨old, old, []⟩ : Ghost O).acts a)
    rw [h1, h2, h3]; exact ih
  | @row rows a t o _ ih =>
    obtain ⟨h1, h2, h3⟩ := ih
    have hne : ¬ (rows ++ [(t, o)] = []) := by simp
    rw [if_neg hne, Ghost.acts_append, fileText_concat, ← h2]
    unfold measureActs
    rw [Ghost.acts_append, Ghost.acts_append, Ghost.acts_puts]
    refine ⟨rfl, rfl, ?_⟩
    show finishedTimes ((((⟨old, old, []⟩ : Ghost O).acts a).log ++ [Line.measuring t] ++ [Line.value t o]) ++ [Line.finished t]) = _
    rw [finishedTimes_append, finishedTimes_append, finishedTimes_append, h3]
    simp [finishedTimes]

theorem prefix_append_cases {α : Type*} {p a b : List α} (h : p <+: a ++ b) : p <+: a ∨ ∃ q, p = a ++ q ∧ q <+: b := by
  rcases List.prefix_or_prefix_of_prefix h (List.prefix_append a b) with h1 | ⟨q, rfl⟩
  · exact .inl h1
  · exact .inr ⟨q, rfl, by rwa [List.prefix_append_right_inj] at h⟩

theorem prefix_puts {p : List (Act O)} {ss : List (List Char)} (h : p <+: ss.map .put) :
    ∃ q, p = q.map .put ∧ q <+: ss := by
  obtain ⟨n, rfl⟩ : ∃ n, p = (ss.map .put).take n := ⟨_, List.prefix_iff_eq_take.1 h⟩
  exact ⟨ss.take n, by rw [List.map_take], List.take_prefix _ _⟩

theorem flatten_prefix {α : Type*} {a b : List (List α)} (h : a <+: b) : a.flatten <+: b.flatten := by
  obtain ⟨c, rfl⟩ := h
  rw [List.flatten_append]; exact List.prefix_append _ _

/-- At every point of an execution: with `m` measurements announced, the file contains for certain the first `m` rows, and
there has been inserted nothing but the first `m + 1`. -/
theorem wf_prefix {header : List Char} {ins : ℝ → O → List (List Char)} {rows : List (ℝ × O)} {as : List (Act O)}
    (h : WF header ins rows as) (old : List Char) {p : List (Act O)} (hp : p <+: as) :
    (¬ (.fopen ∈ p) ∧ ((⟨old, old, []⟩ : Ghost O).acts p).synced = old ∧ ((⟨old, old, []⟩ : Ghost O).acts p).total = old ∧
        finishedTimes ((⟨old, old, []⟩ : Ghost O).acts p).log = []) ∨
    (.fopen ∈ p ∧ ∃ m, m ≤ rows.length ∧ finishedTimes ((⟨old, old, []⟩ : Ghost O).acts p).log = (rows.take m).map Prod.fst ∧
      (0 < m → fileText header (rowText ins) (rows.take m) <+: ((⟨old, old, []⟩ : Ghost O).acts p).synced) ∧
      ((⟨old, old, []⟩ : Ghost O).acts p).total <+: fileText header (rowText ins) (rows.take (m + 1))) := by
  induction h generalizing p with
  | start =>
    have hc : p = [] ∨ p = [.log .opening] ∨ p = [.log .opening, .fopen] ∨ p = [.log .opening, .fopen, .log .opened] ∨
        p = [.log .opening, .fopen, .log .opened, .put header] := by
      obtain ⟨n, rfl⟩ : ∃ n, p = (openActs header).take n := ⟨_, List.prefix_iff_eq_take.1 hp⟩
      unfold openActs
      rcases n with _ | _ | _ | _ | n
      · exact .inl rfl
      · exact .inr (.inl rfl)
      · exact .inr (.inr (.inl rfl))
      · exact .inr (.inr (.inr (.inl rfl)))
      · refine .inr (.inr (.inr (.inr ?_))); simp
    rcases hc with rfl | rfl | rfl | rfl | rfl
    · exact .inl ⟨by simp, rfl, rfl, rfl⟩
    · exact .inl ⟨by simp, rfl, rfl, rfl⟩
    · exact .inr ⟨by simp, 0, by simp, rfl, by simp, List.nil_prefix⟩
    · exact .inr ⟨by simp, 0, by simp, rfl, by simp, List.nil_prefix⟩
    · exact .inr ⟨by simp, 0, by simp, rfl, by simp, by simp [Ghost.acts, Ghost.act, fileText]⟩
  | @quiet rows a b ha hb ih =>
    rcases prefix_append_cases hp with h1 | ⟨q, rfl, hq⟩
    · exact ih h1
    · have hq' : ∀ x ∈ q, Quiet x := fun x hx => hb x (hq.subset hx)
      obtain ⟨h1, h2, h3⟩ := quiet_acts hq' ((⟨old, old, []⟩ : Ghost O).acts a)
      rw [Ghost.acts_append, h1, h2, h3]
      rcases ih (List.prefix_refl a) with ⟨g0, g1⟩ | ⟨g0, g1⟩
      · refine .inl ⟨?_, g1⟩
        rw [List.mem_append, not_or]
        exact ⟨g0, fun hx => absurd (hq' _ hx) (by simp [Quiet])⟩
      · exact .inr ⟨List.mem_append_left _ g0, g1⟩
  | @row rows a t o ha ih =>
    rcases prefix_append_cases hp with h1 | ⟨q, rfl, hq⟩
    · rcases ih h1 with g | ⟨g0, m, hm, g1, g2, g3⟩
      · exact .inl g
      · have e : (rows ++ [(t, o)]).take m = rows.take m := List.take_append_of_le_length hm
        refine .inr ⟨g0, m, by simp; omega, by rw [e]; exact g1, fun h => by rw [e]; exact g2 h, g3.trans ?_⟩
        obtain ⟨c, hc⟩ : rows.take (m + 1) <+: (rows ++ [(t, o)]).take (m + 1) :=
          by
          rw [List.take_append]; exact List.prefix_append _ _
        rw [← hc]; unfold fileText; rw [List.flatMap_append, ← List.append_assoc]; exact List.prefix_append _ _
    · have hopen : (.fopen : Act O) ∈ a := by
        clear ih hp hq
        induction ha with
        | start => simp [openActs]
        | quiet _ _ ih => exact List.mem_append_left _ ih
        | row _ ih => exact List.mem_append_left _ ih
      obtain ⟨h1, h2, h3⟩ := wf_acts ha old
      refine .inr ⟨List.mem_append_left _ hopen, ?_⟩
      rw [Ghost.acts_append]
      set g := (⟨old, old, []⟩ : Ghost O).acts a with hg
      have hlen : rows.length ≤ (rows ++ [(t, o)]).length := by simp
      have e0 : (rows ++ [(t, o)]).take rows.length = rows := by simp
      have e1 : (rows ++ [(t, o)]).take (rows.length + 1) = rows ++ [(t, o)] := by
        rw [List.take_of_length_le]; simp
      -- everything before the end of the insertions: nothing announced, some of the row inserted
      have key : ∀ g' : Ghost O, g'.synced = g.synced → g'.total <+: fileText header (rowText ins) (rows ++ [(t, o)]) →
          finishedTimes g'.log = finishedTimes g.log →
          ∃ m, m ≤ (rows ++ [(t, o)]).length ∧ finishedTimes g'.log = ((rows ++ [(t, o)]).take m).map Prod.fst ∧
            (0 < m → fileText header (rowText ins) ((rows ++ [(t, o)]).take m) <+: g'.synced) ∧
            g'.total <+: fileText header (rowText ins) ((rows ++ [(t, o)]).take (m + 1)) := by
        intro g' hs ht hl
        refine ⟨rows.length, hlen, by rw [e0, hl, h3], fun hpos => ?_, by rw [e1]; exact ht⟩
        rw [e0, hs, h1, if_neg (by rintro rfl; simp at hpos)]; exact List.prefix_refl _
      have hbase : g.total <+: fileText header (rowText ins) (rows ++ [(t, o)]) := by
        rw [h2, fileText_concat]; exact List.prefix_append _ _
      unfold measureActs at hq
      rw [List.append_assoc] at hq
      rcases prefix_append_cases hq with h4 | ⟨q', rfl, hq'⟩
      · obtain ⟨n, rfl⟩ : ∃ n, q = [Act.log (Line.measuring t), Act.work, Act.log (Line.value t o)].take n :=
          ⟨_, List.prefix_iff_eq_take.1 h4⟩
        have hqq : ∀ x ∈ [Act.log (Line.measuring t), Act.work, Act.log (Line.value t o)].take n, Quiet x := by
          intro x hx
          have := List.mem_of_mem_take hx
          simp only [List.mem_cons, List.not_mem_nil, or_false] at this
          rcases this with rfl | rfl | rfl <;> trivial
        obtain ⟨k1, k2, k3⟩ := quiet_acts hqq g
        exact key _ k1 (by rw [k2]; exact hbase) k3
      · rw [Ghost.acts_append]
        have hq3 : ∀ x ∈ [Act.log (Line.measuring t), Act.work, Act.log (Line.value t o)], Quiet x := by
          intro x hx
          simp only [List.mem_cons, List.not_mem_nil, or_false] at hx
          rcases hx with rfl | rfl | rfl <;> trivial
        obtain ⟨k1, k2, k3⟩ := quiet_acts hq3 g
        set g3 := g.acts [Act.log (Line.measuring t), Act.work, Act.log (Line.value t o)] with hg3
        rcases prefix_append_cases hq' with h5 | ⟨q'', rfl, hq''⟩
        · obtain ⟨ss, rfl, hss⟩ := prefix_puts h5
          rw [Ghost.acts_puts]
          refine key _ k1 ?_ k3
          show g3.total ++ ss.flatten <+: _
          rw [k2, fileText_concat, h2, List.prefix_append_right_inj]
          exact flatten_prefix hss
        · rw [Ghost.acts_append, Ghost.acts_puts]
          have etot : g3.total ++ (ins t o).flatten = fileText header (rowText ins) (rows ++ [(t, o)]) := by
            rw [k2, fileText_concat, h2]; rfl
          obtain ⟨n, rfl⟩ : ∃ n, q'' = [Act.flush, Act.log (Line.finished t)].take n := ⟨_, List.prefix_iff_eq_take.1 hq''⟩
          rcases n with _ | _ | n
          · refine key _ k1 ?_ k3
            show g3.total ++ (ins t o).flatten <+: _
            rw [etot]; exact List.prefix_refl _
          · refine ⟨rows.length, hlen, by rw [e0, ← h3, ← k3]; rfl, fun _ => ?_, ?_⟩
            · rw [e0]
              show fileText header (rowText ins) rows <+: g3.total ++ (ins t o).flatten
              rw [etot, fileText_concat]; exact List.prefix_append _ _
            · rw [e1]
              show g3.total ++ (ins t o).flatten <+: _
              rw [etot]; exact List.prefix_refl _
          · refine ⟨rows.length + 1, by simp, ?_, fun _ => ?_, ?_⟩
            · rw [e1]
              have : ([Act.flush, Act.log (Line.finished t)] : List (Act O)).take (n + 2) = [Act.flush, Act.log (Line.finished t)] := by
                simp
              show finishedTimes (Ghost.acts _ (List.take (n + 2) _)).log = _
              rw [this]
              show finishedTimes (g3.log ++ [Line.finished t]) = _
              rw [finishedTimes_append, k3, h3, List.map_append]
              rfl
            · rw [e1]
              have : ([Act.flush, Act.log (Line.finished t)] : List (Act O)).take (n + 2) = [Act.flush, Act.log (Line.finished t)] := by
                simp
              show _ <+: (Ghost.acts _ (List.take (n + 2) _)).synced
              rw [this]
              show _ <+: g3.total ++ (ins t o).flatten
              rw [etot]; exact List.prefix_refl _
            · have e2 : (rows ++ [(t, o)]).take (rows.length + 1 + 1) = rows ++ [(t, o)] := by
                rw [List.take_of_length_le]; simp
              rw [e2]
              have : ([Act.flush, Act.log (Line.finished t)] : List (Act O)).take (n + 2) = [Act.flush, Act.log (Line.finished t)] := by
                simp
              show (Ghost.acts _ (List.take (n + 2) _)).total <+: _
              rw [this]
              show g3.total ++ (ins t o).flatten <+: _
              rw [etot]; exact List.prefix_refl _

/-! ## The effects of the programs have this shape -/

section Programs

variable {ins : ℝ → O → List (List Char)} {step : H → Res H} {measure : H → Res (H × O)} {dt tEnd : ℝ} {interval : ℕ}
  {header : List Char} {h0 : H}

theorem map_eq_val {α β : Type*} {x : Res α} {f : α → β} {b : β} (h : x.map f = .val b) : ∃ a, x = .val a ∧ f a = b := by
  cases x with
  | val a => exact ⟨a, rfl, by simpa using h⟩
  | ub => cases h
  | diverges => cases h

theorem bind_eq_val {α β : Type*} {x : Res α} {f : α → Res β} {b : β} (h : x.bind f = .val b) :
    ∃ a, x = .val a ∧ f a = .val b := by
  cases x with
  | val a => exact ⟨a, rfl, by simpa using h⟩
  | ub => cases h
  | diverges => cases h

theorem maybeMeasureT_wf {s s' : Traced H O} (h : maybeMeasureT ins measure dt interval s = .val s')
    (hw : WF header ins s.1.out s.2) : WF header ins s'.1.out s'.2 := by
  obtain ⟨b, -, hb⟩ := bind_eq_val h
  cases b with
  | false => rw [if_neg (by simp)] at hb; cases hb; exact hw
  | true =>
    rw [if_pos rfl] at hb
    obtain ⟨r, -, rfl⟩ := map_eq_val hb
    exact .row hw

theorem bodyT_wf {s s' : Traced H O} (h : bodyT ins step measure dt interval s = .val s')
    (hw : WF header ins s.1.out s.2) : WF header ins s'.1.out s'.2 := by
  obtain ⟨s1, h1, h2⟩ := bind_eq_val h
  obtain ⟨h', -, rfl⟩ := map_eq_val h2
  refine .quiet (maybeMeasureT_wf h1 hw) fun x hx => ?_
  simp only [stepActs, List.mem_cons, List.not_mem_nil, or_false] at hx
  rcases hx with rfl | rfl | rfl <;> trivial

theorem startT_wf {s : Traced H O} (h : startT ins measure header h0 = .val s) : WF header ins s.1.out s.2 := by
  obtain ⟨r, -, rfl⟩ := map_eq_val h
  refine .quiet (.row (rows := []) .start) fun x hx => ?_
  simp only [List.mem_cons, List.not_mem_nil, or_false] at hx
  subst hx; trivial

theorem iterate_wf (k : ℕ) : ∀ {s : Traced H O},
    (fun s : Res (Traced H O) => s.bind (bodyT ins step measure dt interval))^[k] (startT ins measure header h0) = .val s →
    WF header ins s.1.out s.2 := by
  induction k with
  | zero => intro s h; exact startT_wf h
  | succ k ih =>
    intro s h
    rw [Function.iterate_succ_apply'] at h
    obtain ⟨s1, h1, h2⟩ := bind_eq_val h
    exact bodyT_wf h2 (ih h1)

theorem simulateT_wf {s : Traced H O} (h : simulateT ins step measure dt tEnd interval header h0 = .val s) :
    ∃ as, WF header ins s.1.out as ∧ s.2 = as ++ closeActs := by
  obtain ⟨s1, h1, rfl⟩ := map_eq_val h
  obtain ⟨s2, h2, h3⟩ := bind_eq_val h1
  obtain ⟨r, h4, h5⟩ := bind_eq_val h2
  refine ⟨s1.2, maybeMeasureT_wf h3 ?_, rfl⟩
  unfold whileLoop at h4
  split_ifs at h4 with hex
  have h5' : r = .val s2 := h5
  rw [h5'] at h4
  simp only [Res.val.injEq] at h4
  exact iterate_wf _ h4

/-! ### Forgetting the effects gives the time loop -/

theorem maybeMeasureT_fst (s : Traced H O) :
    (maybeMeasureT ins measure dt interval s).map Prod.fst = maybeMeasureM measure dt interval s.1 := by
  unfold maybeMeasureT maybeMeasureM
  cases hasTimeIntervalPassed s.1.t s.1.last dt interval with
  | val b =>
    cases b with
    | false => simp
    | true =>
      simp only [Res.bind_val, if_true]
      cases measure s.1.h <;> rfl
  | ub => rfl
  | diverges => rfl

theorem bodyT_fst (s : Traced H O) :
    (bodyT ins step measure dt interval s).map Prod.fst = bodyM step measure dt interval s.1 := by
  unfold bodyT bodyM
  rw [← maybeMeasureT_fst (ins := ins)]
  cases maybeMeasureT ins measure dt interval s with
  | val s1 =>
    simp only [Res.bind_val, Res.map_val]
    cases step s1.1.h <;> rfl
  | ub => rfl
  | diverges => rfl

theorem map_bind_fst {x : Res (Traced H O)} {f : Traced H O → Res (Traced H O)} {g : State H O → Res (State H O)}
    (h : ∀ s, (f s).map Prod.fst = g s.1) : (x.bind f).map Prod.fst = (x.map Prod.fst).bind g := by
  cases x with
  | val s => exact h s
  | ub => rfl
  | diverges => rfl

/-- **C89**: the variables of the traced program are those of the program without the trace; its rows are the subject of C45,
C58, C60, C61 and C62. -/
theorem simulateT_fst : (simulateT ins step measure dt tEnd interval header h0).map Prod.fst =
    simulateM step measure dt tEnd interval h0 := by
  classical
  have hiter : ∀ (k : ℕ) (x : Res (Traced H O)),
      ((fun s : Res (Traced H O) => s.bind (bodyT ins step measure dt interval))^[k] x).map Prod.fst =
      (fun s : Res (State H O) => s.bind (bodyM step measure dt interval))^[k] (x.map Prod.fst) := by
    intro k
    induction k with
    | zero => intro x; rfl
    | succ k ih => intro x; rw [Function.iterate_succ_apply', Function.iterate_succ_apply', ← ih, map_bind_fst bodyT_fst]
  have hrun : ∀ x : Res (Traced H O), runningT tEnd x ↔ running tEnd (x.map Prod.fst) := by
    intro x; cases x <;> rfl
  have hwhile : ∀ x : Res (Traced H O),
      ((whileLoop (runningT tEnd) (fun s => s.bind (bodyT ins step measure dt interval)) x).bind id).map Prod.fst =
      (whileLoop (running tEnd) (fun s => s.bind (bodyM step measure dt interval)) (x.map Prod.fst)).bind id := by
    intro x
    unfold whileLoop
    have hex : ∀ n, ¬ runningT tEnd ((fun s : Res (Traced H O) => s.bind (bodyT ins step measure dt interval))^[n] x) ↔
        ¬ running tEnd ((fun s : Res (State H O) => s.bind (bodyM step measure dt interval))^[n] (x.map Prod.fst)) := by
      intro n; rw [hrun, hiter]
    by_cases h : ∃ n, ¬ runningT tEnd ((fun s : Res (Traced H O) => s.bind (bodyT ins step measure dt interval))^[n] x)
    · have h' : ∃ n, ¬ running tEnd ((fun s : Res (State H O) => s.bind (bodyM step measure dt interval))^[n] (x.map Prod.fst)) := by
        obtain ⟨n, hn⟩ := h; exact ⟨n, (hex n).1 hn⟩
      have hf : Nat.find h = Nat.find h' := Nat.find_congr' (fun {n} => hex n)
      rw [dif_pos h, dif_pos h', ← hf, Res.bind_val, Res.bind_val]
      exact hiter _ _
    · have h' : ¬ ∃ n, ¬ running tEnd ((fun s : Res (State H O) => s.bind (bodyM step measure dt interval))^[n] (x.map Prod.fst)) := by
        rintro ⟨n, hn⟩; exact h ⟨n, (hex n).2 hn⟩
      rw [dif_neg h, dif_neg h']; rfl
  unfold simulateT
  have hmm : ∀ x : Res (Traced H O), (x.map fun s => (s.1, s.2 ++ (closeActs : List (Act O)))).map Prod.fst = x.map Prod.fst := by
    intro x; cases x <;> rfl
  rw [hmm, map_bind_fst maybeMeasureT_fst, hwhile]
  unfold simulateM startT
  cases hm : measure h0 with
  | val r => rfl
  | ub =>
    show ((whileLoop (running tEnd) _ Res.ub).bind id).bind _ = _
    rw [(whileLoop_eq _ _ _).2 (by simp [running])]; rfl
  | diverges =>
    show ((whileLoop (running tEnd) _ Res.diverges).bind id).bind _ = _
    rw [(whileLoop_eq _ _ _).2 (by simp [running])]; rfl

/-! ## C89: announced rows are in the file -/

theorem wf_close_prefix {rows : List (ℝ × O)} {as : List (Act O)} (h : WF header ins rows as) (old : List Char)
    {p : List (Act O)} (hp : p <+: as ++ closeActs) :
    (¬ (.fopen ∈ p) ∧ ((⟨old, old, []⟩ : Ghost O).acts p).synced = old ∧ ((⟨old, old, []⟩ : Ghost O).acts p).total = old ∧
        finishedTimes ((⟨old, old, []⟩ : Ghost O).acts p).log = []) ∨
    (.fopen ∈ p ∧ ∃ m, m ≤ rows.length ∧ finishedTimes ((⟨old, old, []⟩ : Ghost O).acts p).log = (rows.take m).map Prod.fst ∧
      (0 < m → fileText header (rowText ins) (rows.take m) <+: ((⟨old, old, []⟩ : Ghost O).acts p).synced) ∧
      ((⟨old, old, []⟩ : Ghost O).acts p).total <+: fileText header (rowText ins) (rows.take (m + 1))) := by
  rcases prefix_append_cases hp with h1 | ⟨q, rfl, hq⟩
  · exact wf_prefix h old h1
  · have hopen : (.fopen : Act O) ∈ as := by
      clear hp hq
      induction h with
      | start => simp [openActs]
      | quiet _ _ ih => exact List.mem_append_left _ ih
      | row _ ih => exact List.mem_append_left _ ih
    obtain ⟨h1, h2, h3⟩ := wf_acts h old
    refine .inr ⟨List.mem_append_left _ hopen, rows.length, le_rfl, ?_, fun hpos => ?_, ?_⟩
    all_goals rw [Ghost.acts_append]
    all_goals obtain ⟨n, rfl⟩ : ∃ n, q = closeActs.take n := ⟨_, List.prefix_iff_eq_take.1 hq⟩
    all_goals set g := (⟨old, old, []⟩ : Ghost O).acts as
    · rw [List.take_length, ← h3]
      rcases n with _ | _ | _ | _ | n
      · rfl
      · show finishedTimes (g.log ++ [_]) = _
        rw [finishedTimes_append]; simp [finishedTimes]
      · show finishedTimes (g.log ++ [_]) = _
        rw [finishedTimes_append]; simp [finishedTimes]
      · show finishedTimes (g.log ++ [_] ++ [_]) = _
        rw [finishedTimes_append, finishedTimes_append]; simp [finishedTimes]
      · have : (closeActs : List (Act O)).take (n + 4) = closeActs := by simp [closeActs]
        show finishedTimes (g.acts (List.take (n + 4) closeActs)).log = _
        rw [this]
        show finishedTimes (g.log ++ [_] ++ [_] ++ [_]) = _
        rw [finishedTimes_append, finishedTimes_append, finishedTimes_append]; simp [finishedTimes]
    · have hne : ¬ rows = [] := by rintro rfl; simp at hpos
      rw [if_neg hne] at h1
      rw [List.take_length]
      have hsy : (g.acts (List.take n closeActs)).synced = g.synced ∨ (g.acts (List.take n closeActs)).synced = g.total := by
        rcases n with _ | _ | _ | _ | n
        · exact .inl rfl
        · exact .inl rfl
        · exact .inr rfl
        · exact .inr rfl
        · have : (closeActs : List (Act O)).take (n + 4) = closeActs := by simp [closeActs]
          show Ghost.synced (g.acts (List.take (n + 4) closeActs)) = _ ∨ Ghost.synced (g.acts (List.take (n + 4) closeActs)) = _
          rw [this]; exact .inr rfl
      rcases hsy with e | e
      · rw [e, h1]; exact List.prefix_refl _
      · rw [e, h2]; exact List.prefix_refl _
    · have hto : (g.acts (List.take n closeActs)).total = g.total := by
        rcases n with _ | _ | _ | _ | n
        · rfl
        · rfl
        · rfl
        · rfl
        · have : (closeActs : List (Act O)).take (n + 4) = closeActs := by simp [closeActs]
          show Ghost.total (g.acts (List.take (n + 4) closeActs)) = _
          rw [this]; rfl
      rw [hto, h2, List.take_of_length_le (Nat.le_succ _)]; exact List.prefix_refl _

/-- The crash points of a program: the effects so far, with the rows measured up to then (or a bit later). -/
def CrashPoint (ins : ℝ → O → List (List Char)) (step : H → Res H) (measure : H → Res (H × O)) (dt tEnd : ℝ)
    (interval : ℕ) (header : List Char) (h0 : H) (rows : List (ℝ × O)) (p : List (Act O)) : Prop :=
  ∃ s : Traced H O, s.1.out = rows ∧ p <+: s.2 ∧
    ((∃ k, roundsT ins step measure dt interval header h0 k = .val s) ∨
      simulateT ins step measure dt tEnd interval header h0 = .val s)

theorem crashPoint_wf {rows : List (ℝ × O)} {p : List (Act O)}
    (h : CrashPoint ins step measure dt tEnd interval header h0 rows p) :
    ∃ as, WF header ins rows as ∧ p <+: as ++ closeActs := by
  obtain ⟨s, rfl, hp, ⟨k, hk⟩ | hs⟩ := h
  · exact ⟨s.2, iterate_wf k hk, hp.trans (List.prefix_append _ _)⟩
  · obtain ⟨as, hw, e⟩ := simulateT_wf hs
    exact ⟨as, hw, e ▸ hp⟩

/-- **C89**: at every crash point (and after the end), if the file has been opened: the log announces the measurements
`0, …, m-1` in order, for some `m`; when `m > 0` the file starts with the header and the complete rows of all these
measurements; and the file contains nothing but a beginning of the header and the first `m + 1` rows. -/
theorem crash_output {rows : List (ℝ × O)} {p : List (Act O)}
    (h : CrashPoint ins step measure dt tEnd interval header h0 rows p) (hopen : .fopen ∈ p) {old : List Char} {d : Disk O}
    (hr : Run True (Disk.start old) p d) :
    ∃ m ≤ rows.length, finishedTimes d.log = (rows.take m).map Prod.fst ∧
      (0 < m → fileText header (rowText ins) (rows.take m) <+: d.file) ∧
      d.file <+: fileText header (rowText ins) (rows.take (m + 1)) := by
  obtain ⟨as, hw, hp⟩ := crashPoint_wf h
  obtain ⟨h1, h2, h3⟩ := (run_iff old p d.file d.log).1 ⟨d, hr, rfl, rfl⟩
  rcases wf_close_prefix hw old hp with ⟨hno, -⟩ | ⟨-, m, hm, g1, g2, g3⟩
  · exact absurd hopen hno
  · exact ⟨m, hm, h3 ▸ g1, fun hpos => (g2 hpos).trans h1, h2.trans g3⟩

/-- **C89**: the same for a log file which lags behind and shows only a beginning `l` of the lines: the rows it reports as
finished are in the output file. -/
theorem crash_output_log {rows : List (ℝ × O)} {p : List (Act O)}
    (h : CrashPoint ins step measure dt tEnd interval header h0 rows p) (hopen : .fopen ∈ p) {old : List Char} {d : Disk O}
    (hr : Run True (Disk.start old) p d) {l : List (Line O)} (hl : l <+: d.log) :
    ∃ m ≤ rows.length, finishedTimes l = (rows.take m).map Prod.fst ∧
      (0 < m → fileText header (rowText ins) (rows.take m) <+: d.file) := by
  obtain ⟨m, hm, h1, h2, -⟩ := crash_output h hopen hr
  have hpre : finishedTimes l <+: (rows.take m).map Prod.fst := by
    obtain ⟨u, hu⟩ := hl
    rw [← h1, ← hu, finishedTimes_append]; exact List.prefix_append _ _
  have hlen : (finishedTimes l).length ≤ m := by
    have := hpre.length_le; rw [List.length_map, List.length_take] at this; omega
  refine ⟨(finishedTimes l).length, hlen.trans hm, ?_, fun hpos => List.IsPrefix.trans ?_ (h2 (by omega))⟩
  · have := List.prefix_iff_eq_take.1 hpre
    rw [← List.map_take, List.take_take, min_eq_left hlen] at this
    exact this
  · obtain ⟨u, hu⟩ : rows.take (finishedTimes l).length <+: rows.take m := List.take_prefix_take_left hlen
    rw [← hu]; unfold fileText; rw [List.flatMap_append, ← List.append_assoc]; exact List.prefix_append _ _

/-- **C89**: until the file is opened it keeps its earlier content and no measurement is announced. -/
theorem crash_before_open {rows : List (ℝ × O)} {p : List (Act O)}
    (h : CrashPoint ins step measure dt tEnd interval header h0 rows p) (hopen : ¬ (.fopen ∈ p)) {old : List Char}
    {d : Disk O} (hr : Run True (Disk.start old) p d) : d.file = old ∧ finishedTimes d.log = [] := by
  obtain ⟨as, hw, hp⟩ := crashPoint_wf h
  obtain ⟨h1, h2, h3⟩ := (run_iff old p d.file d.log).1 ⟨d, hr, rfl, rfl⟩
  rcases wf_close_prefix hw old hp with ⟨-, g1, g2, g3⟩ | ⟨hyes, -⟩
  · rw [g1] at h1; rw [g2] at h2
    refine ⟨?_, h3 ▸ g3⟩
    exact (h2.eq_of_length (le_antisymm h2.length_le h1.length_le))
  · exact absurd hyes hopen

/-- **C89**: at the end the file is complete. -/
theorem finished_output {s : Traced H O} (h : simulateT ins step measure dt tEnd interval header h0 = .val s)
    {old : List Char} {d : Disk O} (hr : Run True (Disk.start old) s.2 d) :
    d.file = fileText header (rowText ins) s.1.out ∧ finishedTimes d.log = s.1.out.map Prod.fst := by
  obtain ⟨as, hw, e⟩ := simulateT_wf h
  obtain ⟨h1, h2, h3⟩ := (run_iff old s.2 d.file d.log).1 ⟨d, hr, rfl, rfl⟩
  obtain ⟨w1, w2, w3⟩ := wf_acts hw old
  rw [e, Ghost.acts_append] at h1 h2 h3
  set g := (⟨old, old, []⟩ : Ghost O).acts as
  have h1' : g.total <+: d.file := h1
  have h2' : d.file <+: g.total := h2
  refine ⟨?_, ?_⟩
  · rw [← w2]; exact h2'.eq_of_length (le_antisymm h2'.length_le h1'.length_le)
  · rw [h3, ← w3]
    show finishedTimes (g.log ++ [_] ++ [_] ++ [_]) = _
    rw [finishedTimes_append, finishedTimes_append, finishedTimes_append]; simp [finishedTimes]

/-! ## C90: errors while writing -/

theorem run_bad {r : Prop} (as : List (Act O)) (hno : ¬ (.fopen ∈ as)) : ∀ (f p : List Char) (g : Ghost O),
    Run r (⟨f, p, g.log, true⟩ : Disk O) as ⟨f, p, (g.acts as).log, true⟩ := by
  induction as with
  | nil => intro f p g; exact .nil _
  | cons a as ih =>
    intro f p g
    rw [List.mem_cons, not_or] at hno
    have := ih hno.2 f p (g.act a)
    cases a with
    | log x => exact .log this
    | fopen => exact absurd rfl hno.1
    | put s => exact .putBad this
    | flush => exact .flushBad this
    | close => exact .closeBad this
    | work => exact .work this

theorem run_fails (as : List (Act O)) (hno : ¬ (.fopen ∈ as)) : ∀ (f p : List Char) (g : Ghost O) (x : List Char),
    f ++ p = g.total → f <+: x → x <+: (g.acts as).total →
    ∃ d, Run False (⟨f, p, g.log, false⟩ : Disk O) as d ∧ d.file = x ∧ d.log = (g.acts as).log := by
  induction as with
  | nil =>
    intro f p g x hg ⟨a, ha⟩ hx
    obtain ⟨b, hb⟩ : x <+: f ++ p := hg ▸ hx
    have hp : p = a ++ b := by
      rw [← ha, List.append_assoc] at hb; exact (List.append_cancel_left hb).symm
    subst hp
    exact ⟨_, .spill (.nil _), ha, rfl⟩
  | cons c as ih =>
    intro f p g x hg hfx hx
    rw [List.mem_cons, not_or] at hno
    by_cases hnow : x <+: f ++ p
    · obtain ⟨a, ha⟩ := hfx
      obtain ⟨b, hb⟩ := hnow
      have hp : p = a ++ b := by
        rw [← ha, List.append_assoc] at hb; exact (List.append_cancel_left hb).symm
      subst hp
      refine ⟨_, .spillFails (by simp) (run_bad (c :: as) (by simp [hno.1, hno.2]) (f ++ a) [] g), ha, rfl⟩
    · -- go on
      have hmono : ∀ (bs : List (Act O)), ¬ (.fopen ∈ bs) → ∀ g : Ghost O, g.total <+: (g.acts bs).total := by
        intro bs
        induction bs with
        | nil => intro _ g; exact List.prefix_refl _
        | cons b bs ihb =>
          intro hb g
          rw [List.mem_cons, not_or] at hb
          refine List.IsPrefix.trans ?_ (ihb hb.2 (g.act b))
          cases b with
          | put s => exact List.prefix_append _ _
          | fopen => exact absurd rfl hb.1
          | log x => exact List.prefix_refl _
          | flush => exact List.prefix_refl _
          | close => exact List.prefix_refl _
          | work => exact List.prefix_refl _
      have htx : f ++ p <+: x := by
        have h1 : f ++ p <+: (g.acts (c :: as)).total := hg ▸ hmono (c :: as) (by simp [hno.1, hno.2]) g
        rcases List.prefix_or_prefix_of_prefix h1 hx with h | h
        · exact h
        · exact absurd h hnow
      cases c with
      | log y =>
        obtain ⟨d, hd, e⟩ := ih hno.2 f p (g.act (.log y)) x hg hfx hx
        exact ⟨d, .log hd, e⟩
      | fopen => exact absurd rfl hno.1
      | put s =>
        obtain ⟨d, hd, e⟩ := ih hno.2 f (p ++ s) (g.act (.put s)) x
          (by show _ = g.total ++ s; rw [← hg]; simp) hfx hx
        exact ⟨d, .put hd, e⟩
      | flush =>
        obtain ⟨d, hd, e⟩ := ih hno.2 (f ++ p) [] (g.act .flush) x ((List.append_nil _).trans hg) htx hx
        exact ⟨d, .flush hd, e⟩
      | close =>
        obtain ⟨d, hd, e⟩ := ih hno.2 (f ++ p) [] (g.act .close) x ((List.append_nil _).trans hg) htx hx
        exact ⟨d, .close hd, e⟩
      | work =>
        obtain ⟨d, hd, e⟩ := ih hno.2 f p (g.act .work) x hg hfx hx
        exact ⟨d, .work hd, e⟩

theorem wf_split {rows : List (ℝ × O)} {as : List (Act O)} (h : WF header ins rows as) :
    ∃ rest, as = openActs header ++ rest ∧ ¬ (.fopen ∈ rest) := by
  induction h with
  | start => exact ⟨[], by simp, by simp⟩
  | @quiet _ _ b _ hb ih =>
    obtain ⟨rest, rfl, hr⟩ := ih
    refine ⟨rest ++ b, by simp, ?_⟩
    rw [List.mem_append, not_or]
    exact ⟨hr, fun hx => absurd (hb _ hx) (by simp [Quiet])⟩
  | @row _ _ t o _ ih =>
    obtain ⟨rest, rfl, hr⟩ := ih
    refine ⟨rest ++ measureActs ins t o, by simp, ?_⟩
    rw [List.mem_append, not_or]
    exact ⟨hr, by simp [measureActs]⟩

/-- **C90** (refutation): errors are silent. For every beginning `f` of the complete file (also for the empty one) there is an
execution on a failing disk which goes through to the end, announces every measurement as finished, and leaves `f`. -/
theorem write_errors_silent {s : Traced H O} (h : simulateT ins step measure dt tEnd interval header h0 = .val s)
    (old : List Char) {f : List Char} (hf : f <+: fileText header (rowText ins) s.1.out) :
    ∃ d, Run False (Disk.start old) s.2 d ∧ d.file = f ∧ finishedTimes d.log = s.1.out.map Prod.fst := by
  obtain ⟨as, hw, e⟩ := simulateT_wf h
  obtain ⟨rest, hrest, hno⟩ := wf_split hw
  obtain ⟨w1, w2, w3⟩ := wf_acts hw old
  have hno' : ¬ ((.fopen : Act O) ∈ [.log .opened, .put header] ++ rest ++ closeActs) := by
    simp [closeActs, hno]
  have htot : ((⟨old, old, []⟩ : Ghost O).acts s.2).total = ((⟨old, old, []⟩ : Ghost O).acts as).total := by
    rw [e, Ghost.acts_append]; rfl
  have hlog : finishedTimes ((⟨old, old, []⟩ : Ghost O).acts s.2).log = finishedTimes ((⟨old, old, []⟩ : Ghost O).acts as).log := by
    rw [e, Ghost.acts_append]
    show finishedTimes (_ ++ [_] ++ [_] ++ [_]) = _
    rw [finishedTimes_append, finishedTimes_append, finishedTimes_append]; simp [finishedTimes]
  have hs2 : s.2 = .log .opening :: .fopen :: ([.log .opened, .put header] ++ rest ++ closeActs) := by
    rw [e, hrest]; simp [openActs]
  rw [hs2] at htot hlog
  obtain ⟨d, hd, hdf, hdl⟩ := run_fails _ hno' [] [] ⟨[], [], [.opening]⟩ f rfl List.nil_prefix
    (by rw [← w2] at hf; exact htot ▸ hf)
  refine ⟨d, ?_, hdf, ?_⟩
  · rw [hs2]; exact .log (.fopen hd)
  · rw [hdl, ← w3, ← hlog]; rfl

/-- **C90** (refutation): when the output file cannot be opened, the program runs to its end all the same, announces every
measurement as finished, and the file is not touched. -/
theorem open_failure_silent {s : Traced H O} (h : simulateT ins step measure dt tEnd interval header h0 = .val s)
    (old : List Char) :
    ∃ d, Run False (Disk.start old) s.2 d ∧ d.file = old ∧ finishedTimes d.log = s.1.out.map Prod.fst := by
  obtain ⟨as, hw, e⟩ := simulateT_wf h
  obtain ⟨rest, hrest, hno⟩ := wf_split hw
  obtain ⟨w1, w2, w3⟩ := wf_acts hw old
  have hno' : ¬ ((.fopen : Act O) ∈ [.log .opened, .put header] ++ rest ++ closeActs) := by
    simp [closeActs, hno]
  have hlog : finishedTimes ((⟨old, old, []⟩ : Ghost O).acts s.2).log = finishedTimes ((⟨old, old, []⟩ : Ghost O).acts as).log := by
    rw [e, Ghost.acts_append]
    show finishedTimes (_ ++ [_] ++ [_] ++ [_]) = _
    rw [finishedTimes_append, finishedTimes_append, finishedTimes_append]; simp [finishedTimes]
  have hs2 : s.2 = .log .opening :: .fopen :: ([.log .opened, .put header] ++ rest ++ closeActs) := by
    rw [e, hrest]; simp [openActs]
  rw [hs2] at hlog
  have hb := run_bad (r := False) _ hno' old [] ⟨[], [], [.opening]⟩
  have hrun := Run.log (Run.fopenFails (p := []) (by simp) hb) (l := []) (x := .opening)
  rw [← hs2] at hrun
  exact ⟨_, hrun, rfl, by rw [← w3, ← hlog]; rfl⟩

theorem run_any {r : Prop} {d d' : Disk O} {as : List (Act O)} (h : Run r d as d') :
    ∀ {g : Ghost O}, (.fopen ∉ as) → (d.file ++ d.pending = g.total ∧ d.bad = false ∨ d.file <+: g.total ∧ d.bad = true) →
      d'.file <+: (g.acts as).total := by
  have hmono : ∀ (bs : List (Act O)), ¬ (.fopen ∈ bs) → ∀ g : Ghost O, g.total <+: (g.acts bs).total := by
    intro bs
    induction bs with
    | nil => intro _ g; exact List.prefix_refl _
    | cons b bs ihb =>
      intro hb g
      rw [List.mem_cons, not_or] at hb
      refine List.IsPrefix.trans ?_ (ihb hb.2 (g.act b))
      cases b with
      | put s => exact List.prefix_append _ _
      | fopen => exact absurd rfl hb.1
      | log x => exact List.prefix_refl _
      | flush => exact List.prefix_refl _
      | close => exact List.prefix_refl _
      | work => exact List.prefix_refl _
  induction h with
  | nil =>
    intro g _ hg
    rcases hg with ⟨hg, -⟩ | ⟨hg, -⟩
    · exact ⟨_, hg⟩
    · exact hg
  | spill _ ih =>
    intro g hno hg
    rcases hg with ⟨hg, -⟩ | ⟨-, hg⟩
    · exact ih hno (.inl ⟨by simpa using hg, rfl⟩)
    · cases hg
  | spillFails _ _ ih =>
    intro g hno hg
    rcases hg with ⟨hg, -⟩ | ⟨-, hg⟩
    · exact ih hno (.inr ⟨⟨_, by simpa using hg⟩, rfl⟩)
    · cases hg
  | @log _ _ _ _ x _ _ _ ih =>
    intro g hno hg
    exact ih (g := g.act (.log x)) (fun h => hno (List.mem_cons_of_mem _ h)) hg
  | work _ ih =>
    intro g hno hg
    exact ih (g := g.act .work) (fun h => hno (List.mem_cons_of_mem _ h)) hg
  | fopen => intro g hno; exact absurd List.mem_cons_self hno
  | fopenFails => intro g hno; exact absurd List.mem_cons_self hno
  | @put _ _ _ s _ _ _ ih =>
    intro g hno hg
    rcases hg with ⟨hg, -⟩ | ⟨-, hg⟩
    · exact ih (g := g.act (.put s)) (fun h => hno (List.mem_cons_of_mem _ h))
        (.inl ⟨by show _ = g.total ++ s; rw [← hg]; simp, rfl⟩)
    · cases hg
  | flush _ ih =>
    intro g hno hg
    rcases hg with ⟨hg, -⟩ | ⟨-, hg⟩
    · exact ih (g := g.act .flush) (fun h => hno (List.mem_cons_of_mem _ h)) (.inl ⟨by simpa [Ghost.act] using hg, rfl⟩)
    · cases hg
  | close _ ih =>
    intro g hno hg
    rcases hg with ⟨hg, -⟩ | ⟨-, hg⟩
    · exact ih (g := g.act .close) (fun h => hno (List.mem_cons_of_mem _ h)) (.inl ⟨by simpa [Ghost.act] using hg, rfl⟩)
    · cases hg
  | @putBad _ _ _ s _ _ _ ih =>
    intro g hno hg
    rcases hg with ⟨-, hg⟩ | ⟨hg, -⟩
    · cases hg
    · exact ih (g := g.act (.put s)) (fun h => hno (List.mem_cons_of_mem _ h))
        (.inr ⟨hg.trans (List.prefix_append _ _), rfl⟩)
  | flushBad _ ih =>
    intro g hno hg
    rcases hg with ⟨-, hg⟩ | ⟨hg, -⟩
    · cases hg
    · exact ih (g := g.act .flush) (fun h => hno (List.mem_cons_of_mem _ h)) (.inr ⟨hg, rfl⟩)
  | closeBad _ ih =>
    intro g hno hg
    rcases hg with ⟨-, hg⟩ | ⟨hg, -⟩
    · cases hg
    · exact ih (g := g.act .close) (fun h => hno (List.mem_cons_of_mem _ h)) (.inr ⟨hg, rfl⟩)

theorem run_nil_file {r : Prop} {f : List Char} {l : List (Line O)} {b : Bool} {d : Disk O}
    (h : Run r (⟨f, [], l, b⟩ : Disk O) [] d) : d.file = f := by
  generalize hd : (⟨f, [], l, b⟩ : Disk O) = d0 at h
  generalize has : ([] : List (Act O)) = as at h
  induction h generalizing b with
  | nil => subst hd; rfl
  | @spill f' a b' l' as d' _ ih =>
    injection hd with h1 h2 h3 h4
    obtain ⟨rfl, rfl⟩ := List.append_eq_nil_iff.1 h2.symm
    subst h1; subst h3
    exact ih (by rw [List.append_nil]) has
  | @spillFails f' a b' l' as d' _ _ ih =>
    injection hd with h1 h2 h3 h4
    obtain ⟨rfl, rfl⟩ := List.append_eq_nil_iff.1 h2.symm
    subst h1; subst h3
    exact ih (by rw [List.append_nil]) has
  | log => cases has
  | work => cases has
  | fopen => cases has
  | fopenFails => cases has
  | put => cases has
  | flush => cases has
  | close => cases has
  | putBad => cases has
  | flushBad => cases has
  | closeBad => cases has

theorem run_log_cases {r : Prop} {f : List Char} {l : List (Line O)} {b : Bool} {x : Line O} {as : List (Act O)} {d : Disk O}
    (h : Run r (⟨f, [], l, b⟩ : Disk O) (.log x :: as) d) : ∃ b', Run r (⟨f, [], l ++ [x], b'⟩ : Disk O) as d := by
  generalize hd : (⟨f, [], l, b⟩ : Disk O) = d0 at h
  generalize has : (.log x :: as : List (Act O)) = as' at h
  induction h generalizing b with
  | nil => cases has
  | spill _ ih =>
    injection hd with h1 h2 h3 h4
    obtain ⟨rfl, rfl⟩ := List.append_eq_nil_iff.1 h2.symm
    subst h1; subst h3
    exact ih (by rw [List.append_nil]) has
  | spillFails _ _ ih =>
    injection hd with h1 h2 h3 h4
    obtain ⟨rfl, rfl⟩ := List.append_eq_nil_iff.1 h2.symm
    subst h1; subst h3
    exact ih (by rw [List.append_nil]) has
  | log h' =>
    injection has with h5 h6
    injection h5 with h7
    injection hd with h1 h2 h3 h4
    subst h1 h2 h3 h4 h6 h7
    exact ⟨_, h'⟩
  | work => cases has
  | fopen => cases has
  | fopenFails => cases has
  | put => cases has
  | flush => cases has
  | close => cases has
  | putBad => cases has
  | flushBad => cases has
  | closeBad => cases has

theorem run_open_cases {r : Prop} {f : List Char} {l : List (Line O)} {b : Bool} {as : List (Act O)} {d : Disk O}
    (h : Run r (⟨f, [], l, b⟩ : Disk O) (.fopen :: as) d) :
    Run r (⟨[], [], l, false⟩ : Disk O) as d ∨ Run r (⟨f, [], l, true⟩ : Disk O) as d := by
  generalize hd : (⟨f, [], l, b⟩ : Disk O) = d0 at h
  generalize has : (.fopen :: as : List (Act O)) = as' at h
  induction h generalizing b with
  | nil => cases has
  | spill _ ih =>
    injection hd with h1 h2 h3 h4
    obtain ⟨rfl, rfl⟩ := List.append_eq_nil_iff.1 h2.symm
    subst h1; subst h3
    exact ih (by rw [List.append_nil]) has
  | spillFails _ _ ih =>
    injection hd with h1 h2 h3 h4
    obtain ⟨rfl, rfl⟩ := List.append_eq_nil_iff.1 h2.symm
    subst h1; subst h3
    exact ih (by rw [List.append_nil]) has
  | log => cases has
  | work => cases has
  | fopen h' =>
    injection has with h5 h6
    injection hd with h1 h2 h3 h4
    subst h3 h6
    exact .inl h'
  | fopenFails _ h' =>
    injection has with h5 h6
    injection hd with h1 h2 h3 h4
    subst h1 h3 h6
    exact .inr h'
  | put => cases has
  | flush => cases has
  | close => cases has
  | putBad => cases has
  | flushBad => cases has
  | closeBad => cases has

theorem run_bad_file {r : Prop} {d d' : Disk O} {as : List (Act O)} (h : Run r d as d') (hb : d.bad = true) :
    d'.file = d.file := by
  induction h with
  | nil => rfl
  | spill => cases hb
  | spillFails => cases hb
  | log _ ih => exact ih hb
  | work _ ih => exact ih hb
  | fopen => cases hb
  | fopenFails => cases hb
  | put => cases hb
  | flush => cases hb
  | close => cases hb
  | putBad _ ih => exact ih hb
  | flushBad _ ih => exact ih hb
  | closeBad _ ih => exact ih hb

theorem acts_mono (bs : List (Act O)) (hb : ¬ (.fopen ∈ bs)) (g : Ghost O) : g.total <+: (g.acts bs).total :=
  run_any (r := True) (d := ⟨g.total, [], g.log, true⟩) (run_bad bs hb g.total [] g) hb (.inr ⟨List.prefix_refl _, rfl⟩)

/-- **C90**: whatever fails, at every crash point the file has its earlier content or a beginning of the complete file. -/
theorem file_never_wrong {r : Prop} {rows : List (ℝ × O)} {p : List (Act O)}
    (h : CrashPoint ins step measure dt tEnd interval header h0 rows p) {old : List Char} {d : Disk O}
    (hr : Run r (Disk.start old) p d) : d.file = old ∨ d.file <+: fileText header (rowText ins) rows := by
  obtain ⟨as, hw, hp⟩ := crashPoint_wf h
  obtain ⟨rest, hrest, hno⟩ := wf_split hw
  obtain ⟨w1, w2, w3⟩ := wf_acts hw old
  have hno' : ¬ ((.fopen : Act O) ∈ [.log .opened, .put header] ++ rest ++ closeActs) := by
    simp [closeActs, hno]
  have hall : as ++ closeActs = [.log .opening, .fopen] ++ ([.log .opened, .put header] ++ rest ++ closeActs) := by
    rw [hrest]; simp [openActs]
  have htot : (Ghost.acts ⟨[], [], [.opening]⟩ ([.log .opened, .put header] ++ rest ++ closeActs) : Ghost O).total =
      fileText header (rowText ins) rows := by
    rw [← w2]
    have : ((⟨old, old, []⟩ : Ghost O).acts (as ++ closeActs)).total = ((⟨old, old, []⟩ : Ghost O).acts as).total := by
      rw [Ghost.acts_append]; rfl
    rw [← this, hall]; rfl
  rw [hall] at hp
  rcases prefix_append_cases hp with h1 | ⟨q, rfl, hq⟩
  · obtain ⟨n, rfl⟩ : ∃ n, p = [Act.log Line.opening, Act.fopen].take n := ⟨_, List.prefix_iff_eq_take.1 h1⟩
    rcases n with _ | _ | n
    · exact .inl (run_nil_file hr)
    · obtain ⟨b', h2⟩ := run_log_cases hr
      exact .inl (run_nil_file h2)
    · have e2 : ([Act.log Line.opening, Act.fopen] : List (Act O)).take (n + 1 + 1) = [.log .opening, .fopen] := by simp
      rw [e2] at hr
      obtain ⟨b', h2⟩ := run_log_cases hr
      rcases run_open_cases h2 with h3 | h3
      · right; rw [run_nil_file h3]; exact List.nil_prefix
      · exact .inl (run_nil_file h3)
  · obtain ⟨b', h2⟩ := run_log_cases hr
    rcases run_open_cases h2 with h3 | h3
    · right
      obtain ⟨q', hq'⟩ := hq
      have hnq : ¬ ((.fopen : Act O) ∈ q) := fun hx => hno' (hq' ▸ List.mem_append_left _ hx)
      have hnq' : ¬ ((.fopen : Act O) ∈ q') := fun hx => hno' (hq' ▸ List.mem_append_right _ hx)
      refine (run_any h3 (g := ⟨[], [], [.opening]⟩) hnq (.inl ⟨rfl, rfl⟩)).trans ?_
      rw [← htot, ← hq', Ghost.acts_append]
      exact acts_mono q' hnq' _
    · left; exact run_bad_file h3 rfl

/-! ## C91: torn rows -/

theorem wf_row_inside {rows : List (ℝ × O)} {as : List (Act O)} (h : WF header ins rows as) :
    ∀ {j : ℕ} (hj : j < rows.length), ∃ a, WF header ins (rows.take j) a ∧
      a ++ ([.log (.measuring rows[j].1), .work, .log (.value rows[j].1 rows[j].2)] ++ (ins rows[j].1 rows[j].2).map .put) <+: as := by
  induction h with
  | start => intro j hj; simp at hj
  | quiet _ _ ih =>
    intro j hj
    obtain ⟨a, h1, h2⟩ := ih hj
    exact ⟨a, h1, h2.trans (List.prefix_append _ _)⟩
  | @row rows a t o ha ih =>
    intro j hj
    by_cases hlt : j < rows.length
    · obtain ⟨a', h1, h2⟩ := ih hlt
      refine ⟨a', ?_, ?_⟩
      · rw [List.take_append_of_le_length hlt.le]; exact h1
      · rw [List.getElem_append_left hlt]; exact h2.trans (List.prefix_append _ _)
    · have hj' : j = rows.length := by simp at hj; omega
      subst hj'
      refine ⟨a, by simpa using ha, ?_⟩
      rw [List.getElem_append_right le_rfl]
      simp only [Nat.sub_self, List.getElem_cons_zero]
      rw [List.prefix_append_right_inj]
      unfold measureActs
      exact List.prefix_append _ _

/-- **C91** (refutation): a crash can tear a row anywhere. For every row of a run and every beginning `f` of its text there is
a crash point at which the file consists of the header, all earlier rows, and `f`. -/
theorem crash_torn {s : Traced H O} (h : simulateT ins step measure dt tEnd interval header h0 = .val s) (old : List Char)
    {j : ℕ} (hj : j < s.1.out.length) {f : List Char} (hf : f <+: rowText ins s.1.out[j].1 s.1.out[j].2) :
    ∃ p d, CrashPoint ins step measure dt tEnd interval header h0 s.1.out p ∧ Run True (Disk.start old) p d ∧
      d.file = fileText header (rowText ins) (s.1.out.take j) ++ f ∧
      finishedTimes d.log = (s.1.out.take j).map Prod.fst := by
  obtain ⟨as, hw, e⟩ := simulateT_wf h
  obtain ⟨a, ha, hpre⟩ := wf_row_inside hw hj
  obtain ⟨w1, w2, w3⟩ := wf_acts ha old
  set q : List (Act O) := [.log (.measuring s.1.out[j].1), .work, .log (.value s.1.out[j].1 s.1.out[j].2)] with hq
  have hq3 : ∀ x ∈ q, Quiet x := by
    intro x hx
    simp only [hq, List.mem_cons, List.not_mem_nil, or_false] at hx
    rcases hx with rfl | rfl | rfl <;> trivial
  obtain ⟨k1, k2, k3⟩ := quiet_acts hq3 ((⟨old, old, []⟩ : Ghost O).acts a)
  obtain ⟨d, hd, hdf, hdl⟩ := (run_iff old (a ++ (q ++ (ins s.1.out[j].1 s.1.out[j].2).map .put))
    (fileText header (rowText ins) (s.1.out.take j) ++ f) _).2 ⟨by
      rw [Ghost.acts_append, Ghost.acts_append, Ghost.acts_puts]
      show Ghost.synced _ <+: _
      rw [k1, w1]
      split_ifs
      · exact List.nil_prefix
      · exact List.prefix_append _ _, by
      rw [Ghost.acts_append, Ghost.acts_append, Ghost.acts_puts]
      show _ <+: Ghost.total _ ++ _
      rw [k2, w2, List.prefix_append_right_inj]
      exact hf, rfl⟩
  refine ⟨_, d, ⟨s, rfl, ?_, .inr h⟩, hd, hdf, ?_⟩
  · rw [e]; exact hpre.trans (List.prefix_append _ _)
  · rw [hdl, Ghost.acts_append, Ghost.acts_append, Ghost.acts_puts]
    show finishedTimes (Ghost.log _) = _
    rw [k3, w3]

/-- **C91** (refutation): the header can be torn as well; the earlier content of the file is lost then already. -/
theorem crash_torn_header {s : Traced H O} (h : simulateT ins step measure dt tEnd interval header h0 = .val s) (old : List Char)
    {f : List Char} (hf : f <+: header) :
    ∃ p d, CrashPoint ins step measure dt tEnd interval header h0 s.1.out p ∧ Run True (Disk.start old) p d ∧
      d.file = f ∧ finishedTimes d.log = [] := by
  obtain ⟨as, hw, e⟩ := simulateT_wf h
  obtain ⟨rest, hrest, -⟩ := wf_split hw
  obtain ⟨d, hd, hdf, hdl⟩ := (run_iff (O := O) old (openActs header) f _).2 ⟨List.nil_prefix, by
      simpa [openActs, Ghost.acts, Ghost.act] using hf, rfl⟩
  refine ⟨_, d, ⟨s, rfl, ?_, .inr h⟩, hd, hdf, by rw [hdl]; rfl⟩
  rw [e, hrest, List.append_assoc]; exact List.prefix_append _ _

theorem completeLines_prefix {a b : List Char} (h : a <+: b) : completeLines a <+: completeLines b := by
  induction a generalizing b with
  | nil => exact List.nil_prefix
  | cons c a ih =>
    obtain ⟨t, rfl⟩ := h
    have hi := ih (b := a ++ t) (List.prefix_append _ _)
    show completeLines (c :: a) <+: completeLines (c :: (a ++ t))
    unfold completeLines
    by_cases hc : c = '\n'
    · rw [if_pos hc, if_pos hc]
      exact (List.prefix_cons_inj _).2 hi
    · rw [if_neg hc, if_neg hc]
      cases ha : completeLines a with
      | nil => exact List.nil_prefix
      | cons l ls =>
        rw [ha] at hi
        obtain ⟨u, hu⟩ := hi
        rw [← hu]
        exact ⟨u, rfl⟩

/-- **C91**: the lines of the file which end with a line break are lines of the complete file, at every crash point and
whatever fails (or the file has not been opened). -/
theorem crash_complete_lines {r : Prop} {rows : List (ℝ × O)} {p : List (Act O)}
    (h : CrashPoint ins step measure dt tEnd interval header h0 rows p) {old : List Char} {d : Disk O}
    (hr : Run r (Disk.start old) p d) :
    d.file = old ∨ completeLines d.file <+: completeLines (fileText header (rowText ins) rows) :=
  (file_never_wrong h hr).imp_right completeLines_prefix

end Programs

/-- **C91**: a program which does not flush: after all insertions, before `close`, the file can be any beginning of the text, in
particular empty. -/
theorem plain_crash_iff (old : List Char) (rows : List (List (List Char))) (f : List Char) :
    (∃ d : Disk O, Run True (Disk.start old) ([.fopen] ++ rows.flatten.map .put) d ∧ d.file = f) ↔
      f <+: rows.flatten.flatten := by
  have e : (⟨old, old, []⟩ : Ghost O).acts ([.fopen] ++ rows.flatten.map .put) = ⟨[], rows.flatten.flatten, []⟩ := by
    rw [Ghost.acts_append, Ghost.acts_puts]; rfl
  constructor
  · rintro ⟨d, hd, rfl⟩
    have := ((run_iff old _ d.file d.log).1 ⟨d, hd, rfl, rfl⟩).2.1
    rwa [e] at this
  · intro hf
    obtain ⟨d, hd, hdf, -⟩ := (run_iff (O := O) old ([.fopen] ++ rows.flatten.map .put) f []).2
      (by rw [e]; exact ⟨List.nil_prefix, hf, rfl⟩)
    exact ⟨d, hd, hdf⟩

/-- **C91**: after `close` its file is complete. -/
theorem plain_finished (old : List Char) (rows : List (List (List Char))) {d : Disk O}
    (h : Run True (Disk.start old) (plainActs rows) d) : d.file = rows.flatten.flatten := by
  have e : (⟨old, old, []⟩ : Ghost O).acts (plainActs rows) = ⟨rows.flatten.flatten, rows.flatten.flatten, []⟩ := by
    unfold plainActs
    rw [Ghost.acts_append, Ghost.acts_append, Ghost.acts_puts]; rfl
  obtain ⟨h1, h2, -⟩ := (run_iff old _ d.file d.log).1 ⟨d, h, rfl, rfl⟩
  rw [e] at h1 h2
  exact h2.eq_of_length (le_antisymm h2.length_le h1.length_le)

/-! ## The rows -/

/-- **C89**: a row of the programs which write an observable: time and value. -/
theorem occupationRow_text (shw : ℝ → List Char) (t obs : ℝ) :
    rowText (occupationRow shw) t obs = tabRow [shw t, shw obs] := by
  simp [rowText, occupationRow, tabRow, List.intercalate, List.intersperse]

theorem intercalate_cons_flatMap (sep x : List Char) (ys : List (List Char)) :
    List.intercalate sep (x :: ys) = x ++ ys.flatMap fun y => sep ++ y := by
  induction ys generalizing x with
  | nil => simp [List.intercalate]
  | cons y ys ih =>
    have : List.intercalate sep (x :: y :: ys) = x ++ (sep ++ List.intercalate sep (y :: ys)) := by
      simp [List.intercalate, List.intersperse]
    rw [this, ih, List.flatMap_cons, List.append_assoc]

/-- **C89**: a row of the programs which write the coefficients: time, then real and imaginary part of every one. -/
theorem coefficientsRow_text (shw : ℝ → List Char) (t : ℝ) (h : List (ℝ × ℝ)) :
    rowText (coefficientsRow shw) t h = tabRow (shw t :: h.flatMap fun el => [shw el.1, shw el.2]) := by
  unfold rowText coefficientsRow tabRow
  rw [intercalate_cons_flatMap, List.flatten_append, List.flatten_append]
  have : ∀ h : List (ℝ × ℝ), (h.flatMap fun el => [['\t'], shw el.1, ['\t'], shw el.2]).flatten =
      (h.flatMap fun el => [shw el.1, shw el.2]).flatMap fun y => ['\t'] ++ y := by
    intro h
    induction h with
    | nil => rfl
    | cons e h ih => rw [List.flatMap_cons, List.flatMap_cons, List.flatten_append, List.flatMap_append, ih]; simp
  rw [this]; simp

/-! ## The hypotheses are met -/

/-- A run with two measurements, at `t = 0` and `t = 1`, and 100 steps. -/
theorem durability_example (ins : ℝ → ℕ → List (List Char)) (header : List Char) :
    ∃ s, simulateT ins (fun k : ℕ => .val (k + 1)) (fun k : ℕ => .val (k, k)) (1 / 100) 1 100 header 0 = .val s ∧
      s.1.out.map Prod.snd = [0, 100] := by
  obtain ⟨s, e, -, -, ho⟩ := simulateM_output (step := fun k : ℕ => .val (k + 1)) (measure := fun k : ℕ => .val (k, k))
    (dt := 1 / 100) (tEnd := 1) (by norm_num) (interval := 100) (by norm_num) (inv := fun k x => x = k) (o := id) (h0 := 0)
    (fun k _ x hx => ⟨k + 1, by rw [hx], rfl⟩) (fun k _ x hx => ⟨k, by rw [hx]; rfl, rfl⟩) rfl
  rw [← simulateT_fst (ins := ins) (header := header)] at e
  obtain ⟨s', e', rfl⟩ := map_eq_val e
  refine ⟨s', e', ?_⟩
  have hn : ⌈(1 : ℝ) / (1 / 100)⌉₊ = 100 := by norm_num
  rw [ho, hn]
  rfl

/-- A row torn to another number: instead of `0<tab>12` the file ends with `0<tab>1`. -/
example : ['0', '\t', '1'] <+: rowText (occupationRow fun x => if x = 0 then ['0'] else ['1', '2']) 0 1 := by
  refine ⟨['2', '\n'], ?_⟩
  simp [rowText, occupationRow]

end Ieompp.Durability
