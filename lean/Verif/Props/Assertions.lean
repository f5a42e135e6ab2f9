import Verif.Model.Assertions
import Verif.Props.FloatReduction
import Verif.Props.Program
import Verif.Props.JumpProgram

/-!
# C121: the assertions of the programs

Refinement between the programs with assertions (`Verif.Model.Assertions`) and the programs without (`Verif.Model.ProgramFloat`).
-/

set_option autoImplicit false
set_option linter.unusedSectionVars false

namespace Ieompp

namespace Chk
variable {α β γ : Type*}

@[simp] theorem andThen_some (a : α) (f : α → Chk β) : andThen (.val (some a)) f = f a := rfl
@[simp] theorem andThen_none (f : α → Chk β) : andThen (.val none) f = .val none := rfl
@[simp] theorem andThen_ub (f : α → Chk β) : andThen .ub f = .ub := rfl
@[simp] theorem andThen_diverges (f : α → Chk β) : andThen .diverges f = .diverges := rfl
@[simp] theorem lift_val (a : α) : lift (.val a) = .val (some a) := rfl
@[simp] theorem lift_ub : lift (.ub : Res α) = .ub := rfl
@[simp] theorem lift_diverges : lift (.diverges : Res α) = .diverges := rfl

theorem andThen_lift (x : Res α) (f : α → Chk β) : andThen (lift x) f = x.bind f := by cases x <;> rfl

theorem lift_bind (x : Res α) (f : α → Res β) : lift (x.bind f) = x.bind fun a => lift (f a) := by cases x <;> rfl

theorem lift_map (x : Res α) (f : α → β) : lift (x.map f) = x.bind fun a => .val (some (f a)) := by cases x <;> rfl

theorem assertAll_true {cs : List (Res Bool)} (h : ∀ c ∈ cs, c = .val true) : assertAll cs = .val (some ()) := by
  induction cs with
  | nil => rfl
  | cons c cs ih =>
    rw [assertAll, h c (by simp)]
    exact ih fun c hc => h c (by simp [hc])

/-- The outcomes of a computation with assertions: either the assertions hold and nothing changes, or one of them fails. -/
def Guarded (x : Chk α) (y : Res α) : Prop := x = lift y ∨ x = .val none

theorem Guarded.bind {x : Chk α} {y : Res α} {f : α → Chk β} {g : α → Res β} (h : Guarded x y) (hf : ∀ a, y = .val a → Guarded (f a) (g a)) :
    Guarded (andThen x f) (y.bind g) := by
  rcases h with rfl | rfl
  · cases y with
    | val a => exact hf a rfl
    | ub => exact .inl rfl
    | diverges => exact .inl rfl
  · exact .inr rfl

end Chk

open Chk

/-! ## Loops -/

theorem whileLoop_image {α β : Type*} {cond : α → Prop} {cond' : β → Prop} {body : α → α} {body' : β → β} (g : α → β) (P : α → Prop)
    (hc : ∀ x, P x → (cond' (g x) ↔ cond x)) (hb : ∀ x, P x → body' (g x) = g (body x)) (hP : ∀ x, P x → P (body x)) {x : α} (hx : P x) :
    whileLoop cond' body' (g x) = (whileLoop cond body x).map g := by
  classical
  have h : ∀ n, P (body^[n] x) ∧ body'^[n] (g x) = g (body^[n] x) := by
    intro n
    induction n with
    | zero => exact ⟨hx, rfl⟩
    | succ n ih =>
      rw [Function.iterate_succ_apply', Function.iterate_succ_apply', ih.2]
      exact ⟨hP _ ih.1, hb _ ih.1⟩
  have hcn : ∀ n, (¬ cond' (body'^[n] (g x))) ↔ ¬ cond (body^[n] x) := fun n => by rw [(h n).2, hc _ (h n).1]
  unfold whileLoop
  by_cases he : ∃ n, ¬ cond (body^[n] x)
  · have he' : ∃ n, ¬ cond' (body'^[n] (g x)) := by simpa only [hcn] using he
    rw [dif_pos he, dif_pos he']
    have : Nat.find he' = Nat.find he := Nat.find_congr' (fun {n} => hcn n)
    rw [this, (h _).2]; rfl
  · have he' : ¬ ∃ n, ¬ cond' (body'^[n] (g x)) := by simpa only [hcn] using he
    rw [dif_neg he, dif_neg he']; rfl

/-! ## Site occupation -/

namespace RealSpace

open MomentumSpace (vecAt)

section
variable {fl : ℝ → ℝ} {ev : HOp → HOp → ℝ} {basis conj : List HMonomial} {vec : List ℂ}

theorem evAtA_eq {fA : HMonomial → HMonomial → Chk ℝ} {f : HMonomial → HMonomial → Res ℝ} {i j : ℕ} {a b : HMonomial}
    (ha : basis[i]? = some a) (hb : conj[j]? = some b) (h : fA a b = lift (f a b)) :
    evAtA basis conj fA i j = lift (evAt basis conj f i j) := by
  rw [evAtA, evAt, vecAt_get ha, vecAt_get hb]; exact h

theorem fullTermA_eq {fA : HMonomial → HMonomial → Chk ℝ} {f : HMonomial → HMonomial → Res ℝ} {i j : ℕ}
    (h : evAtA basis conj fA i j = lift (evAt basis conj f i j)) :
    fullTermA fl basis conj vec fA i j = lift (fullTermF fl basis conj vec f i j) := by
  rw [fullTermA, fullTermF, h, andThen_lift, lift_bind]

theorem symTermA_eq {fA : HMonomial → HMonomial → Chk ℝ} {f : HMonomial → HMonomial → Res ℝ} {i j : ℕ}
    (h : evAtA basis conj fA i j = lift (evAt basis conj f i j)) :
    symTermA fl basis conj vec fA i j = lift (symTermF fl basis conj vec f i j) := by
  rw [symTermA, symTermF, h, andThen_lift, lift_bind]

theorem triTermA_eq {fA : HMonomial → HMonomial → Chk ℝ} {f : HMonomial → HMonomial → Res ℝ} {i j : ℕ}
    (h : evAtA basis conj fA i j = lift (evAt basis conj f i j)) :
    triTermA fl basis conj vec fA i j = lift (triTermF fl basis conj vec f i j) := by
  rw [triTermA, triTermF]
  split_ifs with hij
  · subst hij
    rw [diagTermA, diagTermF, h, andThen_lift, lift_bind]
  · exact symTermA_eq h

theorem runLoopA_eq {bodyA : ℕ → ℕ → Chk ℂ} {body : ℕ → ℕ → Res ℂ} {sched : List Event}
    (h : ∀ e ∈ sched, bodyA e.2.1 e.2.2 = lift (body e.2.1 e.2.2)) (results : List ℂ) :
    runLoopA fl bodyA sched results = lift (runLoopF fl body sched results) := by
  unfold runLoopA runLoopF
  have key : ∀ (s : List Event) (acc : Res (List ℂ)), (∀ e ∈ s, bodyA e.2.1 e.2.2 = lift (body e.2.1 e.2.2)) →
      s.foldl (fun (acc : Chk (List ℂ)) e => andThen acc fun r => andThen (bodyA e.2.1 e.2.2) fun x => lift (addToF fl r e.1 x)) (lift acc) =
      lift (s.foldl (fun acc e => acc.bind fun r => (body e.2.1 e.2.2).bind fun x => addToF fl r e.1 x) acc) := by
    intro s
    induction s with
    | nil => intro acc _; rfl
    | cons e s ih =>
      intro acc hs
      rw [List.foldl_cons, List.foldl_cons, ← ih _ fun e he => hs e (by simp [he])]
      congr 1
      rw [andThen_lift, lift_bind]
      congr 1
      funext r
      rw [hs e (by simp), andThen_lift, lift_bind]
  exact key sched (.val results) h

/-- All entries of the vector are real. -/
def AllReal (v : List ℂ) : Prop := ∀ z ∈ v, z.im = 0

theorem addToF_real (hfl : fl 0 = 0) {r r' : List ℂ} {t : ℕ} {x : ℂ} (hr : AllReal r) (hx : x.im = 0) (h : addToF fl r t x = .val r') : AllReal r' := by
  unfold addToF vecAt at h
  cases hg : r[t]? with
  | none => rw [hg] at h; exact absurd h (by simp)
  | some y =>
    rw [hg] at h
    simp only [Res.bind_val, Res.val.injEq] at h
    subst h
    intro z hz
    rcases List.mem_or_eq_of_mem_set hz with hz | rfl
    · exact hr z hz
    · have : y.im = 0 := hr y (List.mem_of_getElem? hg)
      simp [addC, this, hx, hfl]

theorem runLoopF_real (hfl : fl 0 = 0) {body : ℕ → ℕ → Res ℂ} {sched : List Event} (hb : ∀ i j x, body i j = .val x → x.im = 0)
    {results r' : List ℂ} (hr : AllReal results) (h : runLoopF fl body sched results = .val r') : AllReal r' := by
  unfold runLoopF at h
  have key : ∀ (s : List Event) (acc : Res (List ℂ)), (∀ v, acc = .val v → AllReal v) → ∀ r',
      s.foldl (fun acc e => acc.bind fun r => (body e.2.1 e.2.2).bind fun x => addToF fl r e.1 x) acc = .val r' → AllReal r' := by
    intro s
    induction s with
    | nil => intro acc ha r' h; exact ha r' h
    | cons e s ih =>
      intro acc ha r' h
      refine ih _ ?_ r' h
      intro v hv
      cases acc with
      | ub => exact absurd hv (by simp)
      | diverges => exact absurd hv (by simp)
      | val a =>
        beta_reduce at hv
        rw [Res.bind_val] at hv
        cases hx : body e.2.1 e.2.2 with
        | ub => rw [hx] at hv; exact absurd hv (by simp)
        | diverges => rw [hx] at hv; exact absurd hv (by simp)
        | val x =>
          rw [hx] at hv
          exact addToF_real hfl (ha a rfl) (hb _ _ _ hx) hv
  exact key sched _ (fun v hv => by cases hv; exact hr) r' h

theorem accumulateF_real (hfl : fl 0 = 0) {v : List ℂ} (hv : AllReal v) : (accumulateF fl v).im = 0 := by
  unfold accumulateF
  have key : ∀ (v : List ℂ) (a : ℂ), AllReal v → a.im = 0 → (v.foldl (addC fl) a).im = 0 := by
    intro v
    induction v with
    | nil => intro a _ ha; exact ha
    | cons x v ih =>
      intro a hv ha
      exact ih _ (fun z hz => hv z (by simp [hz])) (by simp [addC, ha, hv x (by simp), hfl])
  exact key v 0 hv rfl

theorem symTermF_real {f : HMonomial → HMonomial → Res ℝ} {i j : ℕ} {x : ℂ} (h : symTermF fl basis conj vec f i j = .val x) : x.im = 0 := by
  unfold symTermF at h
  cases h1 : evAt basis conj f i j with
  | ub => rw [h1] at h; exact absurd h (by simp)
  | diverges => rw [h1] at h; exact absurd h (by simp)
  | val e =>
    rw [h1, Res.bind_val] at h
    cases h2 : vecAt vec i with
    | ub => rw [h2] at h; exact absurd h (by simp)
    | diverges => rw [h2] at h; exact absurd h (by simp)
    | val vi =>
      rw [h2, Res.bind_val] at h
      cases h3 : vecAt vec j with
      | ub => rw [h3] at h; exact absurd h (by simp)
      | diverges => rw [h3] at h; exact absurd h (by simp)
      | val vj =>
        rw [h3, Res.bind_val] at h
        cases h
        exact Complex.ofReal_im _

theorem triTermF_real {f : HMonomial → HMonomial → Res ℝ} {i j : ℕ} {x : ℂ} (h : triTermF fl basis conj vec f i j = .val x) : x.im = 0 := by
  unfold triTermF at h
  split_ifs at h with hij
  · unfold diagTermF at h
    cases h1 : evAt basis conj f i i with
    | ub => rw [h1] at h; exact absurd h (by simp)
    | diverges => rw [h1] at h; exact absurd h (by simp)
    | val e =>
      rw [h1, Res.bind_val] at h
      cases h2 : vecAt vec i with
      | ub => rw [h2] at h; exact absurd h (by simp)
      | diverges => rw [h2] at h; exact absurd h (by simp)
      | val vi =>
        rw [h2, Res.bind_val] at h
        cases h
        exact Complex.ofReal_im _
  · exact symTermF_real h

theorem realPart_real {z : ℂ} (hz : z.im = 0) : realPart z = .val (some z.re) := by
  unfold realPart
  rw [assertAll_true]
  · rfl
  · intro c hc
    simp only [List.mem_singleton] at hc
    subst hc
    simp [isZeroR, hz]

theorem realPart_guarded (z : ℂ) : Guarded (realPart z) (.val z.re) := by
  classical
  unfold realPart assertAll
  by_cases h : isZeroR (1 / 2 ^ 52) z.im
  · left; simp only [h, decide_true]; rfl
  · right; simp only [h, decide_false]; rfl

end

theorem pairsRect_range {lo hi lo' hi' i j : ℕ} (h : (i, j) ∈ pairsRect lo hi lo' hi') : lo ≤ i ∧ i < hi ∧ lo' ≤ j ∧ j < hi' := by
  unfold pairsRect at h
  simp only [List.mem_flatMap, List.mem_map, List.mem_range'_1, Prod.mk.injEq] at h
  omega

theorem pairsTri_range {lo hi i j : ℕ} (h : (i, j) ∈ pairsTri lo hi) : lo ≤ i ∧ i < hi ∧ lo ≤ j ∧ j ≤ i := by
  unfold pairsTri at h
  simp only [List.mem_flatMap, List.mem_append, List.mem_map, List.mem_range'_1, Prod.mk.injEq, List.mem_singleton] at h
  obtain ⟨k, hk, ⟨l, hl, rfl, rfl⟩ | ⟨rfl, rfl⟩⟩ := h <;> omega

theorem Executes.mem {threads : ℕ} {pairs : List (ℕ × ℕ)} {s : List Event} (h : Executes threads pairs s) {e : Event} (he : e ∈ s) : e.2 ∈ pairs :=
  h.1.mem_iff.1 (List.mem_map_of_mem he)

section
variable {fl : ℝ → ℝ} (ev : HOp → HOp → ℝ) (vec : List ℂ) {N threads : ℕ} {sc : List ℕ}

/-- C121: with the three-operator basis no assertion of the site occupation fails, for every vector, every number of threads and every execution of the
loops, with rounded operations. -/
theorem siteOccupation3_assertions (hfl : fl 0 = 0) (hsc : sc.Perm (List.range (basis3 N).length)) {s1 s2 s3 : List Event}
    (h1 : Executes threads (loopA true N) s1) (h2 : Executes threads (loopB N (basis3 N).length) s2)
    (h3 : Executes threads (loopC true N (basis3 N).length) s3) :
    siteOccupation3A fl ev (basis3 N) (getConjugate sc (basis3 N)) vec threads s1 s2 s3 =
      lift (siteOccupation3F fl ev (basis3 N) (getConjugate sc (basis3 N)) vec threads s1 s2 s3) := by
  have hc : getConjugate sc (basis3 N) = conjOf (basis3 N) := parallelModify_eq_map _ _ _ hsc
  have hsz := (realBasis_size N).2
  rw [hc]
  rw [hsz] at h2 h3
  have one : ∀ i < N, (basis3 N)[i]? = some (Spec.one i) := fun i hi => ((realBasis_getElem N).1 i hi).2
  have three : ∀ p, N ≤ p → p < N + N * N * N → ∃ a b c, (basis3 N)[p]? = some (Spec.three a b c) := by
    intro p hp hp'
    rcases basis3_cases hp' with ⟨i, rfl, hi, -⟩ | ⟨a, b, c, -, -, -, -, h⟩
    · omega
    · exact ⟨a, b, c, h⟩
  have L1 := fun r => runLoopA_eq (fl := fl) (bodyA := triTermA fl (basis3 N) (conjOf (basis3 N)) vec (ev11A fl ev))
    (body := triTermF fl (basis3 N) (conjOf (basis3 N)) vec (ev11F fl ev)) (sched := s1) (fun e he => by
      obtain ⟨q1, q2, q3, q4⟩ := pairsTri_range (lo := 0) (hi := N) (i := e.2.1) (j := e.2.2) (h1.mem he)
      exact triTermA_eq (evAtA_eq (one _ q2) (conj_get (one _ (by omega))) rfl)) r
  have L2 := fun r => runLoopA_eq (fl := fl) (bodyA := symTermA fl (basis3 N) (conjOf (basis3 N)) vec (ev13A fl ev))
    (body := symTermF fl (basis3 N) (conjOf (basis3 N)) vec (ev13F fl ev)) (sched := s2) (fun e he => by
      obtain ⟨q1, q2, q3, q4⟩ := pairsRect_range (lo := 0) (hi := N) (lo' := N) (i := e.2.1) (j := e.2.2) (h2.mem he)
      obtain ⟨a, b, c, h⟩ := three _ q3 q4
      exact symTermA_eq (evAtA_eq (one _ q2) (conj_get h) rfl)) r
  have L3 := fun r => runLoopA_eq (fl := fl) (bodyA := triTermA fl (basis3 N) (conjOf (basis3 N)) vec (ev33A fl ev))
    (body := triTermF fl (basis3 N) (conjOf (basis3 N)) vec (ev33F fl ev)) (sched := s3) (fun e he => by
      obtain ⟨q1, q2, q3, q4⟩ := pairsTri_range (lo := N) (i := e.2.1) (j := e.2.2) (h3.mem he)
      obtain ⟨a, b, c, h⟩ := three _ q1 q2
      obtain ⟨a', b', c', h'⟩ := three _ q3 (by omega)
      exact triTermA_eq (evAtA_eq h (conj_get h') rfl)) r
  unfold siteOccupation3A siteOccupationA siteOccupation3F siteOccupationF
  simp only [runLoopsA, runLoopsF, L1, andThen_lift, L2, L3]
  generalize hr0 : List.replicate threads (0 : ℂ) = r0
  have h0 : AllReal r0 := by
    intro z hz
    rw [← hr0] at hz
    rw [List.eq_of_mem_replicate hz]; rfl
  cases g1 : runLoopF fl (triTermF fl (basis3 N) (conjOf (basis3 N)) vec (ev11F fl ev)) s1 r0 with
  | ub => rfl
  | diverges => rfl
  | val r1 =>
    have k1 := runLoopF_real hfl (fun i j x hx => triTermF_real hx) h0 g1
    simp only [Res.bind_val]
    cases g2 : runLoopF fl (symTermF fl (basis3 N) (conjOf (basis3 N)) vec (ev13F fl ev)) s2 r1 with
    | ub => rfl
    | diverges => rfl
    | val r2 =>
      have k2 := runLoopF_real hfl (fun i j x hx => symTermF_real hx) k1 g2
      simp only [Res.bind_val]
      cases g3 : runLoopF fl (triTermF fl (basis3 N) (conjOf (basis3 N)) vec (ev33F fl ev)) s3 r2 with
      | ub => rfl
      | diverges => rfl
      | val r3 =>
        have k3 := runLoopF_real hfl (fun i j x hx => triTermF_real hx) k2 g3
        simp only [Res.bind_val, andThen_some, Res.map_val, lift_val]
        rw [realPart_real (accumulateF_real hfl k3)]

/-- The assertions of the one-operator site occupation but the last hold. -/
theorem siteOccupation1_structure (hsc : sc.Perm (List.range (basis1 N).length)) {s : List Event}
    (h : Executes threads (loop1 (basis1 N).length) s) :
    siteOccupation1A fl ev (basis1 N) (getConjugate sc (basis1 N)) vec threads s =
      (runLoopF fl (fullTermF fl (basis1 N) (getConjugate sc (basis1 N)) vec (ev11F fl ev)) s (List.replicate threads 0)).bind
        fun results => realPart (accumulateF fl results) := by
  have hc : getConjugate sc (basis1 N) = conjOf (basis1 N) := parallelModify_eq_map _ _ _ hsc
  rw [hc]
  rw [(realBasis_size N).1] at h
  have one : ∀ i < N, (basis1 N)[i]? = some (Spec.one i) := fun i hi => ((realBasis_getElem N).1 i hi).1
  have L1 := fun r => runLoopA_eq (fl := fl) (bodyA := fullTermA fl (basis1 N) (conjOf (basis1 N)) vec (ev1A fl ev))
    (body := fullTermF fl (basis1 N) (conjOf (basis1 N)) vec (ev11F fl ev)) (sched := s) (fun e he => by
      obtain ⟨q1, q2, q3, q4⟩ := pairsRect_range (lo := 0) (hi := N) (lo' := 0) (i := e.2.1) (j := e.2.2) (h.mem he)
      exact fullTermA_eq (evAtA_eq (one _ q2) (conj_get (one _ q4)) rfl)) r
  unfold siteOccupation1A siteOccupationA
  simp only [runLoopsA, L1, andThen_lift]
  cases runLoopF fl (fullTermF fl (basis1 N) (conjOf (basis1 N)) vec (ev11F fl ev)) s (List.replicate threads 0) <;> rfl

/-- C121: with the one-operator basis either all assertions of the site occupation hold, or the last one, on the imaginary part, fails. -/
theorem siteOccupation1_guarded (hsc : sc.Perm (List.range (basis1 N).length)) {s : List Event}
    (h : Executes threads (loop1 (basis1 N).length) s) :
    Guarded (siteOccupation1A fl ev (basis1 N) (getConjugate sc (basis1 N)) vec threads s)
      (siteOccupation1F fl ev (basis1 N) (getConjugate sc (basis1 N)) vec threads s) := by
  rw [siteOccupation1_structure ev vec hsc h]
  unfold siteOccupation1F siteOccupationF
  simp only [runLoopsF]
  cases runLoopF fl (fullTermF fl (basis1 N) (getConjugate sc (basis1 N)) vec (ev11F fl ev)) s (List.replicate threads 0) with
  | ub => exact .inl rfl
  | diverges => exact .inl rfl
  | val r => exact realPart_guarded _

end

end RealSpace

end Ieompp
