import Verif.Props.Threads
import Verif.Props.ParallelFloat
import Verif.Props.RK4Float
import Verif.Props.FermiJump
import Verif.Props.Basis

/-!
# C84: the loops executed statement by statement are the loops executed access by access

The models of the other files execute the statements of a parallel loop one after the other, in some order. Here: in every interleaving of
the single accesses the final contents of the vectors are what these models return.
-/

set_option autoImplicit false
set_option linter.unusedSectionVars false

namespace Ieompp.Threads

open RealSpace ODE
open MomentumSpace (vecAt)

/-- **C84**: tables, Fourier coefficients and dispersions. -/
theorem storeLoop_link {V : Type*} {n threads : ℕ} {items : List ℕ} (hn : items.Nodup) (hi : ∀ i ∈ items, i < n) {work : ℕ → List ℕ}
    (hw : Spec.Distributes items threads work) (mem : Loc → V) (f : ℕ → V) (sched : List ℕ)
    (hf : Spec.Finished (run sched (start mem (fun _ => storeBody f) work)).1) (order : List ℕ) (ho : order.Perm items) :
    storeLoop (fun i => .val (f i)) order ((List.range n).map fun i => mem (.values i)) =
      .val ((List.range n).map fun i => (run sched (start mem (fun _ => storeBody f) work)).1.mem (.values i)) := by
  obtain ⟨h1, h2⟩ := (storeLoop_interleaved hn hw mem f).result sched hf
  obtain ⟨w, e1, e2, e3⟩ := storeLoop_ok (f := fun i => Res.val (f i)) (g := f) order ((List.range n).map fun i => mem (.values i))
    (fun i h => ⟨rfl, by simpa using hi i (ho.mem_iff.1 h)⟩)
  rw [e1]
  congr 1
  apply List.ext_getElem?
  intro i
  rw [e3 i]
  simp only [List.length_map, List.length_range, ho.mem_iff, List.getElem?_map, List.getElem?_range]
  by_cases hin : i < n
  · by_cases him : i ∈ items
    · simp [him, hin, h1 i him]
    · simp only [him, false_and, if_false, List.getElem?_range hin, Option.map_some]
      rw [h2 _ fun j hj hc => him (by rwa [Loc.values.inj hc])]
  · simp [hin, List.getElem?_eq_none]

/-- **C84**: conjugate bases. -/
theorem conjugate_link {threads : ℕ} (b : List HMonomial) {work : ℕ → List ℕ} (hw : Spec.Distributes (List.range b.length) threads work)
    (mem : Loc → HMonomial) (hmem : ∀ i (h : i < b.length), mem (.conjBasis i) = b[i]) (sched : List ℕ)
    (hf : Spec.Finished (run sched (start mem (fun _ => conjugateBody Monomial.conjugate) work)).1) (order : List ℕ)
    (ho : order.Perm (List.range b.length)) :
    getConjugate order b =
      (List.range b.length).map fun i => (run sched (start mem (fun _ => conjugateBody Monomial.conjugate) work)).1.mem (.conjBasis i) := by
  obtain ⟨h1, _⟩ := (conjugate_interleaved hw mem Monomial.conjugate).result sched hf
  rw [getConjugate, parallelModify_eq_map _ _ _ ho]
  apply List.ext_getElem
  · simp
  · intro i hi hi'
    simp only [List.length_map] at hi
    simp [h1 i hi, hmem i hi]

/-- **C84**: `multiply_assign` with rounding (`fl = id`: without); the columns of a row are visited in increasing order. -/
theorem multiply_link {fl : ℝ → ℝ} {n threads : ℕ} {work : ℕ → List ℕ} (hw : Spec.Distributes (List.range n) threads work)
    (M : ℕ → ℕ → ℂ) (v : Fin n → ℂ) (mem : Loc → ℂ) (hv : ∀ i : Fin n, mem (.vector i) = v i) (ht : ∀ i < n, mem (.temp i) = 0) (sched : List ℕ)
    (hf : Spec.Finished (run sched (start mem (fun _ => rowBody n M fun m x y => addC fl y (mulC fl m x)) work)).1)
    (junk : List ℂ → ℕ → ℂ) (temp : List ℂ) (order : List (ℕ × ℕ)) (ho : order.Perm (allPairs n))
    (hrow : ∀ i < n, rowOrder order i = List.range n) :
    multiplyAssignF fl n M junk order temp (List.ofFn v) = .val (List.ofFn v, List.ofFn fun i : Fin n =>
      (run sched (start mem (fun _ => rowBody n M fun m x y => addC fl y (mulC fl m x)) work)).1.mem (.temp i)) := by
  obtain ⟨h1, _⟩ := (multiply_interleaved hw mem M fun m x y => addC fl y (mulC fl m x)).result sched hf
  rw [multiplyAssignF_eq M junk ho temp v]
  congr 3
  funext i
  rw [h1 i i.2, ht i i.2, hrow i i.2]
  apply List.foldl_ext
  intro acc j hj
  have hj := List.mem_range.1 hj
  have e : (List.ofFn v).getD j 0 = mem (.vector j) := by
    rw [hv ⟨j, hj⟩, List.getD_eq_getElem?_getD]
    simp [hj]
  rw [e]

/-- **C84**: in exact arithmetic every interleaving leaves the product of the matrix and the vector. -/
theorem multiply_product {n threads : ℕ} {work : ℕ → List ℕ} (hw : Spec.Distributes (List.range n) threads work)
    (M : ℕ → ℕ → ℂ) (v : Fin n → ℂ) (mem : Loc → ℂ) (hv : ∀ i : Fin n, mem (.vector i) = v i) (ht : ∀ i < n, mem (.temp i) = 0) :
    Spec.Deterministic (start mem (fun _ => rowBody n M fun m x y => y + m * x) work) threads fun m =>
      ∀ i : Fin n, m (.temp i) = ∑ j : Fin n, M i j * v j := by
  have D := multiply_interleaved hw mem M fun m x y => y + m * x
  refine ⟨D.noRace, D.ends, fun sched hf i => ?_⟩
  rw [(D.result sched hf).1 i i.2, ht i i.2]
  have : ∀ (l : List ℕ) (x : ℂ), l.foldl (fun acc col => acc + M i col * mem (.vector col)) x = x + (l.map fun col => M i col * mem (.vector col)).sum := by
    intro l
    induction l with
    | nil => simp
    | cons a l ih => intro x; rw [List.foldl_cons, ih]; simp [add_assoc]
  rw [this, zero_add, sum_range_fin fun col => M i col * mem (.vector col)]
  exact Finset.sum_congr rfl fun j _ => by rw [hv j]

/-- What the statement-level loop leaves in the results. -/
theorem runLoopF_eq {fl : ℝ → ℝ} {threads : ℕ} {body : ℕ → ℕ → Res ℂ} {x : ℕ → ℕ → ℂ} : ∀ (s : List Event) (r : ℕ → ℂ),
    (∀ e ∈ s, body e.2.1 e.2.2 = .val (x e.2.1 e.2.2)) → (∀ e ∈ s, e.1 < threads) →
    runLoopF fl body s ((List.range threads).map r) =
      .val ((List.range threads).map fun t => ((s.filter fun e => e.1 = t).map Prod.snd).foldl (fun acc e => addC fl acc (x e.1 e.2)) (r t))
  | [], r, _, _ => by simp [runLoopF]
  | e :: s, r, hb, ht => by
    have h1 : runLoopF fl body (e :: s) ((List.range threads).map r) =
        runLoopF fl body s ((List.range threads).map (Function.update r e.1 (addC fl (r e.1) (x e.2.1 e.2.2)))) := by
      unfold runLoopF
      rw [List.foldl_cons, Res.bind_val, hb e (by simp), Res.bind_val, addToF]
      have he := ht e (by simp)
      have : vecAt ((List.range threads).map r) e.1 = .val (r e.1) := by
        unfold vecAt
        simp [he]
      rw [this, Res.bind_val]
      congr 2
      apply List.ext_getElem
      · simp
      · intro i hi hi'
        rw [List.getElem_set]
        simp only [List.getElem_map, List.getElem_range]
        by_cases hei : e.1 = i
        · subst hei; simp
        · simp [hei, Function.update_of_ne (Ne.symm hei)]
    rw [h1, runLoopF_eq s _ (fun e he => hb e (by simp [he])) (fun e he => ht e (by simp [he]))]
    congr 2
    funext t
    rw [List.filter_cons]
    by_cases het : e.1 = t
    · subst het; simp
    · simp [het, Function.update_of_ne (Ne.symm het)]

/-- **C84**: the sums of the site occupation, with rounding (`fl = id`: without). `s` is any statement-level execution in which every
thread executes its statements in the order of the source. -/
theorem occupation_link {fl : ℝ → ℝ} {items : List ℕ} {threads : ℕ} {work : ℕ → List ℕ} (hw : Spec.Distributes items threads work)
    (mem : Loc → ℂ) (inner : ℕ → List ℕ) (term : ℕ → ℕ → ℂ → ℂ → ℂ) (sched : List ℕ)
    (hf : Spec.Finished (run sched (start mem (occupationBody inner term (addC fl)) work)).1) (body : ℕ → ℕ → Res ℂ) (s : List Event)
    (hs : ∀ t, (s.filter fun e => e.1 = t).map Prod.snd = (work t).flatMap fun i => (inner i).map fun j => (i, j))
    (hb : ∀ e ∈ s, body e.2.1 e.2.2 = .val (term e.2.1 e.2.2 (mem (.vector e.2.1)) (mem (.vector e.2.2)))) (ht : ∀ e ∈ s, e.1 < threads) :
    runLoopF fl body s ((List.range threads).map fun t => mem (.results t)) =
      .val ((List.range threads).map fun t => (run sched (start mem (occupationBody inner term (addC fl)) work)).1.mem (.results t)) := by
  obtain ⟨h1, _⟩ := (occupation_interleaved hw mem inner term (addC fl)).result sched hf
  rw [runLoopF_eq (x := fun i j => term i j (mem (.vector i)) (mem (.vector j))) s _ hb ht]
  congr 2
  funext t
  rw [h1 t, hs t]

/-- **C84**: the value of the Fermi jump, with rounding. -/
theorem jump_link {fl : ℝ → ℝ} {N threads : ℕ} {work : ℕ → List ℕ} (hw : Spec.Distributes (List.range N) threads work)
    (mem : Loc → ℂ) (src : ℕ → Loc) (hsrc : src = Loc.vector ∨ src = Loc.hNo) (hz : ∀ t, mem (.results t) = 0) (sched : List ℕ)
    (hf : Spec.Finished (run sched (start mem (jumpBody src (mulC fl) (addC fl)) work)).1) (f v : List ℂ)
    (hF : ∀ i < N, f[i]? = some (mem (.fourier i))) (hV : ∀ i < N, v[i]? = some (mem (src i))) (s : List Event)
    (hs : ∀ t, (s.filter fun e => e.1 = t).map Prod.snd = (work t).map fun i => (i, 0)) :
    jumpSumF fl f v threads s = .val (normF fl (accumulateF fl ((List.range threads).map fun t =>
      (run sched (start mem (jumpBody src (mulC fl) (addC fl)) work)).1.mem (.results t)))) := by
  obtain ⟨h1, _⟩ := (jump_interleaved hw mem src hsrc (mulC fl) (addC fl)).result sched hf
  have hmem : ∀ e ∈ s, e.2.1 ∈ work e.1 := by
    intro e he
    have : e.2 ∈ (s.filter fun x => x.1 = e.1).map Prod.snd := List.mem_map.2 ⟨e, by simp [he], rfl⟩
    rw [hs, List.mem_map] at this
    obtain ⟨i, hi, h⟩ := this
    rwa [← h]
  have hlt : ∀ e ∈ s, e.2.1 < N := fun e he => List.mem_range.1 (hw.mem (hmem e he)).2
  unfold jumpSumF
  have hr : List.replicate threads (0 : ℂ) = (List.range threads).map fun _ => (0 : ℂ) := by simp
  rw [hr, runLoopF_eq (x := fun i _ => mulC fl (mem (.fourier i)) (mem (src i))) s _ ?_ (fun e he => (hw.mem (hmem e he)).1), Res.map_val]
  · congr 4
    funext t
    rw [h1 t, hs t, List.foldl_map, hz t]
  · intro e he
    simp only [vecAt, hF _ (hlt e he), hV _ (hlt e he), Res.bind_val]

/-- **C84**: the normal-ordered coefficients. -/
theorem hNo_link {N threads : ℕ} {work : ℕ → List ℕ} (hw : Spec.Distributes (List.range N) threads work) (ev : HOp → HOp → ℝ)
    (basis : List HMonomial) (o : ℕ → HOp) (ho : ∀ j < N, MomentumSpace.opAt basis j 0 = .val (o j)) (h : List ℂ) (mem : Loc → ℂ)
    (hh : ∀ i < N + N ^ 3, h[i]? = some (mem (.vector i))) (sched : List ℕ)
    (hf : Spec.Finished (run sched (start mem (fun _ => hNoBody N
      (fun j k => if j = k then 2 * ev (o j) (o k) - 1 else 2 * ev (o j) (o k)) fun (p : ℝ) x y => y + (p : ℂ) * x) work)).1) :
    ∀ i < N, hNoValue ev basis N h i = .val ((run sched (start mem (fun _ => hNoBody N
      (fun j k => if j = k then 2 * ev (o j) (o k) - 1 else 2 * ev (o j) (o k)) fun (p : ℝ) x y => y + (p : ℂ) * x) work)).1.mem (.hNo i)) := by
  intro i hi
  obtain ⟨h1, _⟩ := (hNo_interleaved hw mem (fun j k => if j = k then 2 * ev (o j) (o k) - 1 else 2 * ev (o j) (o k))
    fun (p : ℝ) x y => y + (p : ℂ) * x).result sched hf
  rw [h1 i hi, hNoValue]
  have hi' : vecAt h i = .val (mem (.vector i)) := by
    simp only [vecAt, hh i (by omega)]
  rw [hi']
  have : ∀ (l : List (ℕ × ℕ)), (∀ jk ∈ l, jk.1 < N ∧ jk.2 < N) → ∀ x : ℂ,
      l.foldl (fun (acc : Res ℂ) jk => acc.bind fun x =>
        (MomentumSpace.opAt basis jk.1 0).bind fun oj => (MomentumSpace.opAt basis jk.2 0).bind fun ok =>
        let prefactor := 2 * ev oj ok
        let prefactor := if jk.1 = jk.2 then prefactor - 1 else prefactor
        (vecAt h (get3opIndex N i jk.1 jk.2)).bind fun hh => Res.val (x + (prefactor : ℂ) * hh)) (.val x) =
      .val (l.foldl (fun acc jk => acc + ((if jk.1 = jk.2 then 2 * ev (o jk.1) (o jk.2) - 1 else 2 * ev (o jk.1) (o jk.2) : ℝ) : ℂ) *
        mem (.vector (get3opIndex N i jk.1 jk.2))) x) := by
    intro l
    induction l with
    | nil => intro _ x; rfl
    | cons jk l ih =>
      intro hl x
      obtain ⟨hj, hk⟩ := hl jk (by simp)
      have hlt : get3opIndex N i jk.1 jk.2 < N + N ^ 3 := by
        unfold get3opIndex
        have e1 : N * N * i ≤ N * N * (N - 1) := Nat.mul_le_mul_left _ (by omega)
        have e2 : N * jk.1 ≤ N * (N - 1) := Nat.mul_le_mul_left _ (by omega)
        obtain ⟨M, rfl⟩ : ∃ M, N = M + 1 := ⟨N - 1, by omega⟩
        simp only [Nat.add_sub_cancel] at e1 e2
        simp only
        nlinarith
      rw [List.foldl_cons, List.foldl_cons, Res.bind_val, ho _ hj, Res.bind_val, ho _ hk, Res.bind_val]
      simp only [vecAt, hh _ hlt, Res.bind_val]
      exact ih (fun a ha => hl a (by simp [ha])) _
  refine this _ (fun jk hjk => ?_) _
  obtain ⟨j, hj, hjk⟩ := List.mem_flatMap.1 hjk
  obtain ⟨k, hk, rfl⟩ := List.mem_map.1 hjk
  exact ⟨List.mem_range.1 hj, List.mem_range.1 hk⟩

end Ieompp.Threads
