import Verif.Model.Aliasing
import Verif.Lemmas.Commutator
import Verif.Props.Commutator

/-!
# C86: operations whose arguments are part of the object they change
-/

set_option autoImplicit false
set_option linter.unusedSectionVars false

namespace Ieompp.Aliasing

/-! ## Specification -/

namespace Spec

/-- The pairs of positions at which the loops of `commutate` produce a term: the operators do not anticommute.
Positions are counted from 0, in the order of the loops. -/
def contractions {P ω : Type*} (anti : ω → ω → Bool) (a b : Term P ω) : List (ℕ × ℕ) :=
  ((List.range a.operators.length).flatMap fun k => (List.range b.operators.length).map fun l => (k, l)).filter
    fun kl => match a.operators[kl.1]?, b.operators[kl.2]? with
      | some x, some y => !anti x y
      | _, _ => false

/-- The contractions other than the one of the last operator of `a` with the last operator of `b`. -/
def earlyContractions {P ω : Type*} (anti : ω → ω → Bool) (a b : Term P ω) : ℕ :=
  ((contractions anti a b).filter fun kl => kl ≠ (a.operators.length - 1, b.operators.length - 1)).length

end Spec

/-! ## Products with itself -/

section Self
variable {V σ : Type*}

theorem copySelf_iff {τ : Type*} (grow : ℕ → ℕ) (v : Vec τ) (hv : v.WF) :
    (∃ w, v.copySelf grow v.data.length 0 false = some w ∧ w.data = v.data ++ v.data) ↔
      v.data = [] ∨ 2 * v.data.length ≤ v.cap + 1 := by
  have h := Vec.copySelf_isSome_iff grow v.data.length 0 v (by omega) (by omega) (by simpa [Vec.WF] using hv)
  rw [List.length_eq_zero_iff] at h
  rw [← h]
  constructor
  · rintro ⟨w, hw, -⟩; rw [hw]; simp
  · intro h'
    obtain ⟨w, hw⟩ := Option.ne_none_iff_exists'.1 h'
    exact ⟨w, hw, Vec.copySelf_data grow v.data 0 false v w (by omega) (by simp) hw⟩

theorem copySelf_none_iff {τ : Type*} (grow : ℕ → ℕ) (v : Vec τ) (hv : v.WF) :
    v.copySelf grow v.data.length 0 false = none ↔ v.data ≠ [] ∧ v.cap + 1 < 2 * v.data.length := by
  have h := Vec.copySelf_isSome_iff grow v.data.length 0 v (by omega) (by omega) (by simpa [Vec.WF] using hv)
  rw [List.length_eq_zero_iff] at h
  rw [← not_iff_not, ← ne_eq, h, not_and_or, not_not]
  simp only [not_lt]

/-- C86: `p *= p` for symbolic prefactors, for every capacity and growth policy: the square exactly when there are no
deltas or there is room for all but the last delta of the square. -/
theorem prefactor_mulAssignSelf_iff [Mul V] (grow : ℕ → ℕ) (p : VPrefactor V σ) (hp : p.kroneckers.data.length ≤ p.kroneckers.cap) :
    (∃ q, p.mulAssignSelf grow = some q ∧ q.toPrefactor = p.toPrefactor.mul p.toPrefactor) ↔
      p.kroneckers.data = [] ∨ 2 * p.kroneckers.data.length ≤ p.kroneckers.cap + 1 := by
  rw [← copySelf_iff grow p.kroneckers hp]
  constructor
  · rintro ⟨q, hq, hq'⟩
    simp only [VPrefactor.mulAssignSelf, Option.map_eq_some_iff] at hq
    obtain ⟨v, hv, rfl⟩ := hq
    refine ⟨v, hv, ?_⟩
    have := congrArg Prefactor.kroneckers hq'
    simpa [VPrefactor.toPrefactor, Prefactor.mul, Prefactor.mulAssign] using this
  · rintro ⟨w, hw, hd⟩
    refine ⟨⟨p.value * p.value, w⟩, by simp [VPrefactor.mulAssignSelf, hw], ?_⟩
    simp [VPrefactor.toPrefactor, Prefactor.mul, Prefactor.mulAssign, hd]

/-- C86: in all other cases `p *= p` is undefined behaviour. -/
theorem prefactor_mulAssignSelf_ub [Mul V] (grow : ℕ → ℕ) (p : VPrefactor V σ) (h2 : 2 ≤ p.kroneckers.data.length)
    (hfull : p.kroneckers.cap = p.kroneckers.data.length) :
    p.mulAssignSelf grow = none ∧ p.mulKroneckersSelf grow = none := by
  have h := (copySelf_none_iff grow p.kroneckers (by simp [Vec.WF, hfull])).2
    ⟨by intro h; simp [h] at h2, by omega⟩
  simp [VPrefactor.mulAssignSelf, VPrefactor.mulKroneckersSelf, h]

/-- C86: `p *= p.kroneckers`, likewise. -/
theorem prefactor_mulKroneckersSelf_iff (grow : ℕ → ℕ) (p : VPrefactor V σ) (hp : p.kroneckers.data.length ≤ p.kroneckers.cap) :
    (∃ q, p.mulKroneckersSelf grow = some q ∧
      q.toPrefactor = p.toPrefactor.mulKroneckers p.toPrefactor.kroneckers) ↔
      p.kroneckers.data = [] ∨ 2 * p.kroneckers.data.length ≤ p.kroneckers.cap + 1 := by
  rw [← copySelf_iff grow p.kroneckers hp]
  constructor
  · rintro ⟨q, hq, hq'⟩
    simp only [VPrefactor.mulKroneckersSelf, Option.map_eq_some_iff] at hq
    obtain ⟨v, hv, rfl⟩ := hq
    refine ⟨v, hv, ?_⟩
    have := congrArg Prefactor.kroneckers hq'
    simpa [VPrefactor.toPrefactor, Prefactor.mulKroneckers] using this
  · rintro ⟨w, hw, hd⟩
    refine ⟨{ p with kroneckers := w }, by simp [VPrefactor.mulKroneckersSelf, hw], ?_⟩
    simp [VPrefactor.toPrefactor, Prefactor.mulKroneckers, hd]

/-- C86: multiplying with one of the own deltas is always defined. -/
theorem prefactor_mulKroneckerSelf (grow : ℕ → ℕ) (p : VPrefactor V σ) (i : ℕ) (hi : i < p.kroneckers.data.length) :
    ∃ q, p.mulKroneckerSelf grow i = some q ∧ q.toPrefactor = p.toPrefactor.mulKronecker p.kroneckers.data[i] := by
  refine ⟨_, by simp [VPrefactor.mulKroneckerSelf, List.getElem?_eq_getElem hi]; rfl, ?_⟩
  simp only [VPrefactor.toPrefactor, Prefactor.mulKronecker, Vec.pushBack]
  split <;> rfl

/-- C86: `t *= t` for terms with number prefactors. -/
theorem term_mulAssignSelf_iff {P ω : Type*} [Mul P] (grow : ℕ → ℕ) (t : VTerm P ω) (ht : t.operators.data.length ≤ t.operators.cap) :
    (∃ u, t.mulAssignSelf (fun p => some (p * p)) grow = some u ∧ u.toTerm = t.toTerm.mul t.toTerm) ↔
      t.operators.data = [] ∨ 2 * t.operators.data.length ≤ t.operators.cap + 1 := by
  rw [← copySelf_iff grow t.operators ht]
  constructor
  · rintro ⟨q, hq, hq'⟩
    simp only [VTerm.mulAssignSelf, Option.map_eq_some_iff] at hq
    obtain ⟨v, hv, rfl⟩ := hq
    refine ⟨v, hv, ?_⟩
    have := congrArg Term.operators hq'
    simpa [VTerm.toTerm, Term.mul] using this
  · rintro ⟨w, hw, hd⟩
    refine ⟨⟨t.prefactor * t.prefactor, w⟩, by simp [VTerm.mulAssignSelf, hw], ?_⟩
    simp [VTerm.toTerm, Term.mul, hd]

/-- C86: `t *= t` for terms with symbolic prefactors needs room in both vectors. -/
theorem term_mulAssignSelf_sym_iff {ω : Type*} [Mul V] (grow grow' : ℕ → ℕ) (t : VTerm (VPrefactor V σ) ω)
    (ht : t.operators.data.length ≤ t.operators.cap) (hp : t.prefactor.kroneckers.data.length ≤ t.prefactor.kroneckers.cap) :
    (∃ u, t.mulAssignSelf (VPrefactor.mulAssignSelf grow') grow = some u ∧
        u.operators.data = t.operators.data ++ t.operators.data ∧
        u.prefactor.toPrefactor = t.prefactor.toPrefactor.mul t.prefactor.toPrefactor) ↔
      (t.operators.data = [] ∨ 2 * t.operators.data.length ≤ t.operators.cap + 1) ∧
      (t.prefactor.kroneckers.data = [] ∨
        2 * t.prefactor.kroneckers.data.length ≤ t.prefactor.kroneckers.cap + 1) := by
  rw [← copySelf_iff grow t.operators ht, ← prefactor_mulAssignSelf_iff grow' t.prefactor hp]
  constructor
  · rintro ⟨u, hu, h1, h2⟩
    unfold VTerm.mulAssignSelf at hu
    cases hq : t.prefactor.mulAssignSelf grow' with
    | none => simp [hq] at hu
    | some q =>
      simp only [hq, Option.map_eq_some_iff] at hu
      obtain ⟨v, hv, rfl⟩ := hu
      exact ⟨⟨v, hv, h1⟩, ⟨q, rfl, h2⟩⟩
  · rintro ⟨⟨v, hv, h1⟩, ⟨q, hq, h2⟩⟩
    exact ⟨⟨q, v⟩, by simp [VTerm.mulAssignSelf, hq, hv], h1, h2⟩

end Self

/-! ## `commutate` into the container that holds the arguments -/

section Comm
variable {P ω : Type*} (mul : P → P → P) (mulSign : P → ℤ → P) (anti : ω → ω → Bool)
  (acomm : ω → ω → P → P) (grow : ℕ → ℕ)

theorem pushBack_data {τ : Type*} (v : Vec τ) (x : τ) : (v.pushBack grow x).1.data = v.data ++ [x] := by
  unfold Vec.pushBack; split <;> rfl

theorem pushAll_data (s : Vec (Term P ω) × Bool) (ts : List (Term P ω)) :
    (pushAll grow s ts).1.data = s.1.data ++ ts := by
  induction ts generalizing s with
  | nil => simp [pushAll]
  | cons t ts ih =>
    rw [pushAll, List.foldl_cons, ← pushAll, ih]
    simp [pushBack_data]

/-- The argument denotes the term `a` in every state in which the storage is still there and `c` has only grown. -/
def Denotes (x : Arg P ω) (a : Term P ω) (c : List (Term P ω)) : Prop :=
  match x with
  | .outside t => t = a
  | .inside i => c[i]? = some a

theorem Denotes.append {x : Arg P ω} {a : Term P ω} {c : List (Term P ω)} (h : Denotes x a c)
    (d : List (Term P ω)) : Denotes x a (c ++ d) := by
  cases x with
  | outside t => exact h
  | inside i =>
    simp only [Denotes] at h ⊢
    have hi := (List.getElem?_eq_some_iff.1 h).1
    rw [List.getElem?_append_left hi]; exact h

theorem Denotes.read {x : Arg P ω} {a : Term P ω} {v : Vec (Term P ω)} (h : Denotes x a v.data) :
    x.read v false = some a := by
  cases x with
  | outside t => simp only [Denotes] at h; simp [Arg.read, h]
  | inside i => simpa [Arg.read, Denotes] using h

/-- Whether the argument is an element of the container. -/
def Arg.isInside : Arg P ω → Prop
  | .outside _ => False
  | .inside _ => True

/-- The terms produced for the (1-based) pair. -/
def newAt (a b : Term P ω) (kl : ℕ × ℕ) : List (Term P ω) := commNew mul mulSign anti acomm a b (kl.1 - 1) (kl.2 - 1)

theorem newAt_length (a b : Term P ω) (kl : ℕ × ℕ) : (newAt mul mulSign anti acomm a b kl).length ≤ 1 := by
  unfold newAt commNew
  split
  · split <;> simp
  · simp

def InRange (a b : Term P ω) (kl : ℕ × ℕ) : Prop :=
  1 ≤ kl.1 ∧ kl.1 ≤ a.operators.length ∧ 1 ≤ kl.2 ∧ kl.2 ≤ b.operators.length

theorem step_eq {a b : Term P ω} {kl : ℕ × ℕ} (h : InRange a b kl) :
    commutateStep mul mulSign anti acomm a b kl.1 kl.2 [] = some (newAt mul mulSign anti acomm a b kl) := by
  obtain ⟨h1, h2, h3, h4⟩ := h
  have := commutateStep_eq mul mulSign anti acomm a b (kl.1 - 1) (kl.2 - 1) (by omega) (by omega) []
  rw [show kl.1 - 1 + 1 = kl.1 by omega, show kl.2 - 1 + 1 = kl.2 by omega] at this
  rw [this]; simp [newAt]

theorem aliasedStep_ok {x y : Arg P ω} {a b : Term P ω} {v : Vec (Term P ω)} (hx : Denotes x a v.data)
    (hy : Denotes y b v.data) {kl : ℕ × ℕ} (h : InRange a b kl) :
    aliasedStep mul mulSign anti acomm grow x y (v, false) kl
      = some (pushAll grow (v, false) (newAt mul mulSign anti acomm a b kl)) := by
  unfold aliasedStep
  simp only [hx.read, hy.read]
  rw [step_eq mul mulSign anti acomm h]; rfl

/-- With both arguments elsewhere the loop never fails. -/
theorem fold_outside (a b : Term P ω) (ps : List (ℕ × ℕ)) (hps : ∀ p ∈ ps, InRange a b p)
    (s : Vec (Term P ω) × Bool) :
    ∃ s', ps.foldlM (aliasedStep mul mulSign anti acomm grow (.outside a) (.outside b)) s = some s' ∧
      s'.1.data = s.1.data ++ ps.flatMap (newAt mul mulSign anti acomm a b) := by
  induction ps generalizing s with
  | nil => exact ⟨s, by simp, by simp⟩
  | cons p ps ih =>
    have e : aliasedStep mul mulSign anti acomm grow (.outside a) (.outside b) s p
        = some (pushAll grow s (newAt mul mulSign anti acomm a b p)) := by
      unfold aliasedStep Arg.read
      simp only
      rw [step_eq mul mulSign anti acomm (hps p (by simp))]; rfl
    obtain ⟨s', h1, h2⟩ := ih (fun q hq => hps q (by simp [hq])) (pushAll grow s (newAt mul mulSign anti acomm a b p))
    refine ⟨s', ?_, ?_⟩
    · rw [List.foldlM_cons, e]; exact h1
    · rw [h2, pushAll_data]; simp

theorem aliasedStep_dangling {x y : Arg P ω} (h : x.isInside ∨ y.isInside) (v : Vec (Term P ω)) (kl : ℕ × ℕ) :
    aliasedStep mul mulSign anti acomm grow x y (v, true) kl = none := by
  unfold aliasedStep
  rcases h with h | h
  · cases x with
    | outside t => exact h.elim
    | inside i => simp [Arg.read]
  · cases y with
    | outside t => exact h.elim
    | inside i => simp only [Arg.read]; cases Arg.read v true x <;> simp

/-- With an argument inside the container: defined exactly when there is room for what is produced before the last
pair. -/
theorem fold_inside {x y : Arg P ω} (hin : x.isInside ∨ y.isInside) (a b : Term P ω) (ps : List (ℕ × ℕ))
    (hps : ∀ p ∈ ps, InRange a b p) (v : Vec (Term P ω)) (hx : Denotes x a v.data) (hy : Denotes y b v.data)
    (hv : v.WF) :
    (v.data.length + (ps.dropLast.flatMap (newAt mul mulSign anti acomm a b)).length ≤ v.cap →
      ∃ s', ps.foldlM (aliasedStep mul mulSign anti acomm grow x y) (v, false) = some s' ∧
        s'.1.data = v.data ++ ps.flatMap (newAt mul mulSign anti acomm a b)) ∧
    (v.cap < v.data.length + (ps.dropLast.flatMap (newAt mul mulSign anti acomm a b)).length →
      ps.foldlM (aliasedStep mul mulSign anti acomm grow x y) (v, false) = none) := by
  induction ps generalizing v with
  | nil =>
    refine ⟨fun _ => ⟨(v, false), by simp, by simp⟩, fun h => ?_⟩
    simp [Vec.WF] at h hv; omega
  | cons p ps ih =>
    have e := aliasedStep_ok mul mulSign anti acomm grow hx hy (hps p (by simp))
    rw [List.foldlM_cons, e]
    simp only [Option.bind_eq_bind, Option.bind_some]
    have hlen := newAt_length mul mulSign anti acomm a b p
    generalize hnew : newAt mul mulSign anti acomm a b p = new at e hlen
    rcases ps with _ | ⟨q, ps⟩
    · refine ⟨fun _ => ⟨pushAll grow (v, false) new, rfl, ?_⟩, fun h => ?_⟩
      · rw [pushAll_data]; simp [hnew]
      · simp [Vec.WF] at h hv; omega
    · rw [show (p :: q :: ps).dropLast = p :: (q :: ps).dropLast by rfl]
      simp only [List.flatMap_cons, List.length_append, hnew]
      rcases new with _ | ⟨t, _ | ⟨t', new⟩⟩
      · have := ih (fun r hr => hps r (by simp [hr])) v hx hy hv
        simpa [pushAll] using this
      · by_cases hc : v.data.length < v.cap
        · have ep : pushAll grow (v, false) [t] = (⟨v.data ++ [t], v.cap⟩, false) := by
            simp [pushAll, Vec.pushBack, hc]
          rw [ep]
          have := ih (fun r hr => hps r (by simp [hr])) ⟨v.data ++ [t], v.cap⟩ (hx.append _) (hy.append _)
            (by simp [Vec.WF]; omega)
          simp only [List.length_append, List.length_cons, List.length_nil, List.append_assoc] at this ⊢
          constructor
          · intro h
            obtain ⟨s', h1, h2⟩ := this.1 (by omega)
            exact ⟨s', h1, by simpa using h2⟩
          · intro h
            exact this.2 (by omega)
        · have ep : (pushAll grow (v, false) [t]).2 = true := by
            simp [pushAll, Vec.pushBack, hc]
          constructor
          · intro h
            simp [Vec.WF] at h hv; omega
          · intro _
            rw [List.foldlM_cons]
            generalize pushAll grow (v, false) [t] = s at ep
            obtain ⟨w, d⟩ := s
            simp only at ep
            subst ep
            rw [aliasedStep_dangling mul mulSign anti acomm grow hin]
            rfl
      · simp at hlen

theorem loopPairs_inRange (a b : Term P ω) : ∀ p ∈ loopPairs a.operators.length b.operators.length, InRange a b p := by
  intro p hp
  simp only [loopPairs, List.mem_flatMap, List.mem_map, List.mem_range'_1] at hp
  obtain ⟨k, hk, l, hl, rfl⟩ := hp
  simp only [InRange]; omega

theorem loopPairs_eq (n m : ℕ) : loopPairs n m
    = ((List.range n).flatMap fun k => (List.range m).map fun l => (k, l)).map fun p => (p.1 + 1, p.2 + 1) := by
  unfold loopPairs
  rw [List.map_flatMap, List.range'_eq_map_range (s := 1) (n := n), List.flatMap_map]
  congr 1
  funext k
  rw [List.range'_eq_map_range, List.map_map, List.map_map]
  congr 1
  funext l
  simp [Nat.add_comm]

theorem newAt_flatMap (a b : Term P ω) : (loopPairs a.operators.length b.operators.length).flatMap
      (newAt mul mulSign anti acomm a b)
    = (List.range a.operators.length).flatMap fun k =>
        (List.range b.operators.length).flatMap fun l => commNew mul mulSign anti acomm a b k l := by
  rw [loopPairs_eq, List.flatMap_map, List.flatMap_assoc]
  congr 1
  funext k
  rw [List.flatMap_map]
  rfl

/-- Whether a pair contracts. -/
def contracts (a b : Term P ω) (kl : ℕ × ℕ) : Bool :=
  match a.operators[kl.1]?, b.operators[kl.2]? with
  | some x, some y => !anti x y
  | _, _ => false

theorem newAt_count (a b : Term P ω) (ps : List (ℕ × ℕ)) :
    ((ps.map fun p => (p.1 + 1, p.2 + 1)).flatMap (newAt mul mulSign anti acomm a b)).length
      = (ps.filter (contracts anti a b)).length := by
  induction ps with
  | nil => simp
  | cons p ps ih =>
    rw [List.map_cons, List.flatMap_cons, List.length_append, ih, List.filter_cons]
    have : (newAt mul mulSign anti acomm a b (p.1 + 1, p.2 + 1)).length = if contracts anti a b p then 1 else 0 := by
      unfold newAt commNew contracts
      simp only [Nat.add_sub_cancel]
      rcases a.operators[p.1]? with _ | u <;> rcases b.operators[p.2]? with _ | w <;> simp
      cases anti u w <;> simp
    rw [this]
    split <;> simp [Nat.add_comm]

/-- The last pair of the loops. -/
theorem pairs_last (n m : ℕ) (hn : 0 < n) (hm : 0 < m) :
    ((List.range n).flatMap fun k => (List.range m).map fun l => (k, l))
      = ((List.range n).flatMap fun k => (List.range m).map fun l => (k, l)).dropLast ++ [(n - 1, m - 1)] := by
  obtain ⟨n, rfl⟩ : ∃ n', n = n' + 1 := ⟨n - 1, by omega⟩
  obtain ⟨m, rfl⟩ : ∃ m', m = m' + 1 := ⟨m - 1, by omega⟩
  rw [List.range_succ (n := n), List.flatMap_append, List.flatMap_singleton, List.range_succ (n := m), List.map_append]
  simp only [List.map_singleton, ← List.append_assoc, List.dropLast_concat, Nat.add_sub_cancel]

theorem pairs_nodup (n m : ℕ) : ((List.range n).flatMap fun k => (List.range m).map fun l => (k, l)).Nodup := by
  have : ((List.range n).flatMap fun k => (List.range m).map fun l => (k, l)) = (List.range n).product (List.range m) := rfl
  rw [this]
  exact List.Nodup.product List.nodup_range List.nodup_range

theorem filter_ne_last {τ : Type*} [DecidableEq τ] (l : List τ) (x : τ) (h : (l ++ [x]).Nodup) (p : τ → Bool) :
    ((l ++ [x]).filter p).filter (fun y => y ≠ x) = l.filter p := by
  rw [List.filter_filter, List.filter_append]
  have hx : x ∉ l := by
    rw [List.nodup_append] at h
    intro hx
    exact h.2.2 x hx x (by simp) rfl
  have h1 : List.filter (fun a => decide (a ≠ x) && p a) [x] = [] := by simp
  rw [h1, List.append_nil]
  refine List.filter_congr fun y hy => ?_
  have : y ≠ x := fun h => hx (h ▸ hy)
  simp [this]

theorem early_eq (a b : Term P ω) :
    ((loopPairs a.operators.length b.operators.length).dropLast.flatMap (newAt mul mulSign anti acomm a b)).length
      = Spec.earlyContractions anti a b := by
  unfold Spec.earlyContractions Spec.contractions
  rw [loopPairs_eq, ← List.map_dropLast, newAt_count]
  by_cases h : 0 < a.operators.length ∧ 0 < b.operators.length
  · have e := pairs_last a.operators.length b.operators.length h.1 h.2
    have nd := pairs_nodup a.operators.length b.operators.length
    rw [e] at nd
    conv_rhs => rw [e]
    have := filter_ne_last _ _ nd (contracts anti a b)
    rw [← this]
    rfl
  · have : ((List.range a.operators.length).flatMap fun k => (List.range b.operators.length).map fun l => (k, l)) = [] := by
      rw [List.eq_nil_iff_forall_not_mem]
      intro p hp
      simp only [List.mem_flatMap, List.mem_map, List.mem_range] at hp
      obtain ⟨k, hk, l, hl, rfl⟩ := hp
      omega
    rw [this]; simp

/-- C86: with both arguments elsewhere, the aliasing-aware model of `commutate` is the plain one (C06-C08), whatever
the capacity and the growth policy. -/
theorem commutate_outside (a b : Term P ω) (c : Vec (Term P ω)) :
    (commutateAliased mul mulSign anti acomm grow (.outside a) (.outside b) c).map Vec.data
      = commutateWith mul mulSign anti acomm a b c.data := by
  obtain ⟨s', h1, h2⟩ := fold_outside mul mulSign anti acomm grow a b _ (loopPairs_inRange a b) (c, false)
  rw [commutateWith_eq, ← newAt_flatMap]
  unfold commutateAliased
  simp only [Arg.read, h1, Option.map_some, h2]

/-- C86, exactly when `commutate(x, y, c)` with at least one of the arguments an element of `c` is defined: `c` must
have room for all terms produced before the last pair of operators. Then it appends what it would append for copies of
the arguments; otherwise the behaviour is undefined. -/
theorem commutate_inside_iff {x y : Arg P ω} (hin : x.isInside ∨ y.isInside) {a b : Term P ω} {c : Vec (Term P ω)}
    (hc : c.data.length ≤ c.cap) (hx : x.read c false = some a) (hy : y.read c false = some b) :
    (c.data.length + Spec.earlyContractions anti a b ≤ c.cap →
      (commutateAliased mul mulSign anti acomm grow x y c).map Vec.data
        = commutateWith mul mulSign anti acomm a b c.data) ∧
    (c.cap < c.data.length + Spec.earlyContractions anti a b →
      commutateAliased mul mulSign anti acomm grow x y c = none) := by
  have dx : Denotes x a c.data := by cases x <;> simpa [Arg.read, Denotes] using hx
  have dy : Denotes y b c.data := by cases y <;> simpa [Arg.read, Denotes] using hy
  have := fold_inside mul mulSign anti acomm grow hin a b _ (loopPairs_inRange a b) c dx dy hc
  rw [early_eq] at this
  rw [commutateWith_eq, ← newAt_flatMap]
  unfold commutateAliased
  simp only [hx, hy]
  constructor
  · intro h
    obtain ⟨s', h1, h2⟩ := this.1 h
    simp only [h1, Option.map_some, h2]
  · intro h
    rw [this.2 h]; rfl

end Comm

/-- C86, the statement for numbers as prefactors: `commutate(c[i], c[j], c)` computes the commutator of the two
elements whenever `c` has enough room. -/
theorem commutate_elements {K ι : Type*} [DecidableEq ι] [Ring K] (grow : ℕ → ℕ) (c : Vec (Term K (Op ι)))
    (hc : c.data.length ≤ c.cap)
    (i j : ℕ) (hi : i < c.data.length) (hj : j < c.data.length) :
    (c.data.length + Spec.earlyContractions anticommutates c.data[i] c.data[j] ≤ c.cap →
      ∃ d, commutateAliased (· * ·) (fun p s => p * (s : K)) anticommutates (fun _ _ p => p) grow
          (.inside i) (.inside j) c = some d ∧ commutate c.data[i] c.data[j] c.data = some d.data) ∧
    (c.cap < c.data.length + Spec.earlyContractions anticommutates c.data[i] c.data[j] →
      commutateAliased (· * ·) (fun p s => p * (s : K)) anticommutates (fun _ _ p => p) grow
        (.inside i) (.inside j) c = none) := by
  have := commutate_inside_iff (fun p q : K => p * q) (fun p s => p * (s : K)) anticommutates (fun _ _ p => p) grow
    (x := .inside i) (y := .inside j) (Or.inl trivial) hc (a := c.data[i]) (b := c.data[j])
    (by simp [Arg.read]) (by simp [Arg.read])
  refine ⟨fun h => ?_, this.2⟩
  have h1 := this.1 h
  have h2 := commutateWith_eq (fun p q : K => p * q) (fun p s => p * (s : K)) (anticommutates (ι := ι))
    (fun _ _ p => p) c.data[i] c.data[j] c.data
  rw [h2, Option.map_eq_some_iff] at h1
  obtain ⟨d, h3, h4⟩ := h1
  refine ⟨d, h3, ?_⟩
  unfold commutate
  rw [h2, h4]

/-- C86, negation: the number operators of one mode in a full container: `commutate(c[0], c[0], c)` is undefined
behaviour whatever the growth policy. -/
theorem commutate_elements_ub (grow : ℕ → ℕ) :
    commutateAliased (· * ·) (fun p s => p * (s : ℤ)) anticommutates (fun _ _ p => p) grow (.inside 0) (.inside 0)
      (⟨[⟨1, [Op.makeCreator 0, Op.makeAnnihilator 0]⟩], 1⟩ : Vec (Term ℤ (Op ℕ))) = none :=
  (commutate_elements grow ⟨[⟨1, [Op.makeCreator 0, Op.makeAnnihilator 0]⟩], 1⟩ (by simp [Vec.WF]) 0 0
    (by simp) (by simp)).2 (by decide)

/-- Non-vacuity: the same call with room for two more terms is defined and appends two terms. -/
example : ∃ d, commutateAliased (· * ·) (fun p s => p * (s : ℤ)) anticommutates (fun _ _ p => p) (· * 2)
      (.inside 0) (.inside 0) (⟨[⟨1, [Op.makeCreator 0, Op.makeAnnihilator 0]⟩], 3⟩ : Vec (Term ℤ (Op ℕ))) = some d ∧
    d.data.length = 3 := by
  obtain ⟨d, h1, h2⟩ := (commutate_elements (K := ℤ) (· * 2)
    ⟨[⟨1, [Op.makeCreator 0, Op.makeAnnihilator 0]⟩], 3⟩ (by simp [Vec.WF]) 0 0 (by simp) (by simp)).1 (by decide)
  refine ⟨d, h1, ?_⟩
  have : (commutate (K := ℤ) ⟨1, [Op.makeCreator 0, Op.makeAnnihilator 0]⟩ ⟨1, [Op.makeCreator 0, Op.makeAnnihilator 0]⟩
    [⟨1, [Op.makeCreator 0, Op.makeAnnihilator 0]⟩] : Option (List (Term ℤ (Op ℕ)))).map List.length = some 3 := by decide
  simp only [List.getElem_cons_zero] at h2
  rw [h2] at this
  simpa using this

example : (⟨3, ⟨[⟨1, 2⟩, ⟨2, 3⟩], 3⟩⟩ : VPrefactor ℤ ℕ).kroneckers.WF ∧
    (∃ q, (⟨3, ⟨[⟨1, 2⟩, ⟨2, 3⟩], 3⟩⟩ : VPrefactor ℤ ℕ).mulAssignSelf (· * 2) = some q ∧
      q.toPrefactor = ⟨9, [⟨1, 2⟩, ⟨2, 3⟩, ⟨1, 2⟩, ⟨2, 3⟩]⟩) := by
  refine ⟨by simp [Vec.WF], ?_⟩
  have h := (prefactor_mulAssignSelf_iff (· * 2) (⟨3, ⟨[⟨1, 2⟩, ⟨2, 3⟩], 3⟩⟩ : VPrefactor ℤ ℕ) (by simp [Vec.WF])).2
    (by simp)
  obtain ⟨q, h1, h2⟩ := h
  exact ⟨q, h1, by rw [h2]; decide⟩

end Ieompp.Aliasing
