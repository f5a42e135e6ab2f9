import Verif.Model.MomentumBasis2D
import Verif.Props.Basis
import Verif.Props.Square

/-!
# C97: the momentum-space basis in two dimensions
-/

set_option autoImplicit false
set_option linter.unusedSectionVars false

namespace Ieompp.MomentumSpace

variable {K : Type*} [Field K] [LinearOrder K] [IsStrictOrderedRing K] [FloorRing K]

/-- The basis monomials `m` for the external momentum `q` are what the flow equations need: every operator refers to one of
the `N * N` momenta, and the total momentum agrees with that of site `q` modulo `2π` in both directions. -/
def Spec.Conserves (pi : K) (N q : ℕ) (m : HMonomial) : Prop :=
  let t : Term ℤ HOp := ⟨1, m⟩
  (∀ op ∈ m, op.index.1 < N * N) ∧
  (∃ n : ℤ, Term.totalMomentum (·.creator) (fun op => ((Square.momentum pi N N).pos op.index.1).1) t
    = ((Square.momentum pi N N).pos q).1 + n * (2 * pi)) ∧
  (∃ n : ℤ, Term.totalMomentum (·.creator) (fun op => ((Square.momentum pi N N).pos op.index.1).2) t
    = ((Square.momentum pi N N).pos q).2 + n * (2 * pi))

/-- The coordinate index the lookup computes: on the upper edge of the zone it is not folded back. -/
def coordOf (N : ℕ) (z : ℤ) : ℕ := if (N : ℤ) ≤ z ∧ (N : ℤ) ∣ z then N else Ieompp.Spec.siteMod z N

/-- The third index of the monomial `(i1, i2)`. -/
def thirdOf (N q i1 i2 : ℕ) : ℕ :=
  coordOf N ((i1 / N : ℕ) + (i2 / N : ℕ) - (q / N : ℕ)) * N + coordOf N ((i1 % N : ℕ) + (i2 % N : ℕ) - (q % N : ℕ))

theorem lookup_third (pi : K) (hpi : 0 < pi) {N : ℕ} (hN : 0 < N) (q i1 i2 : ℕ) :
    let s := Square.momentum pi N N
    s.lookup ((s.pos i1).1 + (s.pos i2).1 - (s.pos q).1, (s.pos i1).2 + (s.pos i2).2 - (s.pos q).2) =
      .val (thirdOf N q i1 i2) := by
  intro s
  have h1 := coordIndex_momentum_lattice N hN pi hpi ((i1 / N : ℕ) + (i2 / N : ℕ) - (q / N : ℕ))
  have h2 := coordIndex_momentum_lattice N hN pi hpi ((i1 % N : ℕ) + (i2 % N : ℕ) - (q % N : ℕ))
  have e1 : (s.pos i1).1 + (s.pos i2).1 - (s.pos q).1 =
      -pi + (((i1 / N : ℕ) + (i2 / N : ℕ) - (q / N : ℕ) : ℤ) : K) * (2 * pi / N) := by
    simp only [s, Square.pos, Square.momentum, Int.cast_sub, Int.cast_add, Int.cast_natCast]; ring
  have e2 : (s.pos i1).2 + (s.pos i2).2 - (s.pos q).2 =
      -pi + (((i1 % N : ℕ) + (i2 % N : ℕ) - (q % N : ℕ) : ℤ) : K) * (2 * pi / N) := by
    simp only [s, Square.pos, Square.momentum, Int.cast_sub, Int.cast_add, Int.cast_natCast]; ring
  rw [e1, e2]
  unfold Square.lookup
  simp only [s, Square.momentum]
  rw [h1, h2]; rfl

/-- The constructor always finishes, with `N⁴ + 1` monomials. -/
theorem squareBasis_eq (pi : K) (hpi : 0 < pi) {N : ℕ} (hN : 0 < N) (q : ℕ) :
    basis3Square q (Square.momentum pi N N) = .val ([⟨true, (q, true)⟩] ::
      (List.range (N * N)).flatMap fun i1 => (List.range (N * N)).map fun i2 =>
        RealSpace.Spec.three i1 i2 (thirdOf N q i1 i2)) := by
  unfold basis3Square
  have : ((List.range (N * N)).flatMap fun i1 => (List.range (N * N)).map fun i2 =>
      ((Square.momentum pi N N).lookup
        (((Square.momentum pi N N).pos i1).1 + ((Square.momentum pi N N).pos i2).1 - ((Square.momentum pi N N).pos q).1,
         ((Square.momentum pi N N).pos i1).2 + ((Square.momentum pi N N).pos i2).2 - ((Square.momentum pi N N).pos q).2)).map
        fun i3 => ([⟨true, (i1, true)⟩, ⟨true, (i2, false)⟩, ⟨false, (i3, false)⟩] : HMonomial))
      = ((List.range (N * N)).flatMap fun i1 => (List.range (N * N)).map fun i2 =>
          RealSpace.Spec.three i1 i2 (thirdOf N q i1 i2)).map Res.val := by
    rw [List.map_flatMap]
    congr 1; funext i1
    rw [List.map_map]
    congr 1; funext i2
    rw [lookup_third pi hpi hN q i1 i2]; rfl
  show (collect ((List.range (N * N)).flatMap fun i1 => (List.range (N * N)).map fun i2 => _)).map _ = _
  rw [this, collect_val]; rfl

theorem siteMod_bounds {N : ℕ} (hN : 0 < N) (z : ℤ) : Ieompp.Spec.siteMod z N < N ∧ ∃ n : ℤ, z = Ieompp.Spec.siteMod z N + n * N := by
  have hN' : (0 : ℤ) < N := by exact_mod_cast hN
  have h0 := Int.emod_nonneg z hN'.ne'
  have h1 := Int.emod_lt_of_pos z hN'
  have h2 := Int.emod_add_mul_ediv z N
  have h3 : ((Ieompp.Spec.siteMod z N : ℕ) : ℤ) = z % N := by unfold Ieompp.Spec.siteMod; omega
  refine ⟨by omega, z / N, by rw [h3]; linarith⟩

theorem coordOf_cases {N : ℕ} (hN : 0 < N) {a b c : ℕ} (ha : a < N) (hb : b < N) (hc : c < N) :
    (a + b = N + c → coordOf N (a + b - c) = N) ∧
    (a + b ≠ N + c → coordOf N (a + b - c) < N ∧ ∃ n : ℤ, (a : ℤ) + b - c = coordOf N (a + b - c) + n * N) := by
  constructor
  · intro h
    unfold coordOf
    have : (a : ℤ) + b - c = N := by omega
    rw [this, if_pos ⟨le_refl _, dvd_refl _⟩]
  · intro h
    have : ¬ ((N : ℤ) ≤ (a : ℤ) + b - c ∧ (N : ℤ) ∣ (a : ℤ) + b - c) := by
      rintro ⟨h1, k, h2⟩
      have hN' : (0 : ℤ) < N := by exact_mod_cast hN
      have : k = 1 := by
        have k1 : 0 < k := by by_contra hk; nlinarith [not_lt.1 hk]
        have k2 : k < 2 := by by_contra hk; nlinarith [not_lt.1 hk]
        omega
      subst this
      omega
    unfold coordOf
    rw [if_neg this]
    exact siteMod_bounds hN _

/-- **C97**, exactly: on the `N × N` momentum space the constructor of the basis for the momentum `q` finishes with `N⁴ + 1`
monomials, `c†_q` first and the one of `(k₁, k₂)` at `get_3op_index` with one net creation and spin up; the monomials are
pairwise different; but they all refer to existing momenta and conserve momentum if and only if `q` is the last site, the one
in the corner of the zone (`N = 1` has no other). -/
theorem squareBasis_conserves_partial (pi : K) (hpi : 0 < pi) {N : ℕ} (hN : 0 < N) {q : ℕ} (hq : q < N * N) :
    ∃ B, basis3Square q (Square.momentum pi N N) = .val B ∧ B.length = (N * N) * (N * N) + 1 ∧
      B[0]? = some (RealSpace.Spec.one q) ∧
      (∀ i1 i2, i1 < N * N → i2 < N * N → ∃ i3, B[get3opIndex (N * N) i1 i2]? = some (RealSpace.Spec.three i1 i2 i3)) ∧
      B.Nodup ∧ ((∀ m ∈ B, Spec.Conserves pi N q m) ↔ q + 1 = N * N) := by
  have hN' : (0 : K) < N := by exact_mod_cast hN
  refine ⟨_, squareBasis_eq pi hpi hN q, ?_, rfl, ?_, ?_, ?_⟩
  · rw [List.length_cons, length_flatMap_range (N * N) (N * N) _ (by simp)]
  · intro i1 i2 h1 h2
    refine ⟨thirdOf N q i1 i2, ?_⟩
    unfold get3opIndex
    rw [show 1 + i1 * (N * N) + i2 = (i1 * (N * N) + i2) + 1 by ring, List.getElem?_cons_succ,
      getElem?_flatMap_range (N * N) (N * N) _ (by simp) i1 i2 h1 h2]
    simp [h2]
  · rw [List.nodup_cons]
    constructor
    · intro h
      rw [List.mem_flatMap] at h
      obtain ⟨i, _, h⟩ := h
      rw [List.mem_map] at h
      obtain ⟨j, _, h⟩ := h
      simp [RealSpace.Spec.three] at h
    · rw [List.nodup_flatMap]
      constructor
      · intro i _
        refine List.Nodup.map_on ?_ List.nodup_range
        intro x _ y _ h
        simp only [RealSpace.Spec.three, List.cons.injEq, Op.mk.injEq, Prod.mk.injEq, and_true, true_and] at h
        exact h.1
      · refine List.nodup_range.imp ?_
        intro a b hab
        simp only [Function.onFun, List.disjoint_left]
        intro m h1 h2
        rw [List.mem_map] at h1 h2
        obtain ⟨x, _, rfl⟩ := h1
        obtain ⟨y, _, h⟩ := h2
        simp only [RealSpace.Spec.three, List.cons.injEq, Op.mk.injEq, Prod.mk.injEq, and_true, true_and] at h
        exact hab h.1.symm
  · have hqx : q / N < N := Nat.div_lt_of_lt_mul hq
    have hqy : q % N < N := Nat.mod_lt _ hN
    have hqd := Nat.div_add_mod q N
    -- the momentum carried by a monomial, in one direction
    have mom : ∀ i1 i2 i3 : ℕ, ∀ f : ℕ → K,
        Term.totalMomentum (·.creator) (fun op : HOp => f op.index.1) (⟨1, RealSpace.Spec.three i1 i2 i3⟩ : Term ℤ HOp) =
          f i1 + f i2 - f i3 := by
      intro i1 i2 i3 f
      simp [Term.totalMomentum, RealSpace.Spec.three]
    constructor
    · intro h
      by_contra hne
      -- some coordinate of q is not the last
      have hcoord : q / N + 1 < N ∨ q % N + 1 < N := by
        by_contra hh
        push Not at hh
        have a1 : q / N = N - 1 := by omega
        have a2 : q % N = N - 1 := by omega
        apply hne
        rw [a1, a2] at hqd
        obtain ⟨M, rfl⟩ : ∃ M, N = M + 1 := ⟨N - 1, by omega⟩
        rw [Nat.add_sub_cancel] at hqd
        nlinarith
      have use : ∀ x1 y1 x2 y2 : ℕ, x1 < N → y1 < N → x2 < N → y2 < N →
          Spec.Conserves pi N q (RealSpace.Spec.three (N * x1 + y1) (N * x2 + y2)
            (coordOf N ((x1 : ℤ) + x2 - (q / N : ℕ)) * N + coordOf N ((y1 : ℤ) + y2 - (q % N : ℕ)))) := by
        intro x1 y1 x2 y2 a1 b1 a2 b2
        have l1 : N * x1 + y1 < N * N := by nlinarith
        have l2 : N * x2 + y2 < N * N := by nlinarith
        have hd : ∀ x y, y < N → (N * x + y) / N = x ∧ (N * x + y) % N = y := by
          intro x y hy
          rw [Nat.mul_add_div hN, Nat.div_eq_of_lt hy, Nat.mul_add_mod, Nat.mod_eq_of_lt hy]; simp
        have := h _ (List.mem_cons_of_mem _ (List.mem_flatMap.2 ⟨_, List.mem_range.2 l1, List.mem_map.2
          ⟨_, List.mem_range.2 l2, rfl⟩⟩))
        unfold thirdOf at this
        rw [(hd x1 y1 b1).1, (hd x1 y1 b1).2, (hd x2 y2 b2).1, (hd x2 y2 b2).2] at this
        exact this
      rcases hcoord with hc | hc
      · have hu := use (N - 1) 0 (q / N + 1) (q % N) (by omega) (by omega) (by omega) (by omega)
        have c1 : coordOf N (((N - 1 : ℕ) : ℤ) + (q / N + 1 : ℕ) - (q / N : ℕ)) = N :=
          (coordOf_cases hN (by omega) (by omega) hqx).1 (by omega)
        rw [c1] at hu
        have := hu.1 ⟨false, (N * N + coordOf N (((0 : ℕ) : ℤ) + (q % N : ℕ) - (q % N : ℕ)), false)⟩
          (by simp [RealSpace.Spec.three])
        simp only at this
        omega
      · -- the second coordinate is N: the site found has its first coordinate wrong by one
        have hu := use 0 (N - 1) (q / N) (q % N + 1) (by omega) (by omega) (by omega) (by omega)
        have c1 : coordOf N (((N - 1 : ℕ) : ℤ) + (q % N + 1 : ℕ) - (q % N : ℕ)) = N :=
          (coordOf_cases hN (by omega) (by omega) hqy).1 (by omega)
        have c0 : coordOf N (((0 : ℕ) : ℤ) + (q / N : ℕ) - (q / N : ℕ)) = 0 := by
          unfold coordOf
          have : ((0 : ℕ) : ℤ) + (q / N : ℕ) - (q / N : ℕ) = 0 := by omega
          rw [this, if_neg (by omega)]; simp [Ieompp.Spec.siteMod]
        rw [c1, c0] at hu
        obtain ⟨-, ⟨n, hn⟩, -⟩ := hu
        rw [mom _ _ _ (fun i => ((Square.momentum pi N N).pos i).1)] at hn
        have p1 : (N * 0 + (N - 1)) / N = 0 := by rw [Nat.mul_zero, Nat.zero_add]; exact Nat.div_eq_of_lt (by omega)
        have p2 : (N * (q / N) + (q % N + 1)) / N = q / N := by
          rw [Nat.mul_add_div hN, Nat.div_eq_of_lt hc, Nat.add_zero]
        have p3 : (0 * N + N) / N = 1 := by rw [Nat.zero_mul, Nat.zero_add]; exact Nat.div_self hN
        simp only [Square.pos, Square.momentum] at hn
        rw [p1, p2, p3] at hn
        have hk : (n : K) * N = -1 := by
          have : (-(2 * pi / (N : K))) = n * (2 * pi) := by push_cast at hn; linear_combination hn
          field_simp at this
          linear_combination -this
        have hz : n * (N : ℤ) = -1 := by exact_mod_cast hk
        have hdvd : (N : ℤ) ∣ 1 := ⟨-n, by linarith⟩
        have := Int.eq_one_of_dvd_one (by omega) hdvd
        omega
    · intro hlast m hm
      have hqx' : q / N = N - 1 := by
        by_contra hne
        have : q / N + 2 ≤ N := by omega
        nlinarith
      have hqy' : q % N = N - 1 := by
        rw [hqx'] at hqd
        obtain ⟨M, rfl⟩ : ∃ M, N = M + 1 := ⟨N - 1, by omega⟩
        rw [Nat.add_sub_cancel] at hqd ⊢
        nlinarith
      rw [List.mem_cons] at hm
      rcases hm with rfl | hm
      · refine ⟨by simpa using hq, ⟨0, ?_⟩, ⟨0, ?_⟩⟩ <;> simp [Term.totalMomentum]
      · rw [List.mem_flatMap] at hm
        obtain ⟨i1, hi1, hm⟩ := hm
        rw [List.mem_map] at hm
        obtain ⟨i2, hi2, rfl⟩ := hm
        rw [List.mem_range] at hi1 hi2
        have x1 : i1 / N < N := Nat.div_lt_of_lt_mul hi1
        have x2 : i2 / N < N := Nat.div_lt_of_lt_mul hi2
        have y1 : i1 % N < N := Nat.mod_lt _ hN
        have y2 : i2 % N < N := Nat.mod_lt _ hN
        obtain ⟨lx, nx, ex⟩ := (coordOf_cases hN x1 x2 hqx).2 (by omega)
        obtain ⟨ly, ny, ey⟩ := (coordOf_cases hN y1 y2 hqy).2 (by omega)
        set cx := coordOf N ((i1 / N : ℕ) + (i2 / N : ℕ) - (q / N : ℕ)) with hcx
        set cy := coordOf N ((i1 % N : ℕ) + (i2 % N : ℕ) - (q % N : ℕ)) with hcy
        have e3 : thirdOf N q i1 i2 = cx * N + cy := rfl
        have dx : (cx * N + cy) / N = cx := by
          rw [mul_comm, Nat.mul_add_div hN, Nat.div_eq_of_lt ly, Nat.add_zero]
        have dy : (cx * N + cy) % N = cy := by rw [mul_comm, Nat.mul_add_mod, Nat.mod_eq_of_lt ly]
        have fin : ∀ (a b c d : ℕ) (n : ℤ), (a : ℤ) + b - c = d + n * N →
            (-pi + (a : K) * (2 * pi / N)) + (-pi + (b : K) * (2 * pi / N)) - (-pi + (d : K) * (2 * pi / N)) =
              (-pi + (c : K) * (2 * pi / N)) + n * (2 * pi) := by
          intro a b c d n h
          have h' : (a : K) + b - c = d + n * N := by exact_mod_cast h
          have e : (N : K) * (2 * pi / N) = 2 * pi := by field_simp
          linear_combination (2 * pi / N) * h' + n * e
        refine ⟨?_, ⟨nx, ?_⟩, ⟨ny, ?_⟩⟩
        · have : cx * N + cy < N * N := by nlinarith
          intro op hop
          simp only [RealSpace.Spec.three, List.mem_cons, List.not_mem_nil, or_false] at hop
          rcases hop with rfl | rfl | rfl
          · exact hi1
          · exact hi2
          · show thirdOf N q i1 i2 < _
            rw [e3]; exact this
        · rw [mom _ _ _ (fun i => ((Square.momentum pi N N).pos i).1), e3]
          simp only [Square.pos, Square.momentum]
          rw [dx]
          exact fin _ _ _ _ _ ex
        · rw [mom _ _ _ (fun i => ((Square.momentum pi N N).pos i).2), e3]
          simp only [Square.pos, Square.momentum]
          rw [dy]
          exact fin _ _ _ _ _ ey

/-- A non-trivial case: `q` in the corner of the 3 × 3 zone is fine, the others are not. -/
example : ∃ B, basis3Square 8 (Square.momentum Real.pi 3 3) = .val B ∧ ∀ m ∈ B, Spec.Conserves Real.pi 3 8 m := by
  obtain ⟨B, h, -, -, -, -, hB⟩ := squareBasis_conserves_partial Real.pi Real.pi_pos (N := 3) (by omega) (q := 8) (by omega)
  exact ⟨B, h, hB.2 rfl⟩

/-- The monomial of `(k₁, k₂) = (8, 5)` for `q = 4` refers to a momentum that does not exist. -/
example : thirdOf 3 4 8 5 = 9 ∧ ¬ (4 + 1 = 3 * 3) := by decide

end Ieompp.MomentumSpace
