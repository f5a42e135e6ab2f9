import Verif.Spec.Symmetry
import Verif.Props.MatrixNoRows
import Verif.Props.StepWidth

/-! # C106: sites and momenta which are equivalent by symmetry are treated equally -/

set_option autoImplicit false
set_option linter.unusedSectionVars false

namespace Ieompp.RealSpace

open Ieompp.Spec

section symmetries
variable {K : Type*} [Field K] [LinearOrder K] [IsStrictOrderedRing K] [FloorRing K]

/-- Next to each other on the ring. -/
def Adjacent (N a b : ℕ) : Prop := b = (a + 1) % N ∨ a = (b + 1) % N

/-- A symmetry of the ring, without reference to a lattice. -/
structure RingSymmetry (N : ℕ) (σ τ : ℕ → ℕ) : Prop where
  lt : ∀ a < N, σ a < N
  lt' : ∀ a < N, τ a < N
  left : ∀ a < N, τ (σ a) = a
  right : ∀ a < N, σ (τ a) = a
  adjacent : ∀ a < N, ∀ b < N, Adjacent N (σ a) (σ b) ↔ Adjacent N a b

theorem ring_id (N : ℕ) : RingSymmetry N id id := ⟨fun _ h => h, fun _ h => h, fun _ _ => rfl, fun _ _ => rfl, fun _ _ _ _ => Iff.rfl⟩

theorem mod_cases {N x : ℕ} (hx : x < 2 * N) : x % N = if x < N then x else x - N := by
  split_ifs with h
  · exact Nat.mod_eq_of_lt h
  · rw [Nat.mod_eq_sub_mod (by omega), Nat.mod_eq_of_lt (by omega)]

theorem ring_shift {N s : ℕ} (hs : s < N) : RingSymmetry N (shift N s) (shift N (N - s)) := by
  have h1 : ∀ a < N, shift N s a = if a + s < N then a + s else a + s - N := fun a ha => mod_cases (by omega)
  have h2 : ∀ a < N, shift N (N - s) a = if a + (N - s) < N then a + (N - s) else a + (N - s) - N := fun a ha => mod_cases (by omega)
  have l1 : ∀ a < N, shift N s a < N := fun a ha => Nat.mod_lt _ (by omega)
  have l2 : ∀ a < N, shift N (N - s) a < N := fun a ha => Nat.mod_lt _ (by omega)
  refine ⟨l1, l2, fun a ha => ?_, fun a ha => ?_, fun a ha b hb => ?_⟩
  · rw [h2 _ (l1 a ha), h1 a ha]; split_ifs <;> omega
  · rw [h1 _ (l2 a ha), h2 a ha]; split_ifs <;> omega
  · unfold Adjacent
    have e1 := l1 a ha
    have e2 := l1 b hb
    rw [mod_cases (x := shift N s a + 1) (by omega), mod_cases (x := shift N s b + 1) (by omega),
      mod_cases (x := a + 1) (by omega), mod_cases (x := b + 1) (by omega), h1 a ha, h1 b hb]
    split_ifs <;> omega

theorem ring_reflect {N : ℕ} : RingSymmetry N (reflect N) (reflect N) := by
  have h1 : ∀ a < N, reflect N a = if a = 0 then 0 else N - a := by
    intro a ha
    unfold reflect
    split_ifs with h
    · rw [h, Nat.sub_zero, Nat.mod_self]
    · exact Nat.mod_eq_of_lt (by omega)
  have l1 : ∀ a < N, reflect N a < N := fun a ha => Nat.mod_lt _ (by omega)
  refine ⟨l1, l1, fun a ha => ?_, fun a ha => ?_, fun a ha b hb => ?_⟩
  · rw [h1 _ (l1 a ha), h1 a ha]; split_ifs <;> omega
  · rw [h1 _ (l1 a ha), h1 a ha]; split_ifs <;> omega
  · unfold Adjacent
    have e1 := l1 a ha
    have e2 := l1 b hb
    rw [mod_cases (x := reflect N a + 1) (by omega), mod_cases (x := reflect N b + 1) (by omega),
      mod_cases (x := a + 1) (by omega), mod_cases (x := b + 1) (by omega)]
    have f1 := h1 a ha
    have f2 := h1 b hb
    clear h1 l1
    generalize reflect N a = p at *
    generalize reflect N b = q at *
    split_ifs at f1 f2 ⊢ <;> omega

/-- Symmetries of the ring are symmetries of the chain. -/
theorem chain_of_ring {c : Chain K} {N : ℕ} (hc : c.Constructed N) {σ τ : ℕ → ℕ} (h : RingSymmetry N σ τ) :
    LatticeSymmetry N c.neighbors σ τ :=
  ⟨h.lt, h.lt', h.left, h.right, fun a ha b hb => by
    rw [(chain_neighboring_iff hc _ _ (h.lt a ha) (h.lt b hb)).2, (chain_neighboring_iff hc _ _ ha hb).2]
    exact h.adjacent a ha b hb⟩

/-- **C106**: every translation and the reflection are symmetries of every chain. -/
theorem chain_symmetries {c : Chain K} {N : ℕ} (hc : c.Constructed N) :
    (∀ s < N, LatticeSymmetry N c.neighbors (shift N s) (shift N (N - s))) ∧
    LatticeSymmetry N c.neighbors (reflect N) (reflect N) :=
  ⟨fun _ hs => chain_of_ring hc (ring_shift hs), chain_of_ring hc ring_reflect⟩

theorem torus_coord {N x y : ℕ} (hy : y < N) : (x * N + y) / N = x ∧ (x * N + y) % N = y := by
  constructor
  · rw [Nat.mul_comm, Nat.mul_add_div (by omega), Nat.div_eq_of_lt hy, Nat.add_zero]
  · rw [Nat.mul_comm, Nat.mul_add_mod, Nat.mod_eq_of_lt hy]

theorem torus_lt {N x y : ℕ} (hx : x < N) (hy : y < N) : x * N + y < N * N := by
  calc x * N + y < x * N + N := by omega
    _ = (x + 1) * N := by ring
    _ ≤ N * N := Nat.mul_le_mul_right _ hx

theorem torus_site {N a : ℕ} (ha : a < N * N) : ∃ x y, x < N ∧ y < N ∧ a = x * N + y :=
  ⟨a / N, a % N, Nat.div_lt_of_lt_mul ha, Nat.mod_lt _ (Nat.pos_of_ne_zero (by rintro rfl; simp at ha)), by
    rw [Nat.mul_comm]; exact (Nat.div_add_mod a N).symm⟩

theorem torus_neighbors {s : Square K} {N : ℕ} (hs : s.Constructed N N) {x y x' y' : ℕ} (hx : x < N) (hy : y < N) (hx' : x' < N)
    (hy' : y' < N) : x' * N + y' ∈ s.neighbors (x * N + y) ↔ (y' = y ∧ Adjacent N x x') ∨ (x' = x ∧ Adjacent N y y') := by
  have h := (square_neighbors_partial hs).2.1 x y x' y' hx hy hx' hy'
  unfold Square.index at h
  rw [hs.fields.1] at h
  exact h

theorem square_of_rings {s : Square K} {N : ℕ} (hs : s.Constructed N N) {f f' g g' : ℕ → ℕ} (hf : RingSymmetry N f f')
    (hg : RingSymmetry N g g') : LatticeSymmetry (N * N) s.neighbors (onTorus N f g) (onTorus N f' g') := by
  refine ⟨?_, ?_, ?_, ?_, ?_⟩
  · intro a ha
    obtain ⟨x, y, hx, hy, rfl⟩ := torus_site ha
    unfold onTorus
    rw [(torus_coord hy).1, (torus_coord hy).2]
    exact torus_lt (hf.lt x hx) (hg.lt y hy)
  · intro a ha
    obtain ⟨x, y, hx, hy, rfl⟩ := torus_site ha
    unfold onTorus
    rw [(torus_coord hy).1, (torus_coord hy).2]
    exact torus_lt (hf.lt' x hx) (hg.lt' y hy)
  · intro a ha
    obtain ⟨x, y, hx, hy, rfl⟩ := torus_site ha
    unfold onTorus
    rw [(torus_coord hy).1, (torus_coord hy).2, (torus_coord (hg.lt y hy)).1, (torus_coord (hg.lt y hy)).2, hf.left x hx, hg.left y hy]
  · intro a ha
    obtain ⟨x, y, hx, hy, rfl⟩ := torus_site ha
    unfold onTorus
    rw [(torus_coord hy).1, (torus_coord hy).2, (torus_coord (hg.lt' y hy)).1, (torus_coord (hg.lt' y hy)).2, hf.right x hx,
      hg.right y hy]
  · intro a ha b hb
    obtain ⟨x, y, hx, hy, rfl⟩ := torus_site ha
    obtain ⟨x', y', hx', hy', rfl⟩ := torus_site hb
    unfold onTorus
    rw [(torus_coord hy).1, (torus_coord hy).2, (torus_coord hy').1, (torus_coord hy').2,
      torus_neighbors hs (hf.lt x hx) (hg.lt y hy) (hf.lt x' hx') (hg.lt y' hy'), torus_neighbors hs hx hy hx' hy',
      hf.adjacent x hx x' hx', hg.adjacent y hy y' hy']
    have i1 : g y' = g y ↔ y' = y := ⟨fun e => by rw [← hg.left y' hy', e, hg.left y hy], fun e => by rw [e]⟩
    have i2 : f x' = f x ↔ x' = x := ⟨fun e => by rw [← hf.left x' hx', e, hf.left x hx], fun e => by rw [e]⟩
    rw [i1, i2]

/-- **C106**: translations in both directions, the reflections of both coordinates and their exchange are symmetries of every
`N × N` lattice. -/
theorem square_symmetries {s : Square K} {N : ℕ} (hs : s.Constructed N N) :
    (∀ i < N, ∀ j < N, LatticeSymmetry (N * N) s.neighbors (onTorus N (shift N i) (shift N j))
      (onTorus N (shift N (N - i)) (shift N (N - j)))) ∧
    LatticeSymmetry (N * N) s.neighbors (onTorus N (reflect N) id) (onTorus N (reflect N) id) ∧
    LatticeSymmetry (N * N) s.neighbors (onTorus N id (reflect N)) (onTorus N id (reflect N)) ∧
    LatticeSymmetry (N * N) s.neighbors (diagonal N) (diagonal N) := by
  refine ⟨fun i hi j hj => square_of_rings hs (ring_shift hi) (ring_shift hj), square_of_rings hs ring_reflect (ring_id N),
    square_of_rings hs (ring_id N) ring_reflect, ?_⟩
  have hl : ∀ a < N * N, diagonal N a < N * N := by
    intro a ha
    obtain ⟨x, y, hx, hy, rfl⟩ := torus_site ha
    unfold diagonal
    rw [(torus_coord hy).1, (torus_coord hy).2]
    exact torus_lt hy hx
  have hi : ∀ a < N * N, diagonal N (diagonal N a) = a := by
    intro a ha
    obtain ⟨x, y, hx, hy, rfl⟩ := torus_site ha
    unfold diagonal
    rw [(torus_coord hy).1, (torus_coord hy).2, (torus_coord hx).1, (torus_coord hx).2]
  refine ⟨hl, hl, hi, hi, ?_⟩
  intro a ha b hb
  obtain ⟨x, y, hx, hy, rfl⟩ := torus_site ha
  obtain ⟨x', y', hx', hy', rfl⟩ := torus_site hb
  unfold diagonal
  rw [(torus_coord hy).1, (torus_coord hy).2, (torus_coord hy').1, (torus_coord hy').2, torus_neighbors hs hy hx hy' hx',
    torus_neighbors hs hx hy hx' hy', or_comm]

end symmetries

/-! ## The matrices -/

variable {S : Type*} [Field S] {N z : ℕ} {nb : ℕ → List ℕ} {σ τ : ℕ → ℕ}

theorem LatticeSymmetry.inj (h : LatticeSymmetry N nb σ τ) {a b : ℕ} (ha : a < N) (hb : b < N) : σ a = σ b ↔ a = b :=
  ⟨fun e => by rw [← h.left a ha, e, h.left b hb], fun e => by rw [e]⟩

theorem move_valid (h : LatticeSymmetry N nb σ τ) {x : Label} (hx : x.Valid N) : (x.move σ).Valid N := by
  cases x with
  | one i => exact h.lt i hx
  | three a b c => exact ⟨h.lt a hx.1, h.lt b hx.2.1, h.lt c hx.2.2⟩

theorem element_move (h : LatticeSymmetry N nb σ τ) (J U : S) {x y : Label} (hx : x.Valid N) (hy : y.Valid N) :
    element nb J U (x.move σ) (y.move σ) = element nb J U x y := by
  cases x with
  | one i =>
    cases y with
    | one j => simp only [Label.move, element, h.neighbors i hx j hy, LatticeSymmetry.inj h hx hy]
    | three a b c =>
      simp only [Label.move, element, LatticeSymmetry.inj h hx hy.1, LatticeSymmetry.inj h hx hy.2.1, LatticeSymmetry.inj h hx hy.2.2]
  | three a b c =>
    cases y with
    | one j =>
      simp only [Label.move, element, LatticeSymmetry.inj h hy hx.1, LatticeSymmetry.inj h hy hx.2.1, LatticeSymmetry.inj h hy hx.2.2]
    | three a' b' c' =>
      simp only [Label.move, element, LatticeSymmetry.inj h hy.1 hx.1, LatticeSymmetry.inj h hy.2.1 hx.2.1,
        LatticeSymmetry.inj h hy.2.2 hx.2.2, h.neighbors _ hx.1 _ hy.1, h.neighbors _ hx.2.1 _ hy.2.1, h.neighbors _ hx.2.2 _ hy.2.2]

/-- **C106**, kinetic matrix: the element between two sites is that between their images under any symmetry of the lattice. -/
theorem kineticMatrix_symmetry (h : RegularLattice N z nb) (hσ : LatticeSymmetry N nb σ τ)
    (sort : List (Triplet S) → List (Triplet S)) (hs : IsSort sort) (J : S) :
    ∃ m, initKineticMatrix sort N z nb J = .val m ∧ ∀ i < N, ∀ j < N, m.get (σ i) (σ j) = m.get i j := by
  obtain ⟨m, h1, _, _, _, _, _, h4⟩ := initKineticMatrix_ok h sort hs J
  refine ⟨m, h1, fun i hi j hj => ?_⟩
  rw [h4 _ (hσ.lt i hi) _ (hσ.lt j hj), h4 i hi j hj]
  simp only [hσ.neighbors i hi j hj]

/-- **C106**, complete matrix: the same for the elements between all basis operators. -/
theorem matrix_symmetry (h : RegularLattice N z nb) (hσ : LatticeSymmetry N nb σ τ)
    (sort : List (Triplet S) → List (Triplet S)) (hs : IsSort sort) (J U : S) :
    ∃ m, initMatrix sort N z nb J U = .val m ∧ ∀ x y : Label, x.Valid N → y.Valid N →
      m.get ((x.move σ).pos N) ((y.move σ).pos N) = m.get (x.pos N) (y.pos N) := by
  obtain ⟨m, h1, _, _, _, _, _, _, h4⟩ := initMatrix_ok h sort hs J U
  refine ⟨m, h1, fun x y hx hy => ?_⟩
  rw [h4 _ _ (move_valid hσ hx) (move_valid hσ hy), h4 x y hx hy, element_move hσ J U hx hy]

/-! ### The normal-ordered matrix -/

/-- The triplets of a row of the normal-ordered matrix, by label. -/
def noLabels (nb : ℕ → List ℕ) (J U : S) (ev : ℕ → ℕ → S) : Label → List (Label × S)
  | .one i => (nb i).map (fun n => (.one n, -J)) ++ [(.one i, U), (.three i i i, U * ev i i)]
  | .three a b c =>
    (nb a).map (fun n => (.three n b c, -J)) ++ (nb b).map (fun n => (.three a n c, -J)) ++ (nb c).map (fun n => (.three a b n, J)) ++
    [(.one a, U * ev b a * evConj ev c a), (.one b, U * evConj ev b a * ev b c), (.one c, -U * ev c a * ev b c)] ++
    [(.three a b c, U * ev a a), (.three a a c, -U * ev b a), (.three a b a, U * evConj ev c a)] ++
    (if b ≠ c then [(.three b b c, U * ev b a), (.three c b c, -U * ev c a)] else [])

theorem rawNo_labels (J U : S) (ev : ℕ → ℕ → S) {x : Label} (hx : x.Valid N) :
    rawNo N nb J U ev (x.pos N) = (noLabels nb J U ev x).map fun e => ⟨x.pos N, e.1.pos N, e.2⟩ := by
  cases x with
  | one i =>
    have hx : i < N := hx
    simp only [rawNo, Label.pos, hx, if_true, oneTripletsNo, noLabels, List.map_append, List.map_map, List.map_cons, List.map_nil]
    rfl
  | three a b c =>
    have hnl : ¬ Label.pos N (.three a b c) < N := by simp only [Label.pos]; omega
    unfold rawNo
    rw [if_neg hnl, show Label.pos N (.three a b c) = get3opIndex N a b c from rfl, basisSites_three hx.1 hx.2.1 hx.2.2]
    simp only [Option.map_some, Option.getD_some, threeTripletsNo, noLabels, List.map_append, List.map_map, List.map_cons, List.map_nil]
    congr 1
    split_ifs <;> rfl

theorem noLabels_valid (h : RegularLattice N z nb) (J U : S) (ev : ℕ → ℕ → S) {x : Label} (hx : x.Valid N) :
    ∀ e ∈ noLabels nb J U ev x, e.1.Valid N := by
  intro e he
  cases x with
  | one i =>
    have hx : i < N := hx
    simp only [noLabels, List.mem_append, List.mem_map, List.mem_cons, List.not_mem_nil, or_false] at he
    rcases he with ⟨n, hn, rfl⟩ | rfl | rfl
    · exact h.lt i hx n hn
    · exact hx
    · exact ⟨hx, hx, hx⟩
  | three a b c =>
    obtain ⟨ha, hb, hc⟩ := hx
    simp only [noLabels, List.mem_append, List.mem_map, List.mem_cons, List.not_mem_nil, or_false] at he
    rcases he with ((((⟨n, hn, rfl⟩ | ⟨n, hn, rfl⟩) | ⟨n, hn, rfl⟩) | rfl | rfl | rfl) | rfl | rfl | rfl) | he
    · exact ⟨h.lt a ha n hn, hb, hc⟩
    · exact ⟨ha, h.lt b hb n hn, hc⟩
    · exact ⟨ha, hb, h.lt c hc n hn⟩
    · exact ha
    · exact hb
    · exact hc
    · exact ⟨ha, hb, hc⟩
    · exact ⟨ha, ha, hc⟩
    · exact ⟨ha, hb, ha⟩
    · split_ifs at he
      · simp only [List.mem_cons, List.not_mem_nil, or_false] at he
        rcases he with rfl | rfl
        · exact ⟨hb, hb, hc⟩
        · exact ⟨hc, hb, hc⟩
      · simp at he

theorem move_inj (h : LatticeSymmetry N nb σ τ) {x y : Label} (hx : x.Valid N) (hy : y.Valid N) : x.move σ = y.move σ ↔ x = y := by
  cases x with
  | one i =>
    cases y with
    | one j => simp only [Label.move, Label.one.injEq]; exact LatticeSymmetry.inj h hx hy
    | three a b c => simp [Label.move]
  | three a b c =>
    cases y with
    | one j => simp [Label.move]
    | three a' b' c' =>
      simp only [Label.move, Label.three.injEq, LatticeSymmetry.inj h hx.1 hy.1, LatticeSymmetry.inj h hx.2.1 hy.2.1,
        LatticeSymmetry.inj h hx.2.2 hy.2.2]

theorem pos_inj {x y : Label} (hx : x.Valid N) (hy : y.Valid N) : x.pos N = y.pos N ↔ x = y := by
  refine ⟨fun e => ?_, fun e => by rw [e]⟩
  cases x with
  | one i =>
    cases y with
    | one j => exact congrArg Label.one e
    | three a b c => simp only [Label.pos] at e; simp only [Label.Valid] at hx; omega
  | three a b c =>
    cases y with
    | one j => simp only [Label.pos] at e; simp only [Label.Valid] at hy; omega
    | three a' b' c' =>
      obtain ⟨rfl, rfl, rfl⟩ := get3opIndex_inj hx.1 hx.2.1 hx.2.2 hy.1 hy.2.1 hy.2.2 |>.1 e
      rfl

theorem nb_move (h : RegularLattice N z nb) (hσ : LatticeSymmetry N nb σ τ) {a : ℕ} (ha : a < N) : (nb (σ a)).Perm ((nb a).map σ) := by
  rw [List.perm_ext_iff_of_nodup (h.nodup _ (hσ.lt a ha)) (List.Nodup.map_on (fun x hx y hy e =>
    (LatticeSymmetry.inj hσ (h.lt a ha x hx) (h.lt a ha y hy)).1 e) (h.nodup a ha))]
  intro b
  rw [List.mem_map]
  constructor
  · intro hb
    have hbN := h.lt _ (hσ.lt a ha) b hb
    refine ⟨τ b, ?_, hσ.right b hbN⟩
    rw [← hσ.neighbors a ha _ (hσ.lt' b hbN), hσ.right b hbN]
    exact hb
  · rintro ⟨c, hc, rfl⟩
    exact (hσ.neighbors a ha c (h.lt a ha c hc)).2 hc

theorem noLabels_move (h : RegularLattice N z nb) (hσ : LatticeSymmetry N nb σ τ) (J U : S) {ev : ℕ → ℕ → S}
    (hev : ∀ a < N, ∀ b < N, ev (σ a) (σ b) = ev a b) {x : Label} (hx : x.Valid N) :
    (noLabels nb J U ev (x.move σ)).Perm ((noLabels nb J U ev x).map fun e => (e.1.move σ, e.2)) := by
  have hc : ∀ a < N, ∀ b < N, evConj ev (σ a) (σ b) = evConj ev a b := by
    intro a ha b hb
    unfold evConj
    rw [hev b hb a ha]
    simp only [LatticeSymmetry.inj hσ ha hb]
  cases x with
  | one i =>
    have hx : i < N := hx
    simp only [Label.move, noLabels, List.map_append, List.map_map, List.map_cons, List.map_nil, hev i hx i hx]
    refine List.Perm.append ?_ (List.Perm.refl _)
    have := (nb_move h hσ hx).map fun n => ((Label.one n, -J) : Label × S)
    rwa [List.map_map] at this
  | three a b c =>
    obtain ⟨ha, hb, hcN⟩ := hx
    simp only [Label.move, noLabels, List.map_append, List.map_map, List.map_cons, List.map_nil, hev a ha a ha, hev b hb a ha,
      hev b hb c hcN, hev c hcN a ha, hc b hb a ha, hc c hcN a ha]
    have p1 := (nb_move h hσ ha).map fun n => ((Label.three n (σ b) (σ c), -J) : Label × S)
    have p2 := (nb_move h hσ hb).map fun n => ((Label.three (σ a) n (σ c), -J) : Label × S)
    have p3 := (nb_move h hσ hcN).map fun n => ((Label.three (σ a) (σ b) n, J) : Label × S)
    rw [List.map_map] at p1 p2 p3
    refine List.Perm.append (List.Perm.append (List.Perm.append (List.Perm.append (List.Perm.append p1 p2) p3) (List.Perm.refl _))
      (List.Perm.refl _)) ?_
    have : σ b ≠ σ c ↔ b ≠ c := not_congr (LatticeSymmetry.inj hσ hb hcN)
    by_cases hbc : b ≠ c
    · rw [if_pos hbc, if_pos (this.2 hbc)]; exact List.Perm.refl _
    · rw [if_neg hbc, if_neg (fun e => hbc (this.1 e))]; exact List.Perm.refl _

theorem columnSum_labels (row : ℕ) (l : List (Label × S)) (hl : ∀ e ∈ l, e.1.Valid N) {y : Label} (hy : y.Valid N) :
    columnSum (l.map fun e => (⟨row, e.1.pos N, e.2⟩ : Triplet S)) (y.pos N) = (l.map fun e => if e.1 = y then e.2 else 0).sum := by
  induction l with
  | nil => rfl
  | cons e l ih =>
    rw [List.map_cons, show ∀ (t : Triplet S) (l : List (Triplet S)), t :: l = [t] ++ l from fun _ _ => rfl, columnSum_append,
      ih (fun e he => hl e (List.mem_cons_of_mem _ he)), List.map_cons, List.sum_cons, columnSum_singleton]
    congr 1
    have := pos_inj (hl e List.mem_cons_self) hy
    by_cases q : e.1 = y
    · rw [if_pos q, if_pos (by rw [q])]
    · rw [if_neg q, if_neg (fun e' => q (this.1 e'.symm))]

/-- **C106**, normal-ordered matrix: if the correlations are invariant under the symmetry, so is the matrix. -/
theorem matrixNo_symmetry [DecidableEq S] (h : RegularLattice N z nb) (hσ : LatticeSymmetry N nb σ τ)
    (sort : List (Triplet S) → List (Triplet S)) (hs : IsSort sort) (isZero : S → Bool) (hz : ∀ x, isZero x = true → x = 0) (J U : S)
    {ev : ℕ → ℕ → S} (hev : ∀ a < N, ∀ b < N, ev (σ a) (σ b) = ev a b) :
    ∃ m, initMatrixNo sort isZero N z nb J U ev = .val m ∧ ∀ x y : Label, x.Valid N → y.Valid N →
      m.get ((x.move σ).pos N) ((y.move σ).pos N) = m.get (x.pos N) (y.pos N) := by
  obtain ⟨m, h1, _, _, _, _, _, h4⟩ := initMatrixNo_ok_partial h sort hs isZero hz J U ev
  refine ⟨m, h1, fun x y hx hy => ?_⟩
  rw [h4 _ (label_pos_lt (move_valid hσ hx)), h4 _ (label_pos_lt hx), rawNo_labels J U ev hx, rawNo_labels J U ev (move_valid hσ hx),
    columnSum_labels _ _ (noLabels_valid h J U ev hx) hy,
    columnSum_labels _ _ (noLabels_valid h J U ev (move_valid hσ hx)) (move_valid hσ hy)]
  rw [((noLabels_move h hσ J U hev hx).map fun e => if e.1 = y.move σ then e.2 else 0).sum_eq, List.map_map]
  refine congrArg List.sum (List.map_congr_left fun e he => ?_)
  simp only [Function.comp, move_inj hσ (noLabels_valid h J U ev hx e he) hy]

end Ieompp.RealSpace
