import Verif.Lemmas.Wrap
import Mathlib.Data.Rat.Floor
import Mathlib.Algebra.Order.Archimedean.Real.Basic
import Mathlib.Data.List.Range
import Mathlib.Analysis.Real.Pi.Bounds

/-! # C18-C21: the periodic chain -/

set_option autoImplicit false
set_option linter.unusedSectionVars false

namespace Ieompp

open Spec

section Index

variable {K : Type*} [Field K]

/-- A chain made by one of the two constructors (with `assert(N > 0)`). -/
inductive Chain.Constructed (c : Chain K) (N : ℕ) : Prop
  | momentum (pi : K) (hN : 0 < N) (h : c = Chain.momentum pi N)
  | real (dx : K) (hN : 0 < N) (h : c = Chain.real N dx)

theorem Chain.Constructed.pos_size {c : Chain K} {N : ℕ} (h : c.Constructed N) : 0 < N := by
  cases h <;> assumption

theorem Chain.Constructed.fields {c : Chain K} {N : ℕ} (h : c.Constructed N) :
    c.size = N ∧ c.first = 0 ∧ c.last = N - 1 := by
  cases h with
  | momentum pi hN h => subst h; exact ⟨rfl, rfl, rfl⟩
  | real dx hN h => subst h; exact ⟨rfl, rfl, rfl⟩

theorem succ_mod_cases {a N : ℕ} (h : a < N) : (a + 1) % N = if a + 1 = N then 0 else a + 1 := by
  split
  · rename_i h'; rw [h']; exact Nat.mod_self N
  · exact Nat.mod_eq_of_lt (by omega)

theorem add_mod_cases {a s N : ℕ} (ha : a < N) (hs : s < N) :
    (a + s) % N = if a + s < N then a + s else a + s - N := by
  split
  · exact Nat.mod_eq_of_lt (by assumption)
  · rw [Nat.mod_eq_sub_mod (by omega)]; exact Nat.mod_eq_of_lt (by omega)

/-! ## C18 -/

/-- C18: the neighbours of a site are sites. -/
theorem chain_neighbors_lt {c : Chain K} {N : ℕ} (hc : c.Constructed N) (a : ℕ) (ha : a < N) :
    ∀ b ∈ c.neighbors a, b < N := by
  obtain ⟨_, h2, h3⟩ := hc.fields
  have := hc.pos_size
  intro b hb
  simp only [Chain.neighbors, h2, h3, List.mem_cons, List.not_mem_nil, or_false] at hb
  rcases hb with rfl | rfl <;> split <;> omega

/-- C18: `b` is a neighbour of `a` exactly when `neighboring(a, b)`, i.e. when they are one step apart on the
ring. -/
theorem chain_neighboring_iff {c : Chain K} {N : ℕ} (hc : c.Constructed N) (a b : ℕ) (ha : a < N) (hb : b < N) :
    (c.neighboring a b = true ↔ b ∈ c.neighbors a) ∧
    (b ∈ c.neighbors a ↔ (b = (a + 1) % N ∨ a = (b + 1) % N)) := by
  obtain ⟨h1, h2, h3⟩ := hc.fields
  simp only [Chain.neighboring, Chain.neighbors, h1, h2, h3, succ_mod_cases ha, succ_mod_cases hb, Bool.or_eq_true,
    beq_iff_eq, List.mem_cons, List.not_mem_nil, or_false]
  constructor
  · constructor
    · intro h; split_ifs at h ⊢ <;> omega
    · intro h; split_ifs at h ⊢ <;> omega
  · constructor
    · intro h; split_ifs at h ⊢ <;> omega
    · intro h; split_ifs at h ⊢ <;> omega

/-- C18: neighbourhood is mutual. -/
theorem chain_neighbors_symm {c : Chain K} {N : ℕ} (hc : c.Constructed N) (a b : ℕ) (ha : a < N) (hb : b < N) :
    b ∈ c.neighbors a ↔ a ∈ c.neighbors b := by
  rw [(chain_neighboring_iff hc a b ha hb).2, (chain_neighboring_iff hc b a hb ha).2, or_comm]

/-- C18: for N ≥ 3 the two neighbours are distinct and differ from the site. -/
theorem chain_neighbors_nodup {c : Chain K} {N : ℕ} (hc : c.Constructed N) (hN : 3 ≤ N) (a : ℕ) (ha : a < N) :
    (a :: c.neighbors a).Nodup := by
  obtain ⟨h1, h2, h3⟩ := hc.fields
  simp only [Chain.neighbors, h2, h3, List.nodup_cons, List.mem_cons, List.not_mem_nil, or_false, not_or,
    List.nodup_nil, not_false_iff, and_true]
  refine ⟨⟨?_, ?_⟩, ?_⟩ <;> split_ifs <;> omega

/-- C18: for N ≥ 3, every bond `{a, b}` is listed exactly once by the unique neighbours: exactly one of `b` is
the unique neighbour of `a`, `a` is the unique neighbour of `b`. And every listed pair is a bond. -/
theorem chain_uniqueNeighbor_bonds {c : Chain K} {N : ℕ} (hc : c.Constructed N) (hN : 3 ≤ N) (a b : ℕ)
    (ha : a < N) (hb : b < N) :
    (b ∈ c.neighbors a ↔ (c.uniqueNeighbor a = b ∨ c.uniqueNeighbor b = a)) ∧
    ¬ (c.uniqueNeighbor a = b ∧ c.uniqueNeighbor b = a) := by
  obtain ⟨h1, h2, h3⟩ := hc.fields
  simp only [Chain.neighbors, Chain.uniqueNeighbor, h2, h3, List.mem_cons, List.not_mem_nil, or_false]
  refine ⟨⟨fun h => ?_, fun h => ?_⟩, fun h => ?_⟩ <;> split_ifs at h ⊢ <;> omega

/-- C18 (boundary): on two sites the single bond is listed twice, on one site the site is its own neighbour. -/
theorem chain_small_degenerate {c : Chain K} :
    (c.Constructed 2 → c.neighbors 0 = [1, 1] ∧ c.uniqueNeighbor 0 = 1 ∧ c.uniqueNeighbor 1 = 0) ∧
    (c.Constructed 1 → c.neighbors 0 = [0, 0]) := by
  constructor
  · intro hc; obtain ⟨h1, h2, h3⟩ := hc.fields; simp [Chain.neighbors, Chain.uniqueNeighbor, h2, h3]
  · intro hc; obtain ⟨h1, h2, h3⟩ := hc.fields; simp [Chain.neighbors, h2, h3]

/-! ## C19 -/

/-- C19: `lattice_distance` is a metric bounded by N/2. -/
theorem chain_distance_metric {c : Chain K} {N : ℕ} (hc : c.Constructed N) (x y z : ℕ)
    (hx : x < N) (hy : y < N) (hz : z < N) :
    c.latticeDistance x y = c.latticeDistance y x ∧ (c.latticeDistance x y = 0 ↔ x = y) ∧
    c.latticeDistance x z ≤ c.latticeDistance x y + c.latticeDistance y z ∧
    2 * c.latticeDistance x y ≤ N := by
  obtain ⟨h1, _, _⟩ := hc.fields
  simp only [Chain.latticeDistance, h1]
  refine ⟨?_, ⟨fun h => ?_, fun h => ?_⟩, ?_, ?_⟩
  · split_ifs <;> omega
  · split_ifs at h <;> omega
  · subst h; simp
  · split_ifs <;> omega
  · split_ifs <;> omega

/-- C19: translation and reflection invariance. -/
theorem chain_distance_invariant {c : Chain K} {N : ℕ} (hc : c.Constructed N) (x y s : ℕ)
    (hx : x < N) (hy : y < N) :
    c.latticeDistance ((x + s) % N) ((y + s) % N) = c.latticeDistance x y ∧
    c.latticeDistance ((N - x) % N) ((N - y) % N) = c.latticeDistance x y := by
  obtain ⟨h1, _, _⟩ := hc.fields
  have hN := hc.pos_size
  constructor
  · rw [Nat.add_mod x s, Nat.add_mod y s, Nat.mod_eq_of_lt hx, Nat.mod_eq_of_lt hy]
    have hs : s % N < N := Nat.mod_lt _ hN
    generalize s % N = s' at hs
    rw [add_mod_cases hx hs, add_mod_cases hy hs]
    simp only [Chain.latticeDistance, h1]
    split_ifs <;> omega
  · have hr : ∀ x, x < N → (N - x) % N = if x = 0 then 0 else N - x := by
      intro x hx
      split
      · rename_i h; subst h; simp
      · exact Nat.mod_eq_of_lt (by omega)
    rw [hr x hx, hr y hy]
    simp only [Chain.latticeDistance, h1]
    split_ifs <;> omega

theorem Spec.Walk.snoc {nb : ℕ → ℕ → Prop} {n a b c : ℕ} (h : Walk nb n a b) (h' : nb b c) : Walk nb (n + 1) a c := by
  induction h with
  | refl a => exact Walk.step h' (Walk.refl _)
  | step h1 _ ih => exact Walk.step h1 (ih h')

/-- C19: `lattice_distance(a, b)` is the length of a shortest walk from `a` to `b` along neighbours. -/
theorem chain_distance_shortest {c : Chain K} {N : ℕ} (hc : c.Constructed N) (a b : ℕ) (ha : a < N) (hb : b < N) :
    Walk (fun x y => y ∈ c.neighbors x) (c.latticeDistance a b) a b ∧
    ∀ n, Walk (fun x y => y ∈ c.neighbors x) n a b → c.latticeDistance a b ≤ n := by
  have hstep : ∀ x y, x < N → y ∈ c.neighbors x → c.latticeDistance x y ≤ 1 := by
    intro x y hx hy
    have hyN := chain_neighbors_lt hc x hx y hy
    rw [(chain_neighboring_iff hc x y hx hyN).2, succ_mod_cases hx, succ_mod_cases hyN] at hy
    obtain ⟨h1, _, _⟩ := hc.fields
    simp only [Chain.latticeDistance, h1]
    split_ifs at hy ⊢ <;> omega
  constructor
  · obtain ⟨d, hd⟩ : ∃ d, c.latticeDistance a b = d := ⟨_, rfl⟩
    rw [hd]
    induction d generalizing b with
    | zero =>
      have := ((chain_distance_metric hc a b a ha hb ha).2.1).1 hd
      subst this; exact Walk.refl _
    | succ d ih =>
      -- one of the two neighbours of b is nearer to a
      have key : ∃ b', b' < N ∧ b ∈ c.neighbors b' ∧ c.latticeDistance a b' = d := by
        obtain ⟨h1, h2, h3⟩ := hc.fields
        have hlow : c.latticeDistance a ((b + 1) % N) = d ∨ c.latticeDistance a (if b > 0 then b - 1 else N - 1) = d := by
          rw [succ_mod_cases hb]
          simp only [Chain.latticeDistance, h1] at hd ⊢
          split_ifs at hd ⊢ <;> omega
        rcases hlow with h | h
        · refine ⟨_, Nat.mod_lt _ hc.pos_size, ?_, h⟩
          rw [(chain_neighboring_iff hc _ b (Nat.mod_lt _ hc.pos_size) hb).2]; right; rfl
        · refine ⟨_, ?_, ?_, h⟩
          · split_ifs <;> omega
          · have hlt : (if b > 0 then b - 1 else N - 1) < N := by split_ifs <;> omega
            rw [(chain_neighboring_iff hc _ b hlt hb).2, succ_mod_cases hlt]; left
            split_ifs <;> omega
      obtain ⟨b', hb', hn, hd'⟩ := key
      exact (ih b' hb' hd').snoc hn
  · intro n hw
    induction hw with
    | refl x => exact le_of_eq (((chain_distance_metric hc x x x ha ha ha).2.1).2 rfl)
    | @step n x y z h1 _ ih =>
      have hy := chain_neighbors_lt hc x ha y h1
      have := (chain_distance_metric hc x y z ha hy hb).2.2.1
      have h2 := hstep x y ha h1
      have h3 := ih hy hb
      omega

end Index

/-! ## C20 -/

section Lookup

variable {K : Type*} [Field K] [LinearOrder K] [IsStrictOrderedRing K] [FloorRing K]

/-- `z mod N` as a site. -/
def Spec.siteMod (z : ℤ) (N : ℕ) : ℕ := (z % (N : ℤ)).toNat

theorem siteMod_lt (z : ℤ) {N : ℕ} (hN : 0 < N) : siteMod z N < N := by
  have h1 := Int.emod_nonneg z (by omega : (N : ℤ) ≠ 0)
  have h2 := Int.emod_lt_of_pos z (by omega : (0 : ℤ) < N)
  unfold siteMod; omega

theorem siteMod_add_mul (z m : ℤ) (N : ℕ) : siteMod (z + m * N) N = siteMod z N := by
  unfold siteMod; rw [Int.add_mul_emod_self_right]

theorem siteMod_nat {i N : ℕ} (h : i < N) : siteMod (i : ℤ) N = i := by
  unfold siteMod; rw [Int.emod_eq_of_lt (by omega) (by omega)]; simp

theorem toNat_mod_eq_siteMod {z : ℤ} (h : 0 ≤ z) (N : ℕ) : z.toNat % N = siteMod z N := by
  unfold siteMod
  rw [Int.toNat_emod h (by omega)]; simp

/-- C20, momentum space: for every position the lookup returns the site whose index is the nearest integer to
`(v + π)/dx`, modulo N; in particular it always returns a site. -/
theorem chain_lookup_momentum (pi : K) (hpi : 0 < pi) (N : ℕ) (hN : 0 < N) (v : K) :
    (Chain.momentum pi N).lookup v
      = .val (siteMod ⌊(v + pi) / (2 * pi / N) + 1 / 2⌋ N) := by
  have hN' : (0 : K) < N := by exact_mod_cast hN
  have hdx : 0 < 2 * pi / (N : K) := div_pos (by linarith) hN'
  obtain ⟨m, h1, h2, _, _, h3⟩ := coordIndex_closed (-pi) (2 * pi / N) v N hN hdx
  have e1 : (N : K) * (2 * pi / N) = 2 * pi := by field_simp
  have e2 : -pi + (N : K) * (2 * pi / N) = pi := by rw [e1]; ring
  rw [e2, e1] at h3
  unfold Chain.lookup
  show (coordIndex (-pi) pi (2 * pi) (2 * pi / N) v).map (fun i => i % N) = _
  rw [h3, Res.map_val]
  congr 1
  have hz : ⌊(v - -pi) / (2 * pi / N) + m * N + 1 / 2⌋ = ⌊(v + pi) / (2 * pi / N) + 1 / 2⌋ + m * N := by
    rw [sub_neg_eq_add, show (v + pi) / (2 * pi / N) + m * N + 1 / 2
      = ((v + pi) / (2 * pi / N) + 1 / 2) + ((m * N : ℤ) : K) by push_cast; ring, Int.floor_add_intCast]
  rw [toNat_mod_eq_siteMod (Int.floor_nonneg.2 (by linarith)), hz, siteMod_add_mul]

/-- C20, real space, complete behaviour: with `w` the image of `v` in `[0, N dx)`, the lookup returns the
nearest site, except in the strip `((N-1) dx, (N-1/2) dx]`, where a negative number is converted to an
unsigned one (undefined behaviour). -/
theorem chain_lookup_real (N : ℕ) (hN : 0 < N) (dx : K) (hdx : 0 < dx) (v w : K) (m : ℤ)
    (hw : w = v + m * (N * dx)) (h0 : 0 ≤ w) (hlt : w < N * dx) :
    (Chain.real N dx).lookup v =
      if dx * (N - 1) < w ∧ w ≤ dx * (N - 1 / 2) then .ub
      else .val (siteMod ⌊w / dx + 1 / 2⌋ N) := by
  unfold Chain.lookup
  show (coordIndex 0 (dx * ((N - 1 : ℕ) : K)) (N * dx) dx v).map (fun i => i % N) = _
  rw [coordIndex_open dx v w N m hN hdx hw h0 hlt]
  by_cases hle : w ≤ dx * (N - 1)
  · rw [if_pos hle, if_neg (fun h => absurd hle (not_le.2 h.1)), Res.map_val,
      toNat_mod_eq_siteMod (Int.floor_nonneg.2 (by have := div_nonneg h0 hdx.le; linarith))]
  · rw [if_neg hle]
    by_cases h : w ≤ dx * (N - 1 / 2)
    · rw [if_pos h, if_pos ⟨not_le.1 hle, h⟩]; rfl
    · rw [if_neg h, if_neg (fun hh => h hh.2), Res.map_val]
      congr 1
      have hfl : ⌊w / dx + 1 / 2⌋ = (N : ℤ) := by
        rw [Int.floor_eq_iff]
        have h1 : w / dx < N := by rw [div_lt_iff₀ hdx]; linarith
        have h2 : (N : K) - 1 / 2 < w / dx := by rw [lt_div_iff₀ hdx]; linarith [not_le.1 h]
        constructor <;> push_cast <;> linarith
      rw [hfl]; simp [siteMod]

/-- Every position has an image in the cell. -/
theorem exists_image (L v : K) (hL : 0 < L) : ∃ m : ℤ, 0 ≤ v + m * L ∧ v + m * L < L := by
  refine ⟨-⌊v / L⌋, ?_, ?_⟩
  · have := Int.floor_le (v / L)
    rw [le_div_iff₀ hL] at this; push_cast; linarith
  · have := Int.lt_floor_add_one (v / L)
    rw [div_lt_iff₀ hL] at this; push_cast; linarith

/-- C20: the lookup at a position that lies on the (infinitely repeated) lattice, `x_min + z dx` with any
integer `z`, returns `z mod N`, in both spaces. -/
theorem chain_lookup_lattice (N : ℕ) (hN : 0 < N) (z : ℤ) :
    (∀ pi : K, 0 < pi → (Chain.momentum pi N).lookup (-pi + z * (2 * pi / N)) = .val (siteMod z N)) ∧
    (∀ dx : K, 0 < dx → (Chain.real N dx).lookup (z * dx) = .val (siteMod z N)) := by
  have hN' : (0 : K) < N := by exact_mod_cast hN
  constructor
  · intro pi hpi
    rw [chain_lookup_momentum pi hpi N hN]
    congr 2
    have : (-pi + z * (2 * pi / N) + pi) / (2 * pi / (N : K)) = z := by field_simp; ring
    rw [this, Int.floor_eq_iff]
    constructor <;> linarith
  · intro dx hdx
    have hzN : z % (N : ℤ) + (N : ℤ) * (z / N) = z := Int.emod_add_mul_ediv z N
    have h1 := Int.emod_nonneg z (by omega : (N : ℤ) ≠ 0)
    have h2 := Int.emod_lt_of_pos z (by omega : (0 : ℤ) < N)
    have hw : ((z % N : ℤ) : K) * dx = z * dx + ((-(z / N) : ℤ) : K) * (N * dx) := by
      have := congrArg (Int.cast : ℤ → K) hzN
      push_cast at this ⊢
      rw [← this]; ring
    have hle : ((z % N : ℤ) : K) ≤ (N : K) - 1 := by
      have : z % (N : ℤ) ≤ N - 1 := by omega
      exact_mod_cast this
    rw [chain_lookup_real N hN dx hdx _ _ _ hw (mul_nonneg (by exact_mod_cast h1) hdx.le)
      (by nlinarith)]
    rw [if_neg (by intro h; nlinarith [h.1])]
    congr 1
    have : ((z % N : ℤ) : K) * dx / dx = ((z % N : ℤ) : K) := by field_simp
    rw [this]
    have hf : ⌊((z % (N : ℤ) : ℤ) : K) + 1 / 2⌋ = z % N := by
      rw [Int.floor_eq_iff]; constructor <;> linarith
    rw [hf]; unfold siteMod; rw [Int.emod_emod]

/-- C20: `chain(chain[i]) == i` for every site, in both spaces. -/
theorem chain_lookup_pos (N : ℕ) (i : ℕ) (hi : i < N) :
    (∀ pi : K, 0 < pi → (Chain.momentum pi N).lookup ((Chain.momentum pi N).pos i) = .val i) ∧
    (∀ dx : K, 0 < dx → (Chain.real N dx).lookup ((Chain.real N dx).pos i) = .val i) := by
  have h := chain_lookup_lattice (K := K) N (by omega) (i : ℤ)
  rw [siteMod_nat hi] at h
  constructor
  · intro pi hpi; have := h.1 pi hpi; simpa [Chain.pos, Chain.momentum] using this
  · intro dx hdx; have := h.2 dx hdx; simpa [Chain.pos, Chain.real] using this

/-- C20: looking up `k_i + k_j - k_q` (what the momentum-space basis does) gives the site `(i + j - q) mod N`,
whose momentum differs from `k_i + k_j - k_q` by a multiple of `2π`. -/
theorem chain_lookup_momentum_sum (pi : K) (hpi : 0 < pi) (N : ℕ) (hN : 0 < N) (i j q : ℕ) :
    let c := Chain.momentum pi N
    ∃ r, c.lookup (c.pos i + c.pos j - c.pos q) = .val r ∧ r < N ∧ r = siteMod (i + j - q) N ∧
      ∃ m : ℤ, c.pos r = c.pos i + c.pos j - c.pos q + m * (2 * pi) := by
  have hN' : (0 : K) < N := by exact_mod_cast hN
  refine ⟨siteMod (i + j - q) N, ?_, siteMod_lt _ hN, rfl, ?_⟩
  · have := (chain_lookup_lattice (K := K) N hN (i + j - q)).1 pi hpi
    rw [← this]
    congr 1
    simp only [Chain.pos, Chain.momentum]; push_cast; ring
  · refine ⟨-((i + j - q : ℤ) / N), ?_⟩
    have h1 := Int.emod_nonneg (i + j - q : ℤ) (by omega : (N : ℤ) ≠ 0)
    have hr : ((siteMod (i + j - q) N : ℕ) : K) = ((i + j - q : ℤ) : K) - N * (((i + j - q : ℤ) / N : ℤ) : K) := by
      have h2 : ((siteMod (i + j - q) N : ℕ) : ℤ) = (i + j - q : ℤ) - N * ((i + j - q : ℤ) / N) := by
        unfold siteMod; rw [Int.toNat_of_nonneg h1, Int.emod_def]
      have h3 := congrArg (Int.cast : ℤ → K) h2
      push_cast at h3 ⊢; exact h3
    simp only [Chain.pos, Chain.momentum]
    rw [hr]; push_cast; field_simp; ring

/-- C20: the lookup is periodic with the length of the chain, in both spaces (also where it is undefined). -/
theorem chain_lookup_periodic (N : ℕ) (hN : 0 < N) (m : ℤ) (v : K) :
    (∀ pi : K, 0 < pi → (Chain.momentum pi N).lookup (v + m * (2 * pi)) = (Chain.momentum pi N).lookup v) ∧
    (∀ dx : K, 0 < dx → (Chain.real N dx).lookup (v + m * (N * dx)) = (Chain.real N dx).lookup v) := by
  have hN' : (0 : K) < N := by exact_mod_cast hN
  constructor
  · intro pi hpi
    rw [chain_lookup_momentum pi hpi N hN, chain_lookup_momentum pi hpi N hN]
    congr 1
    have : (v + m * (2 * pi) + pi) / (2 * pi / N) + 1 / 2
        = ((v + pi) / (2 * pi / N) + 1 / 2) + ((m * N : ℤ) : K) := by
      push_cast; field_simp; ring
    rw [this, Int.floor_add_intCast, siteMod_add_mul]
  · intro dx hdx
    obtain ⟨n, h1, h2⟩ := exists_image (N * dx) v (mul_pos hN' hdx)
    rw [chain_lookup_real N hN dx hdx v _ n rfl h1 h2,
      chain_lookup_real N hN dx hdx (v + m * (N * dx)) (v + n * (N * dx)) (n - m) (by push_cast; ring) h1 h2]

/-- C20, range and accuracy: in momentum space the lookup always returns a site nearest to the position. In real
space it does unless the position falls in the undefined strip. Full property (false of the code, see
`chain_lookup_real_ub`): the same in real space without the exception. -/
theorem chain_lookup_nearest_partial (N : ℕ) (hN : 0 < N) (v : K) :
    (∀ pi : K, 0 < pi → ∃ r, (Chain.momentum pi N).lookup v = .val r ∧
      IsNearest (Chain.momentum pi N).pos (2 * pi) N v r) ∧
    (∀ dx : K, 0 < dx → (¬ ∃ m : ℤ, dx * (N - 1) < v + m * (N * dx) ∧ v + m * (N * dx) ≤ dx * (N - 1 / 2)) →
      ∃ r, (Chain.real N dx).lookup v = .val r ∧ IsNearest (Chain.real N dx).pos (N * dx) N v r) := by
  have hN' : (0 : K) < N := by exact_mod_cast hN
  have key : ∀ z : ℤ, ((siteMod z N : ℕ) : ℤ) + (z / N) * N = z := by
    intro z
    have h1 := Int.emod_nonneg z (by omega : (N : ℤ) ≠ 0)
    unfold siteMod; rw [Int.toNat_of_nonneg h1, mul_comm]; exact Int.emod_add_mul_ediv z N
  constructor
  · intro pi hpi
    have hdx : 0 < 2 * pi / (N : K) := div_pos (by linarith) hN'
    refine ⟨_, chain_lookup_momentum pi hpi N hN v, ?_⟩
    have e1 : 2 * pi = (N : K) * (2 * pi / N) := by field_simp
    have : IsNearest (fun i : ℕ => -pi + i * (2 * pi / N)) (N * (2 * pi / N)) N v
        (siteMod ⌊(v + pi) / (2 * pi / N) + 1 / 2⌋ N) := by
      refine isNearest_of_half (-pi) (2 * pi / N) v N hdx _ (siteMod_lt _ hN)
        (⌊(v + pi) / (2 * pi / N) + 1 / 2⌋ / N) ?_
      rw [key, sub_neg_eq_add]
      exact floor_half
    rw [← e1] at this; exact this
  · intro dx hdx hno
    obtain ⟨n, h1, h2⟩ := exists_image (N * dx) v (mul_pos hN' hdx)
    have hl := chain_lookup_real N hN dx hdx v _ n rfl h1 h2
    rw [if_neg (fun h => hno ⟨n, h⟩)] at hl
    refine ⟨_, hl, ?_⟩
    have : IsNearest (fun i : ℕ => 0 + i * dx) (N * dx) N v (siteMod ⌊(v + n * (N * dx)) / dx + 1 / 2⌋ N) := by
      refine isNearest_of_half 0 dx v N hdx _ (siteMod_lt _ hN)
        (⌊(v + n * (N * dx)) / dx + 1 / 2⌋ / N - n) ?_
      have e : ((siteMod ⌊(v + n * (N * dx)) / dx + 1 / 2⌋ N : ℕ) : ℤ)
          + (⌊(v + n * (N * dx)) / dx + 1 / 2⌋ / N - n) * N
          = ⌊(v + n * (N * dx)) / dx + 1 / 2⌋ - n * N := by
        have := key ⌊(v + n * (N * dx)) / dx + 1 / 2⌋
        rw [sub_mul]; omega
      rw [e]
      have e2 : (v - 0) / dx - ((⌊(v + n * (N * dx)) / dx + 1 / 2⌋ - n * N : ℤ) : K)
          = (v + n * (N * dx)) / dx - (⌊(v + n * (N * dx)) / dx + 1 / 2⌋ : ℤ) := by
        push_cast; field_simp; ring
      rw [e2]; exact floor_half
    exact this

/-- C20 is false of the code in real space: for every size and spacing there is a position inside the chain's
period (`(N - 3/4) dx`) whose lookup is undefined (it converts -1.0 to an unsigned integer). -/
theorem chain_lookup_real_ub (N : ℕ) (hN : 0 < N) (dx : K) (hdx : 0 < dx) :
    0 < dx * (N - 3 / 4) ∧ dx * (N - 3 / 4) < N * dx ∧ (Chain.real N dx).lookup (dx * (N - 3 / 4)) = .ub := by
  have hN' : (1 : K) ≤ N := by exact_mod_cast hN
  have h0 : 0 < dx * ((N : K) - 3 / 4) := mul_pos hdx (by linarith)
  have h1 : dx * ((N : K) - 3 / 4) < N * dx := by nlinarith
  refine ⟨h0, h1, ?_⟩
  rw [chain_lookup_real N hN dx hdx _ _ 0 (by simp) h0.le h1, if_pos]
  constructor <;> nlinarith

/-- C20 (boundary): with a non-positive lattice spacing the lookup of a negative position never returns. -/
theorem chain_lookup_diverges (N : ℕ) (dx : K) (hdx : dx ≤ 0) (v : K) (hv : v < 0) :
    (Chain.real N dx).lookup v = .diverges := by
  unfold Chain.lookup coordIndex
  show (((whileLoop (fun v => v < 0) (fun v => v + N * dx) v).bind _).map _) = _
  rw [whileLoop_diverges]
  · rfl
  · intro n
    rw [iterate_addL]
    have : (N : K) * dx ≤ 0 := mul_nonpos_of_nonneg_of_nonpos (Nat.cast_nonneg _) hdx
    have := mul_nonpos_of_nonneg_of_nonpos (Nat.cast_nonneg (α := K) n) this
    linarith

/-! ## C21 -/

theorem sq_le_sq_abs {x y : K} (h : x * x ≤ y * y) : |x| ≤ |y| := by
  rw [← sq, ← sq, ← sq_abs x, ← sq_abs y] at h
  exact (pow_le_pow_iff_left₀ (abs_nonneg _) (abs_nonneg _) (by norm_num)).1 h

/-- What the search over all sites gives for a wrapped position. -/
theorem chain_search {c : Chain K} {N : ℕ} (hc : c.Constructed N) (w : K) :
    c.closestSearch w < N ∧ ∀ j < N, |w - c.pos (c.closestSearch w)| ≤ |w - c.pos j| := by
  obtain ⟨_, h2, h3⟩ := hc.fields
  have hN := hc.pos_size
  obtain ⟨g1, g2, g3, g4⟩ := closest_foldl (fun i => (c.pos i - w) * (c.pos i - w))
    (List.range' c.first (c.last + 1 - c.first)) (0, (c.pos 0 - w) * (c.pos 0 - w)) rfl
  have hmem : ∀ j, j ∈ List.range' c.first (c.last + 1 - c.first) ↔ j < N := by
    intro j; rw [h2, h3, List.mem_range'_1]; omega
  constructor
  · rcases g2 with g2 | g2
    · have : c.closestSearch w = 0 := g2
      omega
    · exact (hmem _).1 g2
  · intro j hj
    have := g4 j ((hmem j).2 hj)
    rw [g1] at this
    have := sq_le_sq_abs this
    rw [abs_sub_comm w, abs_sub_comm w]; exact this

/-- C21, real space: `closest` terminates and returns a site nearest to `v` on the ring, for every `v`. -/
theorem chain_closest_real (N : ℕ) (hN : 0 < N) (dx : K) (hdx : 0 < dx) (v : K) :
    ∃ r, (Chain.real N dx).closest v = .val r ∧ IsNearest (Chain.real N dx).pos (N * dx) N v r := by
  have hN' : (0 : K) < N := by exact_mod_cast hN
  have hL := mul_pos hN' hdx
  have hcast : ((N - 1 : ℕ) : K) = N - 1 := by rw [Nat.cast_sub (by omega)]; simp
  obtain ⟨n, h1, h2, h3⟩ := wrapUp_spec (0 - dx / 2) (N * dx) v hL
  obtain ⟨k, g1, g2, g3⟩ := wrapDown_spec (dx * ((N - 1 : ℕ) : K) + dx / 2) (N * dx) (v + n * (N * dx)) hL
  obtain ⟨w, hw⟩ : ∃ w, w = v + n * (N * dx) - k * (N * dx) := ⟨_, rfl⟩
  rw [← hw] at g1 g2 g3
  rw [hcast] at g2 g3
  have lo : -(dx / 2) ≤ w := by
    rcases g3 with rfl | g3
    · rw [hw]; simp only [Nat.cast_zero, zero_mul, sub_zero]; linarith
    · nlinarith
  have hi : w ≤ dx * N - dx / 2 := by nlinarith
  have hc : (Chain.real N dx).Constructed N := .real dx hN rfl
  obtain ⟨s1, s2⟩ := chain_search hc w
  refine ⟨(Chain.real N dx).closestSearch w, ?_, ?_⟩
  · unfold Chain.closest closestWrap
    show ((whileLoop (fun v => v < 0 - dx / 2) (fun v => v + N * dx) v).bind _).map _ = _
    rw [h1, Res.bind_val]
    show (whileLoop (fun v => v > dx * ((N - 1 : ℕ) : K) + dx / 2) (fun v => v - N * dx) _).map _ = _
    rw [g1, Res.map_val]
  · -- the nearest integer to w/dx is a site, so the found one is within dx/2
    obtain ⟨r, hr⟩ : ∃ r, r = (Chain.real N dx).closestSearch w := ⟨_, rfl⟩
    rw [← hr] at s1 s2 ⊢
    have hex : ∃ j < N, |w - (Chain.real N dx).pos j| ≤ dx / 2 := by
      by_cases hN1 : w < dx * N - dx
      · -- floor
        rcases le_or_gt 0 w with hw0 | hw0
        · obtain ⟨z, hz⟩ : ∃ z, z = ⌊w / dx + 1 / 2⌋ := ⟨_, rfl⟩
          have hz1 : (z : K) ≤ w / dx + 1 / 2 := by rw [hz]; exact Int.floor_le _
          have hz2 : w / dx + 1 / 2 < z + 1 := by rw [hz]; exact Int.lt_floor_add_one _
          have hwd : w / dx * dx = w := by field_simp
          have hz0 : 0 ≤ z := by rw [hz]; exact Int.floor_nonneg.2 (by have := div_nonneg hw0 hdx.le; linarith)
          have hwN : w / dx < N - 1 := by rw [div_lt_iff₀ hdx]; linarith
          have hzN : z < N := by
            have : (z : K) < N := by linarith
            exact_mod_cast this
          refine ⟨z.toNat, by omega, ?_⟩
          have hc' : ((z.toNat : ℕ) : K) = z := by
            have : ((z.toNat : ℕ) : ℤ) = z := Int.toNat_of_nonneg hz0
            exact_mod_cast congrArg (Int.cast : ℤ → K) this
          simp only [Chain.pos, Chain.real, zero_add, hc']
          rw [abs_le]
          constructor <;> nlinarith
        · refine ⟨0, hN, ?_⟩
          simp only [Chain.pos, Chain.real, Nat.cast_zero, zero_mul, zero_add, sub_zero]
          rw [abs_le]; constructor <;> linarith
      · refine ⟨N - 1, by omega, ?_⟩
        simp only [Chain.pos, Chain.real, hcast, zero_add]
        rw [abs_le]; constructor <;> linarith
    obtain ⟨j, hj, hjd⟩ := hex
    have hrd := (s2 j hj).trans hjd
    have : IsNearest (fun i : ℕ => 0 + i * dx) (N * dx) N v r := by
      refine isNearest_of_half 0 dx v N hdx r s1 ((k : ℤ) - n) ?_
      have e : (v - 0) / dx - ((r + ((k : ℤ) - n) * N : ℤ) : K) = (w - (Chain.real N dx).pos r) / dx := by
        rw [hw]; simp only [Chain.pos, Chain.real]; push_cast; field_simp; ring
      rw [e, abs_div, abs_of_pos hdx, div_le_iff₀ hdx]; linarith
    exact this

/-- C21, momentum space: `closest` is right for every position that is not wrapped into the last half cell
`(π - dx/2, π + dx/2]`. Full property (false of the code, see `chain_closest_momentum_wrong`): for every `v`. -/
theorem chain_closest_momentum_partial (N : ℕ) (hN : 0 < N) (pi : K) (hpi : 0 < pi) (v : K)
    (hv : ¬ ∃ m : ℤ, pi - 2 * pi / N / 2 < v + m * (2 * pi) ∧ v + m * (2 * pi) ≤ pi + 2 * pi / N / 2) :
    ∃ r, (Chain.momentum pi N).closest v = .val r ∧ IsNearest (Chain.momentum pi N).pos (2 * pi) N v r := by
  have hN' : (0 : K) < N := by exact_mod_cast hN
  have hN1 : (1 : K) ≤ N := by exact_mod_cast hN
  obtain ⟨dx, hdxe⟩ : ∃ dx, dx = 2 * pi / (N : K) := ⟨_, rfl⟩
  have hdx : 0 < dx := by rw [hdxe]; exact div_pos (by linarith) hN'
  have hL : 2 * pi = N * dx := by rw [hdxe]; field_simp
  have hL0 : 0 < (N : K) * dx := mul_pos hN' hdx
  obtain ⟨n, h1, h2, h3⟩ := wrapUp_spec (-pi - dx / 2) (2 * pi) v (by linarith)
  obtain ⟨k, g1, g2, g3⟩ := wrapDown_spec (pi + dx / 2) (2 * pi) (v + n * (2 * pi)) (by linarith)
  obtain ⟨w, hw⟩ : ∃ w, w = v + n * (2 * pi) - k * (2 * pi) := ⟨_, rfl⟩
  rw [← hw] at g1 g2 g3
  have lo : -pi - dx / 2 ≤ w := by
    rcases g3 with rfl | g3
    · rw [hw]; simp only [Nat.cast_zero, zero_mul, sub_zero]; linarith
    · linarith
  have hi : w ≤ pi - dx / 2 := by
    by_contra hcon
    apply hv
    refine ⟨(n : ℤ) - k, ?_⟩
    have : v + (((n : ℤ) - k : ℤ) : K) * (2 * pi) = w := by rw [hw]; push_cast; ring
    rw [this, ← hdxe]; exact ⟨not_le.1 hcon, g2⟩
  have hc : (Chain.momentum pi N).Constructed N := .momentum pi hN rfl
  obtain ⟨s1, s2⟩ := chain_search hc w
  refine ⟨(Chain.momentum pi N).closestSearch w, ?_, ?_⟩
  · unfold Chain.closest closestWrap
    show ((whileLoop (fun v => v < -pi - 2 * pi / N / 2) (fun v => v + 2 * pi) v).bind _).map _ = _
    rw [← hdxe, h1, Res.bind_val]
    show (whileLoop (fun v => v > pi + 2 * pi / N / 2) (fun v => v - 2 * pi) _).map _ = _
    rw [← hdxe, g1, Res.map_val]
  · obtain ⟨r, hr⟩ : ∃ r, r = (Chain.momentum pi N).closestSearch w := ⟨_, rfl⟩
    rw [← hr] at s1 s2 ⊢
    have hpos : ∀ i : ℕ, (Chain.momentum pi N).pos i = -pi + i * dx := by
      intro i; simp [Chain.pos, Chain.momentum, hdxe]
    have hex : ∃ j < N, |w - (Chain.momentum pi N).pos j| ≤ dx / 2 := by
      rcases le_or_gt (-pi) w with hw0 | hw0
      · by_cases hl : w < pi - dx
        · obtain ⟨z, hz⟩ : ∃ z, z = ⌊(w + pi) / dx + 1 / 2⌋ := ⟨_, rfl⟩
          have hz1 : (z : K) ≤ (w + pi) / dx + 1 / 2 := by rw [hz]; exact Int.floor_le _
          have hz2 : (w + pi) / dx + 1 / 2 < z + 1 := by rw [hz]; exact Int.lt_floor_add_one _
          have hwd : (w + pi) / dx * dx = w + pi := by field_simp
          have hz0 : 0 ≤ z := by
            rw [hz]; exact Int.floor_nonneg.2 (by have := div_nonneg (by linarith : 0 ≤ w + pi) hdx.le; linarith)
          have hwN : (w + pi) / dx < N - 1 := by rw [div_lt_iff₀ hdx]; linarith
          have hzN : z < N := by
            have : (z : K) < N := by linarith
            exact_mod_cast this
          refine ⟨z.toNat, by omega, ?_⟩
          have hc' : ((z.toNat : ℕ) : K) = z := by
            have : ((z.toNat : ℕ) : ℤ) = z := Int.toNat_of_nonneg hz0
            exact_mod_cast congrArg (Int.cast : ℤ → K) this
          rw [hpos, hc', abs_le]
          constructor <;> nlinarith
        · refine ⟨N - 1, by omega, ?_⟩
          have hcast : ((N - 1 : ℕ) : K) = N - 1 := by rw [Nat.cast_sub (by omega)]; simp
          rw [hpos, hcast, abs_le]; constructor <;> nlinarith
      · refine ⟨0, hN, ?_⟩
        rw [hpos, abs_le]; constructor <;> simp <;> linarith
    obtain ⟨j, hj, hjd⟩ := hex
    have hrd := (s2 j hj).trans hjd
    have : IsNearest (fun i : ℕ => -pi + i * dx) (N * dx) N v r := by
      refine isNearest_of_half (-pi) dx v N hdx r s1 ((k : ℤ) - n) ?_
      have e : (v - -pi) / dx - ((r + ((k : ℤ) - n) * N : ℤ) : K) = (w - (Chain.momentum pi N).pos r) / dx := by
        rw [hw, hpos, hL]; push_cast; field_simp; ring
      rw [e, abs_div, abs_of_pos hdx, div_le_iff₀ hdx]; linarith
    have hp : (Chain.momentum pi N).pos = fun i : ℕ => -pi + i * dx := funext hpos
    rw [hp, hL]; exact this

/-- C21 is false of the code in momentum space: for every N ≥ 2, `closest(π)` does not return a nearest site
(`π` is equivalent to the position `-π` of site 0, but site N-1 or another site at distance at least dx is
returned). -/
theorem chain_closest_momentum_wrong (N : ℕ) (hN : 2 ≤ N) (pi : K) (hpi : 0 < pi) :
    ∃ r, (Chain.momentum pi N).closest pi = .val r ∧
      ¬ IsNearest (Chain.momentum pi N).pos (2 * pi) N pi r := by
  have hN' : (0 : K) < N := by exact_mod_cast (by omega : 0 < N)
  have hdx : 0 < 2 * pi / (N : K) := div_pos (by linarith) hN'
  have hc : (Chain.momentum pi N).Constructed N := .momentum pi (by omega) rfl
  obtain ⟨s1, s2⟩ := chain_search hc pi
  refine ⟨(Chain.momentum pi N).closestSearch pi, ?_, ?_⟩
  · unfold Chain.closest closestWrap
    show ((whileLoop (fun v => v < -pi - 2 * pi / N / 2) (fun v => v + 2 * pi) pi).bind _).map _ = _
    rw [(whileLoop_eq _ _ _).2 (by linarith), Res.bind_val]
    show (whileLoop (fun v => v > pi + 2 * pi / N / 2) (fun v => v - 2 * pi) _).map _ = _
    rw [(whileLoop_eq _ _ _).2 (by linarith), Res.map_val]
  · obtain ⟨r, hr⟩ : ∃ r, r = (Chain.momentum pi N).closestSearch pi := ⟨_, rfl⟩
    rw [← hr] at s1 s2 ⊢
    rintro ⟨_, m, hm⟩
    -- site 0 has an image at distance 0
    have h0 := hm 0 (by omega) 1
    have e0 : pi - ((Chain.momentum pi N).pos 0 + ((1 : ℤ) : K) * (2 * pi)) = 0 := by
      simp only [Chain.pos, Chain.momentum]; push_cast; ring
    rw [e0, abs_zero] at h0
    have h0' := abs_nonpos_iff.1 h0
    -- so r is equivalent to site 0, hence r = 0
    have hr0 : ((r + m * N : ℤ) : K) = N := by
      have : (Chain.momentum pi N).pos r + m * (2 * pi) = pi := by linarith
      simp only [Chain.pos, Chain.momentum] at this
      have h' : (r : K) * (2 * pi / N) = 2 * pi - m * (2 * pi) := by linarith
      field_simp at h'
      have h'' : (r : K) = N * (1 - m) := by
        have : pi ≠ 0 := hpi.ne'
        have h4 : (2 * pi) * (r : K) = (2 * pi) * (N * (1 - m)) := by linear_combination (2 * pi) * h'
        exact mul_left_cancel₀ (by positivity) h4
      push_cast; rw [h'']; ring
    have hr1 : (r : ℤ) + m * N = N := by exact_mod_cast hr0
    have hrz : r = 0 := by
      have h5 : (r : ℤ) = (1 - m) * N := by linarith
      have h6 : (r : ℤ) < N := by exact_mod_cast s1
      have h7 : (0 : ℤ) ≤ r := by omega
      have h8 : (0 : ℤ) < N := by omega
      have h9 : 1 - m < 1 := by
        by_contra hcon
        have : (1 : ℤ) * N ≤ (1 - m) * N := mul_le_mul_of_nonneg_right (not_lt.1 hcon) h8.le
        omega
      have h10 : 0 ≤ 1 - m := by
        by_contra hcon
        have : (1 - m) * N ≤ (-1) * N := mul_le_mul_of_nonneg_right (by omega) h8.le
        omega
      have : 1 - m = 0 := by omega
      rw [this] at h5; omega
    -- but site 1 is (strictly) closer in the search
    have h1 := s2 1 (by omega)
    rw [hrz] at h1
    simp only [Chain.pos, Chain.momentum, Nat.cast_zero, zero_mul, add_zero, Nat.cast_one, one_mul] at h1
    have hle : 2 * pi / (N : K) ≤ pi := by
      rw [div_le_iff₀ hN']
      have : (2 : K) ≤ N := by exact_mod_cast hN
      nlinarith
    rw [abs_of_pos (by linarith), abs_of_pos (by linarith)] at h1
    linarith

end Lookup

/-! ## Concrete cases meeting the hypotheses -/

example : (Chain.real 5 (1 / 2 : ℚ)).Constructed 5 := .real _ (by omega) rfl
noncomputable example : (Chain.momentum Real.pi 6).Constructed 6 := .momentum _ (by omega) rfl
example : (Chain.real 5 (1 / 2 : ℚ)).latticeDistance 1 4 = 2 := by decide
example : (Chain.real 5 (1 / 2 : ℚ)).neighbors 0 = [4, 1] := by decide
noncomputable example : (Chain.momentum Real.pi 6).lookup ((Chain.momentum Real.pi 6).pos 4) = .val 4 :=
  (chain_lookup_pos 6 4 (by omega)).1 Real.pi Real.pi_pos
/-- The undefined strip has an inhabitant for a standard lattice: 5 sites, spacing 1, position 17/4. -/
example : (Chain.real 5 (1 : ℚ)).lookup (17 / 4) = .ub := by
  have := (chain_lookup_real_ub 5 (by omega) (1 : ℚ) (by norm_num)).2.2
  norm_num at this ⊢; exact this

end Ieompp
