import Verif.Props.Binary64Dispersion
import Verif.Props.Binary64TrivialRun
import Verif.Props.Binary64Theory
import Verif.Props.OutputShipped

/-! # C130: the files of `hubbard_dispersion_1d`, `hubbard_real_1d_kinetic_theory` and `hubbard_trivial`, in binary64 with underflow and overflow -/

set_option autoImplicit false
set_option linter.unusedSectionVars false

namespace Ieompp.IEEE

open Ieompp.Spec Program ODE RealSpace OutputText
open Ieompp.IO (Text)
open KroneckerNumber (Double)

/-! ### The cells of a table -/

/-- `text` is what `<<` writes for a `double` with the value `x`. -/
def TextOf (text : Text) (x : ℝ) : Prop := ∃ d : Double, d.value = x ∧ text = writeDouble d

/-- The rows of a file, as the numbers written in it. -/
theorem table_cells {rows : List (Double × List Double)} {table : List (List ℝ)}
    (h : rows.map (fun r => r.1.value :: r.2.map Double.value) = table) :
    (readTable (tableText rows)).length = table.length ∧
      ∀ (i : ℕ) (xs : List ℝ), table[i]? = some xs → ∃ texts, (readTable (tableText rows))[i]? = some texts ∧ List.Forall₂ TextOf texts xs := by
  subst h
  rw [tableText_cells]
  refine ⟨by simp, fun i xs hx => ?_⟩
  rw [List.getElem?_map] at hx
  obtain ⟨r, hr, rfl⟩ := Option.map_eq_some_iff.1 hx
  refine ⟨writeDouble r.1 :: r.2.map writeDouble, by rw [List.getElem?_map, hr]; rfl, List.Forall₂.cons ⟨_, rfl, rfl⟩ ?_⟩
  rw [List.forall₂_map_left_iff, List.forall₂_map_right_iff]
  exact List.forall₂_same.2 fun x _ => ⟨x, rfl, rfl⟩

theorem renders_table {O : Type*} {numbers : O → List ℝ} {rows : List (Double × List Double)} {out : List (ℝ × O)} (h : Renders numbers rows out) :
    rows.map (fun r => r.1.value :: r.2.map Double.value) = out.map fun r => r.1 :: numbers r.2 := by
  have := congrArg (List.map fun p : ℝ × List ℝ => p.1 :: p.2) h
  simpa [List.map_map, Function.comp_def] using this

/-- The number in a text. -/
theorem textOf_close {text : Text} {x y ε : ℝ} (h : TextOf text x) (he : |x - y| ≤ ε) :
    ∃ v, DecimalText text v ∧ |(v : ℝ) - y| ≤ ε + 5 / 10 ^ 6 * (|y| + ε) := by
  obtain ⟨d, rfl, rfl⟩ := h
  exact ⟨written d, writeDouble_text d, written_accuracy he⟩

theorem written_of_digits {x : Double} (hx : 0 < x.value) {n : ℕ} {X : ℤ} (h1 : 10 ^ 5 ≤ n) (h2 : n < 10 ^ 6)
    (h : |x.value - n * (10 : ℝ) ^ (X - 5)| ≤ 1 / 40 * (10 : ℝ) ^ (X - 5)) : written x = n * (10 : ℚ) ^ (X - 5) := by
  have hm := x.nonneg
  have hneg : x.negative = false := by
    by_contra hc
    rw [value_eq, if_pos (by simpa using hc)] at hx
    linarith
  have hv : x.value = x.magnitude := by rw [value_eq, hneg]; simp
  rw [hv] at h hx
  have := sixDigits_eq h1 h2 (Or.inl h)
  unfold written
  rw [hneg, this, if_neg hx.ne']
  simp

/-- A time of a program with the step width 0.01: the text is that of the decimal number itself. -/
theorem time_text {text : Text} {x : ℝ} {k : ℕ} (hk : k < 10000) (h : TextOf text x) (h0 : k = 0 → x = 0) (he : |x - (k : ℝ) / 100| ≤ 1 / 2 ^ 45) :
    DecimalText text ((k : ℚ) / 100) := by
  obtain ⟨d, rfl, rfl⟩ := h
  have hw : written d = (k : ℚ) / 100 := by
    rcases Nat.eq_zero_or_pos k with rfl | hk0
    · have hd := h0 rfl
      have : d.magnitude = 0 := by
        rw [value_eq] at hd
        rcases mul_eq_zero.1 hd with h1 | h1
        · split_ifs at h1 <;> norm_num at h1
        · exact h1
      simp [written, this]
    · obtain ⟨ha, hb⟩ := abs_le.1 he
      have hk1 : (1 : ℝ) ≤ k := by exact_mod_cast hk0
      norm_num at ha hb
      have hpos : 0 < d.value := by linarith
      by_cases c1 : k < 10
      · rw [written_of_digits (n := k * 10 ^ 5) (X := -2) hpos (by omega) (by omega) ?_]
        · push_cast; norm_num; ring
        · push_cast; norm_num; rw [abs_le]; constructor <;> linarith
      · by_cases c2 : k < 100
        · rw [written_of_digits (n := k * 10 ^ 4) (X := -1) hpos (by omega) (by omega) ?_]
          · push_cast; norm_num; ring
          · push_cast; norm_num; rw [abs_le]; constructor <;> linarith
        · by_cases c3 : k < 1000
          · rw [written_of_digits (n := k * 10 ^ 3) (X := 0) hpos (by omega) (by omega) ?_]
            · push_cast; norm_num; ring
            · push_cast; norm_num; rw [abs_le]; constructor <;> linarith
          · rw [written_of_digits (n := k * 10 ^ 2) (X := 1) hpos (by omega) (by omega) ?_]
            · push_cast; norm_num; ring
            · push_cast; norm_num; rw [abs_le]; constructor <;> linarith
  rw [← hw]
  exact writeDouble_text d

/-! ### The programs -/

variable {sinF cosF : ℝ → ℝ}

/-- **C130, the file of `hubbard_dispersion_1d`**: 1024 rows of two numbers; the momenta are strictly increasing, also as they are written, and are those of the lattice up to
0.00002; the energies are right up to 0.00002. -/
theorem dispersion1d_file_binary64 (hb : ∀ x, IsBinary64 (cosF x)) (hcos : ∀ x, |cosF x - Real.cos x| ≤ 1 / 2 ^ 53)
    {energies : List ℕ} (he : energies.Perm (List.range 1024)) :
    ∃ out, dispersion1dR binary64 cosF (double Real.pi) energies 1024 = .val out ∧
      ∀ rows, Renders (fun e => [e]) rows out → (readTable (tableText rows)).length = 1024 ∧
        ∃ k e : ℕ → ℚ, (∀ i j, i < j → j < 1024 → k i < k j) ∧ ∀ i < 1024,
          (∃ tk te, (readTable (tableText rows))[i]? = some [tk, te] ∧ DecimalText tk (k i) ∧ DecimalText te (e i)) ∧
          |(k i : ℝ) - latticeMomentum 1024 i| ≤ 2 / 10 ^ 5 ∧ |(e i : ℝ) - -2 * Real.cos (latticeMomentum 1024 i)| ≤ 2 / 10 ^ 5 := by
  obtain ⟨out, h1, h2, h3, -⟩ := dispersion1d_binary64 (N := 1024) (by norm_num) (by norm_num) hb hcos he
  refine ⟨out, h1, fun rows hr => ?_⟩
  obtain ⟨hl, hc⟩ := table_cells (renders_table hr)
  refine ⟨by rw [hl, List.length_map, h2], ?_⟩
  have row : ∀ i : ℕ, ∃ k e : ℚ, i < 1024 →
      (∃ tk te, (readTable (tableText rows))[i]? = some [tk, te] ∧ DecimalText tk k ∧ DecimalText te e) ∧
        |(k : ℝ) - latticeMomentum 1024 i| ≤ 2 / 10 ^ 5 ∧ |(e : ℝ) - -2 * Real.cos (latticeMomentum 1024 i)| ≤ 2 / 10 ^ 5 := by
    intro i
    by_cases hi : i < 1024
    · obtain ⟨k, e, r1, r2, r3, r4, r5⟩ := h3 i hi
      obtain ⟨texts, t1, t2⟩ := hc i [k, e] (by rw [List.getElem?_map, r1]; rfl)
      obtain ⟨tk, l, f1, f2, rfl⟩ := List.forall₂_cons_right_iff.1 t2
      obtain ⟨te, l', f3, f4, rfl⟩ := List.forall₂_cons_right_iff.1 f2
      obtain rfl := List.forall₂_nil_right_iff.1 f4
      obtain ⟨vk, k1, k2⟩ := textOf_close f1 r2
      obtain ⟨ve, e1, e2⟩ := textOf_close f3 r5
      refine ⟨vk, ve, fun _ => ⟨⟨tk, te, t1, k1, e1⟩, k2.trans ?_, e2.trans ?_⟩⟩
      · have : |latticeMomentum 1024 i| ≤ 3.15 := by
          have hp := Real.pi_lt_d2
          have hq := Real.pi_gt_three
          obtain ⟨ra, rb⟩ := abs_le.1 r2
          norm_num at ra rb ⊢
          rw [abs_le]; constructor
          · have : -Real.pi ≤ latticeMomentum 1024 i := by
              unfold latticeMomentum
              have : (0 : ℝ) ≤ (i : ℝ) * (2 * Real.pi / (1024 : ℕ)) := by positivity
              linarith
            linarith
          · have : latticeMomentum 1024 i ≤ Real.pi := by
              unfold latticeMomentum
              have hi' : (i : ℝ) ≤ 1024 := by exact_mod_cast hi.le
              have : (i : ℝ) * (2 * Real.pi / (1024 : ℕ)) ≤ 1024 * (2 * Real.pi / (1024 : ℕ)) := by gcongr
              push_cast at this
              push_cast
              linarith
            linarith
        norm_num at this ⊢
        linarith
      · have : |-2 * Real.cos (latticeMomentum 1024 i)| ≤ 2 := by
          rw [abs_mul]
          have := Real.abs_cos_le_one (latticeMomentum 1024 i)
          norm_num
          linarith
        norm_num at this ⊢
        linarith
    · exact ⟨0, 0, fun h => absurd h hi⟩
  choose k e hke using row
  refine ⟨k, e, fun i j hij hj => ?_, fun i hi => hke i hi⟩
  have a := (abs_le.1 (hke i (hij.trans hj)).2.1).2
  have b := (abs_le.1 (hke j hj).2.1).1
  have hm : latticeMomentum 1024 i + 1 / 200 ≤ latticeMomentum 1024 j := by
    unfold latticeMomentum
    have hd : (i : ℝ) + 1 ≤ j := by exact_mod_cast hij
    have hp := Real.pi_gt_three
    have : (1 : ℝ) / 200 ≤ 2 * Real.pi / (1024 : ℕ) := by push_cast; linarith
    nlinarith
  have : (k i : ℝ) < k j := by norm_num at a b; linarith
  exact_mod_cast this

/-- The first row that the theory program computes has the time 0. -/
theorem theoryFileR_first {besselF : ℕ → ℝ → ℝ} {dt : ℝ} {sched : List ℕ} {threads : ℕ} {s : List Event} {n : ℕ} {out : List (ℝ × ℝ × ℝ)}
    (h : theoryFileR binary64 sinF besselF dt sched threads s n = .val out) {r : ℝ × ℝ × ℝ} (hr : out[0]? = some r) : r.1 = 0 := by
  induction n generalizing out with
  | zero =>
    rw [theoryFileR] at h
    cases h
    simp at hr
  | succ n ih =>
    rw [theoryFileR] at h
    obtain ⟨rows, h1, h⟩ := Durability.bind_eq_val h
    obtain ⟨v, -, h⟩ := Durability.bind_eq_val h
    obtain ⟨x, hx, h⟩ := Durability.bind_eq_val h
    obtain ⟨t, ht, h⟩ := Durability.bind_eq_val h
    cases h
    cases n with
    | zero =>
      rw [theoryFileR] at h1
      cases h1
      rw [Nat.cast_zero, binary64_zero] at hx
      cases hx
      rw [zero_mul, binary64_zero] at ht
      cases ht
      simp at hr
      rw [← hr]
    | succ n =>
      have hne : rows ≠ [] := by
        rw [theoryFileR] at h1
        obtain ⟨_, -, h1⟩ := Durability.bind_eq_val h1
        obtain ⟨_, -, h1⟩ := Durability.bind_eq_val h1
        obtain ⟨_, -, h1⟩ := Durability.bind_eq_val h1
        obtain ⟨_, -, h1⟩ := Durability.bind_eq_val h1
        cases h1
        simp
      refine ih h1 ?_
      rw [List.getElem?_append_left (List.length_pos_iff.2 hne)] at hr
      exact hr

/-- **C130, the file of `hubbard_real_1d_kinetic_theory`**: 10000 rows of three numbers; the time written in row `k` is exactly `k / 100`; the second number is the occupation of the
exact theory and the third is 0, up to the errors of the Bessel function and the sixth digit. -/
theorem kineticTheory_file_binary64 {besselF : ℕ → ℝ → ℝ} {η : ℝ} (hsin : ∀ x, |sinF x - Real.sin x| ≤ 1 / 2 ^ 53) (hη : η ≤ 1 / 8)
    (hb : ∀ (n : ℕ) (x : ℝ), |besselF n x - besselJ n x| ≤ η) {sched : List ℕ} (hs : sched.Perm (List.range' 1 64)) {threads : ℕ}
    (ht : threads ≤ 2 ^ 16) {s : List Event} (h : Executes threads (pairsRect 0 128 0 128) s) :
    ∃ out, kineticTheoryR binary64 sinF besselF sched threads s = .val out ∧
      ∀ rows, Renders (fun p : ℝ × ℝ => [p.1, p.2]) rows out → (readTable (tableText rows)).length = 10000 ∧
        ∀ k : ℕ, k < 10000 → ∀ E ε, E = (theoryNumber 128 ((k : ℝ) / 100)).re → ε = 40000 * η + 1 / 2 ^ 17 →
          ∃ tt ta tb a b, (readTable (tableText rows))[k]? = some [tt, ta, tb] ∧ DecimalText tt ((k : ℚ) / 100) ∧ DecimalText ta a ∧ DecimalText tb b ∧
            |(a : ℝ) - E| ≤ ε + 5 / 10 ^ 6 * (|E| + ε) ∧ |(b : ℝ)| ≤ ε + 5 / 10 ^ 6 * ε := by
  obtain ⟨out, h1, h2, h3⟩ := kineticTheory_binary64 hsin hη hb hs ht h
  refine ⟨out, h1, fun rows hr => ?_⟩
  obtain ⟨hl, hc⟩ := table_cells (renders_table hr)
  refine ⟨by rw [hl, List.length_map, h2], fun k hk E ε hE hε => ?_⟩
  obtain ⟨t, a, b, r1, r2, r3, r4⟩ := h3 k hk
  rw [← hE, ← hε] at r3
  rw [← hε] at r4
  obtain ⟨texts, t1, t2⟩ := hc k [t, a, b] (by rw [List.getElem?_map, r1]; rfl)
  obtain ⟨tt, l, f1, f2, rfl⟩ := List.forall₂_cons_right_iff.1 t2
  obtain ⟨ta, l', f3, f4, rfl⟩ := List.forall₂_cons_right_iff.1 f2
  obtain ⟨tb, l'', f5, f6, rfl⟩ := List.forall₂_cons_right_iff.1 f4
  obtain rfl := List.forall₂_nil_right_iff.1 f6
  obtain ⟨va, a1, a2⟩ := textOf_close f3 r3
  obtain ⟨vb, b1, b2⟩ := textOf_close f5 (y := 0) (ε := ε) (by rwa [sub_zero])
  rw [sub_zero, abs_zero, zero_add] at b2
  refine ⟨tt, ta, tb, va, vb, t1, time_text hk f1 (fun h0 => ?_) r2, a1, b1, a2, b2⟩
  subst h0
  rw [kineticTheoryR] at h1
  obtain ⟨dt, -, h1⟩ := Durability.bind_eq_val h1
  exact theoryFileR_first h1 r1

theorem trivialR_first {cols : ℕ → List ℕ} {w : Work ℂ} {J U dt : ℝ} {steps : ℕ} {out : List (List ℝ)} (h : trivialR binary64 cols w J U dt steps = .val out)
    {t : ℝ} {r : List ℝ} (hr : out[0]? = some (t :: r)) : t = 0 := by
  rw [trivialR] at h
  obtain ⟨m, -, h⟩ := Durability.bind_eq_val h
  obtain ⟨v, -, h⟩ := Durability.bind_eq_val h
  have row : ∀ {x : ℝ} {v : List ℂ} {q : List ℝ}, trivialRowR binary64 x v = .val q → ∃ q', q = x :: q' := by
    intro x v q hq
    rw [trivialRowR] at hq
    obtain ⟨_, -, hq⟩ := Durability.bind_eq_val hq
    obtain ⟨_, -, hq⟩ := Durability.bind_eq_val hq
    obtain ⟨_, -, hq⟩ := Durability.bind_eq_val hq
    obtain ⟨_, -, hq⟩ := Durability.bind_eq_val hq
    obtain ⟨_, -, hq⟩ := Durability.bind_eq_val hq
    cases hq
    exact ⟨_, rfl⟩
  cases steps with
  | zero =>
    rw [trivialLoopR, Nat.cast_zero, binary64_zero, Res.bind_val, zero_mul, binary64_zero, Res.bind_val] at h
    obtain ⟨q, h1, rfl⟩ := Durability.map_eq_val h
    obtain ⟨q', rfl⟩ := row h1
    simp at hr
    exact hr.1.symm
  | succ n =>
    rw [trivialLoopR, Nat.cast_zero, binary64_zero, Res.bind_val, zero_mul, binary64_zero, Res.bind_val] at h
    obtain ⟨q, h1, h⟩ := Durability.bind_eq_val h
    obtain ⟨q', rfl⟩ := row h1
    obtain ⟨_, -, h⟩ := Durability.bind_eq_val h
    obtain ⟨_, -, rfl⟩ := Durability.map_eq_val h
    simp at hr
    exact hr.1.symm

/-- **C130, the file of `hubbard_trivial`**: 2001 rows of eleven numbers; the time written in row `i` is exactly `i / 100`; the eight numbers after it are the real and imaginary parts of
the amplitudes of the exact solution up to 0.000007; the last two are those of the expression that the program computes (not the particle number: C126). -/
theorem trivial_file_binary64 {cols : ℕ → List ℕ} (hc : ColumnOrder cols) (w : Work ℂ) :
    ∃ out, trivialR binary64 cols w 1 1 (double (1 / 100)) 2000 = .val out ∧
      ∀ rows : List (Double × List Double), rows.map (fun r => r.1.value :: r.2.map Double.value) = out → (readTable (tableText rows)).length = 2001 ∧
        ∀ i : ℕ, i ≤ 2000 → ∀ A : Fin 4 → ℂ, ∀ Z, (∀ p, A p = trivialAmplitude 1 1 ((i : ℝ) / 100) p) → Z = trivialWritten A →
          ∃ tt ta0 tb0 ta1 tb1 ta2 tb2 ta3 tb3 tz tw, (readTable (tableText rows))[i]? = some [tt, ta0, tb0, ta1, tb1, ta2, tb2, ta3, tb3, tz, tw] ∧
            DecimalText tt ((i : ℚ) / 100) ∧
            (∀ p : Fin 4, ∃ a b, DecimalText (![ta0, ta1, ta2, ta3] p) a ∧ DecimalText (![tb0, tb1, tb2, tb3] p) b ∧
              |(a : ℝ) - (A p).re| ≤ 7 / 10 ^ 6 ∧ |(b : ℝ) - (A p).im| ≤ 7 / 10 ^ 6) ∧
            ∃ z y, DecimalText tz z ∧ DecimalText tw y ∧ |(z : ℝ) - Z.re| ≤ 1 / 10 ^ 5 + 5 / 10 ^ 6 * (|Z.re| + 1 / 10 ^ 5) ∧
              |(y : ℝ) - Z.im| ≤ 1 / 10 ^ 5 + 5 / 10 ^ 6 * (|Z.im| + 1 / 10 ^ 5) := by
  obtain ⟨out, h1, h2, h3⟩ := trivial_shipped_binary64 hc w
  refine ⟨out, h1, fun rows hr => ?_⟩
  obtain ⟨hl, hcell⟩ := table_cells hr
  refine ⟨by rw [hl, h2], fun i hi A Z hA hZ => ?_⟩
  obtain ⟨t, h, z, r1, r2, r3, r4⟩ := h3 i hi
  have hA' : A = fun p : Fin 4 => trivialAmplitude 1 1 ((i : ℝ) / 100) p := funext hA
  rw [← hA', ← hZ] at r4
  obtain ⟨texts, t1, t2⟩ := hcell i _ r1
  obtain ⟨tt, _, f1, q0, rfl⟩ := List.forall₂_cons_right_iff.1 t2
  obtain ⟨ta0, _, a0, q1, rfl⟩ := List.forall₂_cons_right_iff.1 q0
  obtain ⟨tb0, _, b0, q2, rfl⟩ := List.forall₂_cons_right_iff.1 q1
  obtain ⟨ta1, _, a1, q3, rfl⟩ := List.forall₂_cons_right_iff.1 q2
  obtain ⟨tb1, _, b1, q4, rfl⟩ := List.forall₂_cons_right_iff.1 q3
  obtain ⟨ta2, _, a2, q5, rfl⟩ := List.forall₂_cons_right_iff.1 q4
  obtain ⟨tb2, _, b2, q6, rfl⟩ := List.forall₂_cons_right_iff.1 q5
  obtain ⟨ta3, _, a3, q7, rfl⟩ := List.forall₂_cons_right_iff.1 q6
  obtain ⟨tb3, _, b3, q8, rfl⟩ := List.forall₂_cons_right_iff.1 q7
  obtain ⟨tz, _, fz, q9, rfl⟩ := List.forall₂_cons_right_iff.1 q8
  obtain ⟨tw, _, fw, q10, rfl⟩ := List.forall₂_cons_right_iff.1 q9
  obtain rfl := List.forall₂_nil_right_iff.1 q10
  have hre : |z.re - Z.re| ≤ 1 / 10 ^ 5 := by rw [← Complex.sub_re]; exact (Complex.abs_re_le_norm _).trans r4
  have him : |z.im - Z.im| ≤ 1 / 10 ^ 5 := by rw [← Complex.sub_im]; exact (Complex.abs_im_le_norm _).trans r4
  obtain ⟨vz, z1, z2⟩ := textOf_close fz hre
  obtain ⟨vw, w1, w2⟩ := textOf_close fw him
  have pair : ∀ p : Fin 4, ∀ ta tb, TextOf ta (h p).re → TextOf tb (h p).im → ∃ a b, DecimalText ta a ∧ DecimalText tb b ∧
      |(a : ℝ) - (A p).re| ≤ 7 / 10 ^ 6 ∧ |(b : ℝ) - (A p).im| ≤ 7 / 10 ^ 6 := by
    intro p ta tb ha hb
    have hn := r3 p
    rw [← hA p] at hn
    have h1 : ‖A p‖ ≤ 1 := by rw [hA p]; exact trivialAmplitude_norm _ _
    obtain ⟨a, x1, x2⟩ := textOf_close ha (y := (A p).re) (ε := 1 / 10 ^ 6) (by rw [← Complex.sub_re]; exact (Complex.abs_re_le_norm _).trans hn)
    obtain ⟨b, y1, y2⟩ := textOf_close hb (y := (A p).im) (ε := 1 / 10 ^ 6) (by rw [← Complex.sub_im]; exact (Complex.abs_im_le_norm _).trans hn)
    have n1 := (Complex.abs_re_le_norm (A p)).trans h1
    have n2 := (Complex.abs_im_le_norm (A p)).trans h1
    refine ⟨a, b, x1, y1, x2.trans ?_, y2.trans ?_⟩ <;> norm_num <;> linarith
  refine ⟨tt, ta0, tb0, ta1, tb1, ta2, tb2, ta3, tb3, tz, tw, t1, time_text (by omega) f1 (fun h0 => ?_) r2, fun p => ?_, vz, vw, z1, w1, z2, w2⟩
  · subst h0
    exact trivialR_first h1 r1
  · refine pair p _ _ ?_ ?_ <;> fin_cases p <;> assumption

/-! ### Examples -/

/-- Rows with these numbers exist for every table. -/
example (out : List (ℝ × ℝ)) : ∃ rows, Renders (fun e => [e]) rows out := renders_exists _ _

/-- The hypotheses can be met: the correctly rounded cosine. -/
example : ∃ out, dispersion1dR binary64 (fun x => binary64Value (Real.cos x)) (double Real.pi) (List.range 1024) 1024 = .val out ∧
    ∃ rows, Renders (fun e => [e]) rows out ∧ (readTable (tableText rows)).length = 1024 := by
  obtain ⟨out, h1, h2⟩ := dispersion1d_file_binary64 (fun x => (cosine_rounded x).1) (fun x => (cosine_rounded x).2) (List.Perm.refl (List.range 1024))
  obtain ⟨rows, hr⟩ := renders_exists (fun e : ℝ => [e]) out
  exact ⟨out, h1, rows, hr, (h2 rows hr).1⟩

/-- The hypotheses can be met: some order of the columns. -/
example : ∃ out, trivialR binary64 (fun _ => [2, 0, 3, 1]) ⟨[], [], [], []⟩ 1 1 (double (1 / 100)) 2000 = .val out := by
  obtain ⟨out, h1, -⟩ := trivial_file_binary64 (cols := fun _ => [2, 0, 3, 1]) (fun _ _ => show [2, 0, 3, 1].Perm (List.range 4) by decide) ⟨[], [], [], []⟩
  exact ⟨out, h1⟩

/-- The times of the rows 1, 25 and 1234. -/
example : writeDigits (1 * 10 ^ 5) (-2) = "0.01".toList ∧ writeDigits (25 * 10 ^ 4) (-1) = "0.25".toList ∧ writeDigits (1234 * 10 ^ 2) 1 = "12.34".toList := by decide

end Ieompp.IEEE
