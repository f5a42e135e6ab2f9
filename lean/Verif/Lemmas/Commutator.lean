import Verif.Spec.Eval
import Mathlib.Algebra.BigOperators.Intervals
import Mathlib.Algebra.BigOperators.Ring.Finset
import Mathlib.Tactic.Module
import Mathlib.Tactic.NoncommRing

/-!
# Lemmas on `commutate`
-/

set_option autoImplicit false

namespace Ieompp

open Spec Finset

section Words
variable {K R ω : Type*} [CommRing K] [Ring R] [Algebra K R]
variable (c : ω → R) (d : ω → ω → K)

theorem word_append (v w : List ω) : word c (v ++ w) = word c v * word c w := by
  simp [word]

theorem word_cons (x : ω) (w : List ω) : word c (x :: w) = c x * word c w := by
  simp [word]

@[simp] theorem word_nil : word c ([] : List ω) = 1 := by simp [word]

/-- `d x b_l` for the `l`-th (0-based) letter; 0 beyond the end. -/
def dAt (x : ω) (b : List ω) (l : ℕ) : K := match b[l]? with | some y => d x y | none => 0

/-- `d a_k b_l`. -/
def dAt2 (a b : List ω) (k l : ℕ) : K := match a[k]? with | some x => dAt d x b l | none => 0

variable (hd : ∀ x y, c x * c y + c y * c x = algebraMap K R (d x y))
include hd

/-- Moving one letter through a word. -/
theorem letter_mul_word (x : ω) (b : List ω) :
    c x * word c b = (-1 : K) ^ b.length • (word c b * c x)
      + ∑ l ∈ range b.length, ((-1 : K) ^ l * dAt d x b l) • (word c (b.take l) * word c (b.drop (l + 1))) := by
  induction b with
  | nil => simp
  | cons y b ih =>
    have h1 : c x * word c (y :: b) = d x y • word c b - c y * (c x * word c b) := by
      rw [word_cons, ← mul_assoc, eq_sub_of_add_eq (hd x y), sub_mul, mul_assoc, Algebra.smul_def]
    rw [h1, ih, List.length_cons, Finset.sum_range_succ']
    simp only [List.take_succ_cons, List.drop_succ_cons, List.take_zero, List.drop_zero, word_nil,
      one_mul, pow_zero, word_cons, mul_add, Finset.mul_sum, mul_smul_comm, pow_succ, mul_neg, mul_one]
    have h2 : ∀ l, dAt d x (y :: b) (l + 1) = dAt d x b l := by intro l; simp [dAt]
    have h3 : dAt d x (y :: b) 0 = d x y := by simp [dAt]
    simp only [h2, h3, neg_mul, neg_smul, Finset.sum_neg_distrib, mul_assoc]
    abel

/-- The graded commutator of two words as a double sum of contractions. -/
theorem word_comm (a b : List ω) :
    word c a * word c b = (-1 : K) ^ (a.length * b.length) • (word c b * word c a)
      + ∑ k ∈ range a.length, ∑ l ∈ range b.length,
          ((-1 : K) ^ (b.length * (a.length - 1 - k) + l) * dAt2 d a b k l) •
            (word c (a.take k) * word c (b.take l) * word c (b.drop (l + 1)) * word c (a.drop (k + 1))) := by
  induction a with
  | nil => simp
  | cons x a ih =>
    have e0 : word c (x :: a) * word c b = c x * (word c a * word c b) := by
      rw [word_cons, mul_assoc]
    rw [e0, ih, mul_add, mul_smul_comm, ← mul_assoc, letter_mul_word c d hd x b, List.length_cons,
      Finset.sum_range_succ']
    have e1 : ∀ k l, dAt2 d (x :: a) b (k + 1) l = dAt2 d a b k l := by
      intro k l; simp [dAt2]
    have e2 : ∀ l, dAt2 d (x :: a) b 0 l = dAt d x b l := by intro l; simp [dAt2]
    simp only [e1, e2, List.take_succ_cons, List.drop_succ_cons, List.take_zero, List.drop_zero, word_nil,
      one_mul, word_cons]
    rw [add_mul, smul_add, Finset.sum_mul, Finset.smul_sum, Finset.mul_sum]
    have s1 : (-1 : K) ^ (a.length * b.length) • ((-1 : K) ^ b.length • (word c b * c x)) * word c a
        = (-1 : K) ^ ((a.length + 1) * b.length) • (word c b * (c x * word c a)) := by
      rw [smul_mul_assoc, smul_mul_assoc, smul_smul, ← pow_add, mul_assoc]
      congr 2; ring
    have s2 : ∀ l, (-1 : K) ^ (a.length * b.length) • (((-1 : K) ^ l * dAt d x b l) •
          (word c (b.take l) * word c (b.drop (l + 1))) * word c a)
        = ((-1 : K) ^ (b.length * (a.length + 1 - 1 - 0) + l) * dAt d x b l) •
            (word c (b.take l) * word c (b.drop (l + 1)) * word c a) := by
      intro l
      rw [smul_mul_assoc, smul_smul, ← mul_assoc, ← pow_add]
      congr 3; simp [mul_comm]
    have s3 : ∀ k ∈ range a.length, c x * ∑ l ∈ range b.length,
          ((-1 : K) ^ (b.length * (a.length - 1 - k) + l) * dAt2 d a b k l) •
            (word c (a.take k) * word c (b.take l) * word c (b.drop (l + 1)) * word c (a.drop (k + 1)))
        = ∑ l ∈ range b.length,
          ((-1 : K) ^ (b.length * (a.length + 1 - 1 - (k + 1)) + l) * dAt2 d a b k l) •
            (c x * word c (a.take k) * word c (b.take l) * word c (b.drop (l + 1)) * word c (a.drop (k + 1))) := by
      intro k hk
      rw [Finset.mul_sum]
      refine Finset.sum_congr rfl fun l _ => ?_
      rw [mul_smul_comm]
      have : a.length - 1 - k = a.length + 1 - 1 - (k + 1) := by omega
      rw [this]
      simp only [mul_assoc]
    rw [Finset.sum_congr rfl s3, Finset.sum_congr rfl (fun l _ => s2 l)]
    rw [← smul_mul_assoc, s1]
    abel

end Words

section Loop
variable {P ω : Type*} (mul : P → P → P) (mulSign : P → ℤ → P) (anti : ω → ω → Bool)
  (acomm : ω → ω → P → P) (a b : Term P ω)

/-- The term produced for 0-based `k`, `l`. -/
def commTerm (x y : ω) (k l : ℕ) : Term P ω :=
  ⟨acomm x y (mulSign (mul a.prefactor b.prefactor)
      (commSign a.operators.length b.operators.length (k + 1) (l + 1))),
    a.operators.take k ++ b.operators.take l ++ b.operators.drop (l + 1) ++ a.operators.drop (k + 1)⟩

/-- The terms appended for 0-based `k`, `l`. -/
def commNew (k l : ℕ) : List (Term P ω) :=
  match a.operators[k]?, b.operators[l]? with
  | some x, some y => if anti x y then [] else [commTerm mul mulSign acomm a b x y k l]
  | _, _ => []

theorem commutateStep_eq (k l : ℕ) (hk : k < a.operators.length) (hl : l < b.operators.length)
    (c : List (Term P ω)) :
    commutateStep mul mulSign anti acomm a b (k + 1) (l + 1) c
      = some (c ++ commNew mul mulSign anti acomm a b k l) := by
  unfold commutateStep commNew commTerm
  simp only [Nat.add_sub_cancel, List.getElem?_eq_getElem hk, List.getElem?_eq_getElem hl]
  split
  · simp
  · rcases k with _ | k <;> rcases l with _ | l <;> simp

theorem foldlM_append_range' {τ : Type*} (f : List τ → ℕ → Option (List τ)) (g : ℕ → List τ)
    (n : ℕ) (s : ℕ) (c : List τ) (h : ∀ i < n, ∀ c, f c (s + i + 1) = some (c ++ g (s + i))) :
    (List.range' (s + 1) n).foldlM f c = some (c ++ (List.range' s n).flatMap g) := by
  induction n generalizing s c with
  | zero => simp
  | succ n ih =>
    rw [List.range'_succ, List.foldlM_cons]
    have h0 := h 0 (by omega) c
    simp only [Nat.add_zero] at h0
    rw [h0]
    simp only [Option.bind_eq_bind, Option.bind_some]
    have := ih (s + 1) (c ++ g s) (fun i hi c => by
      have := h (i + 1) (by omega) c
      rw [show s + (i + 1) = s + 1 + i by omega] at this
      exact this)
    rw [this, List.range'_succ, List.flatMap_cons, List.append_assoc]

theorem commutateWith_eq (c : List (Term P ω)) :
    commutateWith mul mulSign anti acomm a b c = some (c ++
      (List.range a.operators.length).flatMap fun k =>
        (List.range b.operators.length).flatMap fun l => commNew mul mulSign anti acomm a b k l) := by
  unfold commutateWith
  rw [List.range_eq_range', List.range_eq_range']
  apply foldlM_append_range' _ _ _ 0
  intro k hk c
  apply foldlM_append_range' _ _ _ 0
  intro l hl c
  rw [Nat.zero_add, Nat.zero_add]
  exact commutateStep_eq mul mulSign anti acomm a b k l hk hl c

theorem commSign_eq (n m k l : ℕ) (hk : k < n) : commSign n m (k + 1) (l + 1)
    = (-1) ^ (m * (n - 1 - k) + l) := by
  unfold commSign
  have : m * (n - (k + 1)) + (l + 1) - 1 = m * (n - 1 - k) + l := by
    rw [show n - (k + 1) = n - 1 - k by omega]; omega
  rw [this]
  rcases Nat.even_or_odd (m * (n - 1 - k) + l) with h | h
  · rw [h.neg_one_pow, if_neg (by have := Nat.even_iff.mp h; omega)]
  · rw [h.neg_one_pow, if_pos (by have := Nat.odd_iff.mp h; omega)]

theorem sum_map_flatMap_range {τ M : Type*} [AddCommMonoid M] (f : τ → M) (g : ℕ → List τ) (n : ℕ) :
    (((List.range n).flatMap g).map f).sum = ∑ k ∈ range n, ((g k).map f).sum := by
  induction n with
  | zero => simp
  | succ n ih => rw [List.range_succ, List.flatMap_append, List.map_append, List.sum_append, ih,
      Finset.sum_range_succ]; simp

variable {K R : Type*} [CommRing K] [Ring R] [Algebra K R]

/-- The master identity: the terms appended by `commutate` sum to the graded commutator. -/
theorem commutateWith_sound (cc : ω → R) (d : ω → ω → K) (evalP : P → K)
    (hd : ∀ x y, cc x * cc y + cc y * cc x = algebraMap K R (d x y))
    (hmul : ∀ p q, evalP (mul p q) = evalP p * evalP q)
    (hsign : ∀ p s, evalP (mulSign p s) = evalP p * (s : K))
    (hanti : ∀ x y, anti x y = true → d x y = 0)
    (hac : ∀ x y p, anti x y = false → evalP (acomm x y p) = evalP p * d x y)
    (c : List (Term P ω)) :
    ∃ new, commutateWith mul mulSign anti acomm a b c = some (c ++ new) ∧
      (new.map fun t => evalP t.prefactor • word cc t.operators).sum
        = (evalP a.prefactor * evalP b.prefactor) • (word cc a.operators * word cc b.operators
          - (-1 : K) ^ (a.operators.length * b.operators.length) •
              (word cc b.operators * word cc a.operators)) := by
  refine ⟨_, commutateWith_eq mul mulSign anti acomm a b c, ?_⟩
  rw [sum_map_flatMap_range, word_comm cc d hd a.operators b.operators, add_sub_cancel_left,
    Finset.smul_sum]
  refine Finset.sum_congr rfl fun k hk => ?_
  rw [sum_map_flatMap_range, Finset.smul_sum]
  refine Finset.sum_congr rfl fun l hl => ?_
  rw [Finset.mem_range] at hk hl
  unfold commNew
  simp only [List.getElem?_eq_getElem hk, List.getElem?_eq_getElem hl]
  have hdd : dAt2 d a.operators b.operators k l = d a.operators[k] b.operators[l] := by
    simp [dAt2, dAt, List.getElem?_eq_getElem hk, List.getElem?_eq_getElem hl]
  rw [hdd]
  by_cases hx : anti a.operators[k] b.operators[l] = true
  · simp [hx, hanti _ _ hx]
  · simp only [hx]
    have hx' : anti a.operators[k] b.operators[l] = false := by simpa using hx
    simp only [Bool.false_eq_true, if_false, commTerm, List.map_cons, List.map_nil, List.sum_cons,
      List.sum_nil, add_zero, hac _ _ _ hx', hsign, hmul, word_append, commSign_eq _ _ _ _ hk, smul_smul]
    congr 1
    push_cast
    ring

end Loop

end Ieompp
