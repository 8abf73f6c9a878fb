import Verif.Props.RelaxFloat
import Verif.Solver.Energy
import Mathlib.Algebra.Order.Chebyshev

/-!
# Property C214: Gauss Seidel and successive over relaxation with doubles on symmetric positive definite systems
-/

namespace Disa.Props

open Disa Spec Dense Num Sparse Iterative

variable {n : Nat} {A : Fin n → Fin n → ℚ}

/-- The energy is at least `l` times the square of the length. -/
def Definiteness (A : Fin n → Fin n → ℚ) (l : ℚ) : Prop := ∀ v : Fin n → ℚ, l * ∑ i, v i ^ 2 ≤ energy A v

theorem energy_one (A : Fin n → Fin n → ℚ) (i : Fin n) : energy A (fun k => if k = i then 1 else 0) = A i i := by
  rw [energy_eq, sum_unit]
  unfold apply
  simp

theorem Definiteness.diag {l : ℚ} (h : Definiteness A l) (i : Fin n) : l ≤ A i i := by
  have := h fun k => if k = i then 1 else 0
  rw [energy_one] at this
  simpa using this

theorem Definiteness.nonneg {l : ℚ} (h : Definiteness A l) (hl : 0 < l) (v : Fin n → ℚ) : 0 ≤ energy A v :=
  (mul_nonneg hl.le (Finset.sum_nonneg fun _ _ => sq_nonneg _)).trans (h v)

theorem Definiteness.component {l : ℚ} (h : Definiteness A l) (hl : 0 < l) (v : Fin n → ℚ) (i : Fin n) :
    v i ^ 2 ≤ energy A v / l := by
  rw [le_div_iff₀ hl]
  have h1 : v i ^ 2 ≤ ∑ k, v k ^ 2 := Finset.single_le_sum (f := fun k => v k ^ 2) (fun _ _ => sq_nonneg _) (Finset.mem_univ i)
  have := mul_le_mul_of_nonneg_left h1 hl.le
  linarith [h v]

/-- The elements off the diagonal. -/
theorem Definiteness.minor {l : ℚ} (h : Definiteness A l) (hl : 0 < l) (hs : ∀ i j, A i j = A j i) (i k : Fin n) :
    A i k ^ 2 ≤ A i i * A k k := by
  have hi : 0 < A i i := hl.trans_le (h.diag i)
  have h1 := h.nonneg hl fun m => if m = i then (if m = k then (1 : ℚ) else 0) + -(A i k / A i i) else if m = k then 1 else 0
  rw [energy_unit hs (fun m => if m = k then (1 : ℚ) else 0) i, energy_one] at h1
  have h2 : apply A (fun m => if m = k then (1 : ℚ) else 0) i = A i k := by
    unfold apply
    simp
  rw [h2] at h1
  have h3 : A k k + 2 * -(A i k / A i i) * A i k + (-(A i k / A i i)) ^ 2 * A i i = A k k - A i k ^ 2 / A i i := by
    field_simp
    ring
  rw [h3, sub_nonneg, div_le_iff₀ hi] at h1
  linarith

theorem Definiteness.entry {l a : ℚ} (h : Definiteness A l) (hl : 0 < l) (hs : ∀ i j, A i j = A j i) (ha : ∀ i, A i i ≤ a)
    (i k : Fin n) : |A i k| ≤ a := by
  have h1 := h.minor hl hs i k
  have hi := hl.trans_le (h.diag i)
  have hk := hl.trans_le (h.diag k)
  have h2 : A i i * A k k ≤ a * a := mul_le_mul (ha i) (ha k) hk.le (hi.le.trans (ha i))
  exact abs_le_of_sq_le_sq (by nlinarith) (hi.le.trans (ha i))

/-- The energy and the residuals. -/
theorem Definiteness.residual {l : ℚ} (h : Definiteness A l) (hl : 0 < l) (e : Fin n → ℚ) :
    energy A e ≤ (∑ i, apply A e i ^ 2) / l := by
  have h1 : ∀ i, e i * apply A e i ≤ l / 2 * e i ^ 2 + apply A e i ^ 2 / (2 * l) := fun i => by
    have h2 : l / 2 * e i ^ 2 + apply A e i ^ 2 / (2 * l) - e i * apply A e i = (l * e i - apply A e i) ^ 2 / (2 * l) := by
      field_simp
      ring
    have h3 : 0 ≤ (l * e i - apply A e i) ^ 2 / (2 * l) := by positivity
    linarith
  have h4 : energy A e ≤ l / 2 * ∑ i, e i ^ 2 + (∑ i, apply A e i ^ 2) / (2 * l) := by
    conv_lhs => rw [energy_eq]
    refine (Finset.sum_le_sum fun i _ => h1 i).trans (le_of_eq ?_)
    rw [Finset.sum_add_distrib, Finset.mul_sum, Finset.sum_div]
  have h5 := h e
  have h6 : (∑ i, apply A e i ^ 2) / (2 * l) = (∑ i, apply A e i ^ 2) / l / 2 := by
    field_simp
  rw [h6] at h4
  linarith

/-- What rounding adds to the new value of an unknown. -/
def slip (A : Fin n → Fin n → ℚ) (b : Fin n → ℚ) (omega : ℚ) (x y : Fin n → ℚ) (i : Fin n) : ℚ :=
  y i - relaxed A b omega (halfway x y i.1) i

theorem slip_residual {b s x y : Fin n → ℚ} {omega : ℚ} (ho : omega ≠ 0) (hs : Solves A s b) {i : Fin n} (hd : A i i ≠ 0) :
    apply A (fun k => halfway x y i.1 k - s k) i = -(A i i * (y i - x i - slip A b omega x y i)) / omega := by
  have h1 := hs i
  have h2 : apply A (fun k => halfway x y i.1 k - s k) i = (∑ j, A i j * halfway x y i.1 j) - b i := by
    rw [← h1]
    unfold apply
    rw [← Finset.sum_sub_distrib]
    exact Finset.sum_congr rfl fun j _ => by ring
  have h3 : halfway x y i.1 i = x i := by simp [halfway]
  rw [h2, off_add, h3]
  unfold slip relaxed
  rw [h3]
  field_simp
  ring

/-- The energy while one unknown changes. -/
theorem energy_slip (hsym : ∀ i j, A i j = A j i) {b s x y : Fin n → ℚ} {omega : ℚ} (ho : omega = 1 ∨ omega = 3 / 2)
    (hs : Solves A s b) (i : Fin n) (hd : 0 < A i i) :
    energy A (fun k => halfway x y (i.1 + 1) k - s k) ≤ energy A (fun k => halfway x y i.1 k - s k) -
      1 / 6 * (A i i * (y i - x i) ^ 2) + 8 / 3 * (A i i * slip A b omega x y i ^ 2) := by
  have ho' : omega ≠ 0 := by rcases ho with rfl | rfl <;> norm_num
  have h1 := halfway_succ x y i
  have h3 : halfway x y i.1 i = x i := by simp [halfway]
  have h4 : (fun k => halfway x y (i.1 + 1) k - s k) = fun k => if k = i then
      (halfway x y i.1 k - s k) + (y i - x i) else halfway x y i.1 k - s k := by
    rw [h1]
    funext k
    by_cases hk : k = i
    · subst hk
      simp only [if_true, h3]
      ring
    · simp [hk]
  rw [h4, energy_unit hsym (fun k => halfway x y i.1 k - s k), slip_residual ho' hs hd.ne']
  generalize slip A b omega x y i = δ
  generalize y i - x i = c
  have key : 2 * c * (-(A i i * (c - δ)) / omega) + c ^ 2 * A i i ≤ - (1 / 6 * (A i i * c ^ 2)) + 8 / 3 * (A i i * δ ^ 2) := by
    have h5 : 2 * c * (-(c - δ) / omega) + c ^ 2 ≤ - (1 / 6 * c ^ 2) + 8 / 3 * δ ^ 2 := by
      rcases ho with rfl | rfl
      · have := sq_nonneg (5 * c - 6 * δ)
        rw [div_one]
        nlinarith [sq_nonneg δ]
      · have := sq_nonneg (c - 4 * δ)
        have e : 2 * c * (-(c - δ) / (3 / 2)) = -(4 / 3) * (c * (c - δ)) := by ring
        rw [e]
        nlinarith
    have h6 := mul_le_mul_of_nonneg_left h5 hd.le
    have e : A i i * (2 * c * (-(c - δ) / omega) + c ^ 2) = 2 * c * (-(A i i * (c - δ)) / omega) + c ^ 2 * A i i := by
      field_simp
    rw [e] at h6
    linarith
  linarith

theorem sum_below_succ (f : Fin n → ℚ) (i : Fin n) :
    (∑ k : Fin n, if k.1 < i.1 + 1 then f k else 0) = (∑ k : Fin n, if k.1 < i.1 then f k else 0) + f i := by
  have e : ∀ k : Fin n, (if k.1 < i.1 + 1 then f k else 0) = (if k.1 < i.1 then f k else 0) + (if k = i then f i else 0) := by
    intro k
    by_cases hk : k = i
    · subst hk; simp
    · have hk' : k.1 ≠ i.1 := fun h => hk (Fin.ext h)
      have e : (k.1 < i.1 + 1) ↔ (k.1 < i.1) := by omega
      simp only [e, hk, if_false, add_zero]
  rw [Finset.sum_congr rfl fun k _ => e k, Finset.sum_add_distrib, Finset.sum_ite_eq', if_pos (Finset.mem_univ _)]

theorem energy_slips (hsym : ∀ i j, A i j = A j i) {b s x y : Fin n → ℚ} {omega : ℚ} (ho : omega = 1 ∨ omega = 3 / 2)
    (hs : Solves A s b) (hd : ∀ i, 0 < A i i) (t : Nat) (ht : t ≤ n) :
    energy A (fun k => halfway x y t k - s k) ≤ energy A (fun k => x k - s k) -
      1 / 6 * (∑ i : Fin n, if i.1 < t then A i i * (y i - x i) ^ 2 else 0) +
      8 / 3 * ∑ i : Fin n, if i.1 < t then A i i * slip A b omega x y i ^ 2 else 0 := by
  induction t with
  | zero => simp [halfway]
  | succ t ih =>
    have h1 := energy_slip hsym (x := x) (y := y) ho hs ⟨t, by omega⟩ (hd _)
    have h2 := ih (by omega)
    have h3 := sum_below_succ (fun i => A i i * (y i - x i) ^ 2) ⟨t, by omega⟩
    have h4 := sum_below_succ (fun i => A i i * slip A b omega x y i ^ 2) ⟨t, by omega⟩
    simp only at h1 h3 h4
    rw [h3, h4]
    linarith

/-- A sweep with rounding reduces the energy of the error, up to what rounding adds. -/
theorem rough_sweep {l a : ℚ} (hn : 0 < n) (h : Definiteness A l) (hl : 0 < l) (hsym : ∀ i j, A i j = A j i)
    (ha : ∀ i, A i i ≤ a) {b s x y : Fin n → ℚ} {omega : ℚ} (ho : omega = 1 ∨ omega = 3 / 2) (hs : Solves A s b) :
    energy A (fun k => y k - s k) ≤ (1 - l / (12 * n ^ 2 * a)) * energy A (fun k => x k - s k) +
      3 * ∑ i, A i i * slip A b omega x y i ^ 2 := by
  have ho' : omega ≠ 0 := by rcases ho with rfl | rfl <;> norm_num
  have ho1 : 1 ≤ omega := by rcases ho with rfl | rfl <;> norm_num
  have hd : ∀ i, 0 < A i i := fun i => hl.trans_le (h.diag i)
  have hn' : (1 : ℚ) ≤ n := by exact_mod_cast hn
  have ha0 : 0 < a := (hd ⟨0, hn⟩).trans_le (ha _)
  have h1 := energy_slips hsym (x := x) (y := y) ho hs hd n le_rfl
  have hy' : (fun k => halfway x y n k - s k) = fun k => y k - s k := by
    funext k; simp [halfway]
  have hsum : ∀ f : Fin n → ℚ, (∑ i : Fin n, if i.1 < n then f i else 0) = ∑ i, f i := fun f =>
    Finset.sum_congr rfl fun i _ => if_pos i.2
  rw [hy', hsum, hsum] at h1
  let B : Fin n → Fin n → ℚ := fun i k => if k = i then A i i / omega else if k < i then A i k else 0
  have hB : ∀ i k, B i k ^ 2 / A k k ≤ A i i := by
    intro i k
    rw [div_le_iff₀ (hd k)]
    show (if k = i then A i i / omega else if k < i then A i k else 0) ^ 2 ≤ _
    split_ifs with hk hk'
    · subst hk
      have : A k k / omega ≤ A k k := div_le_self (hd k).le ho1
      have h0 : 0 ≤ A k k / omega := div_nonneg (hd k).le (by linarith)
      nlinarith
    · exact h.minor hl hsym i k
    · have := mul_pos (hd i) (hd k)
      simpa using this.le
  have h2 : ∀ i, apply A (fun k => x k - s k) i = - (∑ k, B i k * (y k - x k)) + A i i * slip A b omega x y i / omega := by
    intro i
    have h3 := slip_residual (x := x) (y := y) ho' hs (hd i).ne'
    have h4 : apply A (fun k => halfway x y i.1 k - s k) i = apply A (fun k => x k - s k) i +
        ∑ k, if k < i then A i k * (y k - x k) else 0 := by
      unfold apply
      rw [← Finset.sum_add_distrib]
      apply Finset.sum_congr rfl
      intro k _
      show A i k * ((if k.1 < i.1 then y k else x k) - s k) = A i k * (x k - s k) + _
      by_cases hk : k < i
      · rw [if_pos (show k.1 < i.1 from hk), if_pos hk]; ring
      · rw [if_neg (show ¬ k.1 < i.1 from hk), if_neg hk]; ring
    have h5 : ∑ k, B i k * (y k - x k) = A i i / omega * (y i - x i) + ∑ k, if k < i then A i k * (y k - x k) else 0 := by
      have e : ∀ k, B i k * (y k - x k) = (if k = i then A i i / omega * (y i - x i) else 0) +
          (if k < i then A i k * (y k - x k) else 0) := by
        intro k
        show (if k = i then A i i / omega else if k < i then A i k else 0) * (y k - x k) = _
        by_cases hk : k = i
        · subst hk; simp
        · by_cases hk2 : k < i <;> simp [hk, hk2]
      rw [Finset.sum_congr rfl fun k _ => e k, Finset.sum_add_distrib, Finset.sum_ite_eq', if_pos (Finset.mem_univ i)]
    rw [h5]
    rw [h4] at h3
    have h6 : apply A (fun k => x k - s k) i = -(A i i * (y i - x i - slip A b omega x y i)) / omega -
        ∑ k, if k < i then A i k * (y k - x k) else 0 := by linarith
    rw [h6]
    field_simp
    ring
  obtain ⟨D, hD⟩ : ∃ D, D = ∑ k, A k k * (y k - x k) ^ 2 := ⟨_, rfl⟩
  obtain ⟨Δ, hΔ⟩ : ∃ Δ, Δ = ∑ i, A i i * slip A b omega x y i ^ 2 := ⟨_, rfl⟩
  have hD0 : 0 ≤ D := by rw [hD]; exact Finset.sum_nonneg fun i _ => mul_nonneg (hd i).le (sq_nonneg _)
  have hΔ0 : 0 ≤ Δ := by rw [hΔ]; exact Finset.sum_nonneg fun i _ => mul_nonneg (hd i).le (sq_nonneg _)
  have h7 : ∀ i, apply A (fun k => x k - s k) i ^ 2 ≤ 2 * n * a * D + 2 * a * (A i i * slip A b omega x y i ^ 2) := by
    intro i
    have h8 : (∑ k, B i k * (y k - x k)) ^ 2 ≤ (∑ k, B i k ^ 2 / A k k) * ∑ k, A k k * (y k - x k) ^ 2 := by
      refine Finset.sum_sq_le_sum_mul_sum_of_sq_eq_mul _ (fun k _ => div_nonneg (sq_nonneg _) (hd k).le)
        (fun k _ => mul_nonneg (hd k).le (sq_nonneg _)) (fun k _ => ?_)
      have := (hd k).ne'
      field_simp
    have h9 : (∑ k, B i k ^ 2 / A k k) ≤ n * a := by
      refine (Finset.sum_le_sum fun k _ => (hB i k).trans (ha i)).trans ?_
      simp
    rw [← hD] at h8
    have h10 := mul_le_mul_of_nonneg_right h9 hD0
    have h11 : (A i i * slip A b omega x y i / omega) ^ 2 ≤ a * (A i i * slip A b omega x y i ^ 2) := by
      have e : (A i i * slip A b omega x y i / omega) ^ 2 = A i i / omega ^ 2 * (A i i * slip A b omega x y i ^ 2) := by
        field_simp
      rw [e]
      refine mul_le_mul_of_nonneg_right ?_ (mul_nonneg (hd i).le (sq_nonneg _))
      exact (div_le_self (hd i).le (one_le_pow₀ ho1)).trans (ha i)
    rw [h2 i]
    generalize (∑ k, B i k * (y k - x k)) = p at *
    generalize A i i * slip A b omega x y i / omega = q at *
    nlinarith [sq_nonneg (p + q)]
  have h8 := h.residual hl fun k => x k - s k
  have h9 : (∑ i, apply A (fun k => x k - s k) i ^ 2) ≤ 2 * n ^ 2 * a * D + 2 * a * Δ := by
    refine (Finset.sum_le_sum fun i _ => h7 i).trans (le_of_eq ?_)
    rw [Finset.sum_add_distrib, Finset.sum_const, Finset.card_univ, Fintype.card_fin, nsmul_eq_mul, ← Finset.mul_sum, ← hΔ]
    ring
  rw [← hD, ← hΔ] at h1
  rw [← hΔ]
  generalize energy A (fun k => x k - s k) = E at *
  have h10 : l * E ≤ 2 * n ^ 2 * a * D + 2 * a * Δ := by
    rw [le_div_iff₀ hl] at h8
    linarith
  have hn2 : (1 : ℚ) ≤ n ^ 2 := one_le_pow₀ hn'
  have hk : 0 < 12 * (n : ℚ) ^ 2 * a := by positivity
  have h11 : l / (12 * n ^ 2 * a) * E ≤ 1 / 6 * D + 1 / 6 * Δ := by
    rw [div_mul_eq_mul_div, div_le_iff₀ hk]
    have : a * Δ ≤ n ^ 2 * (a * Δ) := le_mul_of_one_le_left (by positivity) hn2
    nlinarith
  linarith

theorem halfway_congr {x y y' : Fin n → ℚ} {t : Nat} (h : ∀ k : Fin n, k.1 < t → y' k = y k) : halfway x y' t = halfway x y t := by
  funext k
  unfold halfway
  split
  · exact h k ‹_›
  · rfl

variable {rnd : ℚ → Fl} {u η : ℚ}

/-- A sweep whose rounding errors are small against the errors and the solution.  `val` says which number a result stands for,
and `f` gives the new value of an unknown. -/
theorem sweep_definite {V : Type} (val : V → ℚ → Prop) (f : Fin n → (Fin n → V) → V) {l a ε X S : ℚ} (hn : 0 < n)
    (h : Definiteness A l) (hl : 0 < l) (hsym : ∀ i j, A i j = A j i) (ha : ∀ i, A i i ≤ a) {b sol : Fin n → ℚ} {omega : ℚ}
    (ho : omega = 1 ∨ omega = 3 / 2) (hs : Solves A sol b) (hX : 0 ≤ X) (hS : 0 ≤ S) (hε : 0 ≤ ε)
    (hrow : ∀ (i : Fin n) (e : ℚ) (Z : Fin n → V) (z : Fin n → ℚ), (∀ j, val (Z j) (z j)) → (∀ j, |z j - sol j| ≤ e) → e ≤ S →
      ∃ r, val (f i Z) r ∧ |r - relaxed A b omega z i| ≤ ε * (X + e))
    (hβ : 32 * n * (a / l) * ε ^ 2 ≤ 3) (Y : Fin n → V) (x : Fin n → ℚ) (hY : ∀ j, val (Y j) (x j))
    (hE : 2 * (energy A (fun k => x k - sol k) + l * X ^ 2) ≤ l * S ^ 2) (v : Fin n → V)
    (hv : ∀ i, v i = f i (fun j => if j < i then v j else Y j)) :
    ∃ y : Fin n → ℚ, (∀ i, val (v i) (y i)) ∧
      energy A (fun k => y k - sol k) ≤ (1 - l / (12 * n ^ 2 * a)) * energy A (fun k => x k - sol k) +
        12 * n * (a / l) * ε ^ 2 * (energy A (fun k => x k - sol k) + l * X ^ 2) := by
  have hd : ∀ i, 0 < A i i := fun i => hl.trans_le (h.diag i)
  have ha0 : 0 < a := (hd ⟨0, hn⟩).trans_le (ha _)
  have hn' : (1 : ℚ) ≤ n := by exact_mod_cast hn
  obtain ⟨κ, hκ⟩ : ∃ κ, κ = a / l := ⟨_, rfl⟩
  have hκ0 : 0 < κ := by rw [hκ]; exact div_pos ha0 hl
  have haκ : a = κ * l := by rw [hκ]; field_simp
  obtain ⟨E0, hE0⟩ : ∃ E0, E0 = energy A (fun k => x k - sol k) := ⟨_, rfl⟩
  have hE0n : 0 ≤ E0 := by rw [hE0]; exact h.nonneg hl _
  obtain ⟨T, hT⟩ : ∃ T, T = l * X ^ 2 := ⟨_, rfl⟩
  have hT0 : 0 ≤ T := by rw [hT]; positivity
  rw [← hE0, ← hT, ← hκ]
  rw [← hE0, ← hT] at hE
  rw [← hκ] at hβ
  obtain ⟨β, hβ'⟩ : ∃ β, β = 16 / 3 * (κ * ε ^ 2) := ⟨_, rfl⟩
  have hβ0 : 0 ≤ β := by rw [hβ']; positivity
  have hnβ : 2 * n * β ≤ 1 := by
    rw [hβ']
    linarith
  have main : ∀ t, t ≤ n → ∃ y : Fin n → ℚ, (∀ i : Fin n, i.1 < t → val (v i) (y i)) ∧
      (∀ i : Fin n, i.1 < t → A i i * slip A b omega x y i ^ 2 ≤ 4 * (κ * ε ^ 2) * (E0 + T)) ∧
      energy A (fun k => halfway x y t k - sol k) + T ≤ (1 + 2 * t * β) * (E0 + T) := by
    intro t
    induction t with
    | zero =>
      intro _
      refine ⟨x, fun i hi => absurd hi (by omega), fun i hi => absurd hi (by omega), ?_⟩
      have e : (fun k => halfway x x 0 k - sol k) = fun k => x k - sol k := by funext k; simp [halfway]
      rw [e, ← hE0]
      simp
    | succ t ih =>
      intro ht
      obtain ⟨y, h1, h2, h3⟩ := ih (by omega)
      obtain ⟨i, hi⟩ : ∃ i : Fin n, i.1 = t := ⟨⟨t, by omega⟩, rfl⟩
      obtain ⟨z, hz⟩ : ∃ z, z = halfway x y t := ⟨_, rfl⟩
      have htn : (t : ℚ) + 1 ≤ n := by exact_mod_cast ht
      have ht0 : (0 : ℚ) ≤ t := by positivity
      have htβ : 2 * t * β ≤ 1 := by
        have := mul_le_mul_of_nonneg_right (show (t : ℚ) ≤ n by linarith) hβ0
        linarith
      obtain ⟨Et, hEt⟩ : ∃ Et, Et = energy A (fun k => halfway x y t k - sol k) := ⟨_, rfl⟩
      rw [← hEt] at h3
      have hEt0 : 0 ≤ Et := by rw [hEt]; exact h.nonneg hl _
      have hEt2 : Et + T ≤ 2 * (E0 + T) := by
        refine h3.trans (mul_le_mul_of_nonneg_right ?_ (by linarith))
        linarith
      haveI : Nonempty (Fin n) := ⟨i⟩
      obtain ⟨m, hm⟩ := Finite.exists_max fun j => |z j - sol j|
      obtain ⟨e, he⟩ : ∃ e, e = |z m - sol m| := ⟨_, rfl⟩
      rw [← he] at hm
      have he0 : 0 ≤ e := by rw [he]; exact abs_nonneg _
      have he2 : l * e ^ 2 ≤ Et := by
        have h4 := h.component hl (fun k => halfway x y t k - sol k) m
        rw [← hEt, ← hz, le_div_iff₀ hl] at h4
        rw [he, sq_abs]
        linarith
      have heS : e ≤ S := by
        refine abs_le_of_sq_le_sq' ?_ hS |>.2
        have : l * e ^ 2 ≤ l * S ^ 2 := by linarith
        exact le_of_mul_le_mul_left this hl
      obtain ⟨r, r1, r2⟩ := hrow i e (fun j => if j < i then v j else Y j) z (fun j => by
        rw [hz]
        unfold halfway
        by_cases hj : j < i
        · rw [if_pos hj, if_pos (show j.1 < t from hi ▸ hj)]
          exact h1 j (hi ▸ hj)
        · rw [if_neg hj, if_neg (show ¬ j.1 < t from hi ▸ hj)]
          exact hY j) hm heS
      have hvi : val (v i) r := by
        rw [hv i]
        exact r1
      have hδ : A i i * (r - relaxed A b omega z i) ^ 2 ≤ 2 * (κ * ε ^ 2) * (Et + T) := by
        have h5 : (r - relaxed A b omega z i) ^ 2 ≤ (ε * (X + e)) ^ 2 := by
          rw [← sq_abs (r - relaxed A b omega z i)]
          exact pow_le_pow_left₀ (abs_nonneg _) r2 2
        have h6 : (ε * (X + e)) ^ 2 ≤ 2 * ε ^ 2 * (X ^ 2 + e ^ 2) := by
          rw [mul_pow]
          have h7 : (X + e) ^ 2 ≤ 2 * (X ^ 2 + e ^ 2) := by nlinarith [sq_nonneg (X - e)]
          have := mul_le_mul_of_nonneg_left h7 (sq_nonneg ε)
          linarith
        calc A i i * (r - relaxed A b omega z i) ^ 2 ≤ a * (2 * ε ^ 2 * (X ^ 2 + e ^ 2)) :=
              mul_le_mul (ha i) (h5.trans h6) (sq_nonneg _) ha0.le
          _ = 2 * (κ * ε ^ 2) * (l * e ^ 2 + T) := by rw [haκ, hT]; ring
          _ ≤ 2 * (κ * ε ^ 2) * (Et + T) := mul_le_mul_of_nonneg_left (by linarith) (by positivity)
      obtain ⟨y', hy1, hy2⟩ : ∃ y' : Fin n → ℚ, y' i = r ∧ ∀ k, k ≠ i → y' k = y k :=
        ⟨fun k => if k = i then r else y k, if_pos rfl, fun k hk => if_neg hk⟩
      have hc : ∀ m, m ≤ t → halfway x y' m = halfway x y m := fun m hm =>
        halfway_congr fun k hk => hy2 k (by rintro rfl; omega)
      refine ⟨y', ?_, ?_, ?_⟩
      · intro j hj
        by_cases hji : j = i
        · subst hji; rw [hy1]; exact hvi
        · have : j.1 ≠ i.1 := fun h => hji (Fin.ext h)
          rw [hy2 j hji]
          exact h1 j (by omega)
      · intro j hj
        by_cases hji : j = i
        · subst hji
          unfold slip
          rw [hc _ (by omega), hy1, hi, ← hz]
          refine hδ.trans ?_
          have := mul_le_mul_of_nonneg_left hEt2 (show 0 ≤ 2 * (κ * ε ^ 2) by positivity)
          linarith
        · have : j.1 ≠ i.1 := fun h => hji (Fin.ext h)
          have h4 := h2 j (by omega)
          unfold slip at h4 ⊢
          rw [hc _ (by omega), hy2 j hji]
          exact h4
      · have h4 := energy_slip hsym (x := x) (y := y') ho hs i (hd i)
        have h5 : slip A b omega x y' i = r - relaxed A b omega z i := by
          unfold slip
          rw [hc _ (by omega), hy1, hi, ← hz]
        rw [h5, hc i.1 (by omega), hi, ← hEt] at h4
        have h6 : 0 ≤ A i i * (y' i - x i) ^ 2 := mul_nonneg (hd i).le (sq_nonneg _)
        have h7 : energy A (fun k => halfway x y' (t + 1) k - sol k) ≤ Et + β * (Et + T) := by
          rw [hβ']
          linarith
        have h8 : (1 + 2 * t * β) * (1 + β) ≤ 1 + 2 * ((t + 1 : ℕ) : ℚ) * β := by
          push_cast
          have := mul_le_mul_of_nonneg_right htβ hβ0
          linarith
        have h9 := mul_le_mul_of_nonneg_right h8 (show 0 ≤ E0 + T by linarith)
        have h10 := mul_le_mul_of_nonneg_right h3 (show 0 ≤ 1 + β by linarith)
        have e1 : Et + β * (Et + T) + T = (Et + T) * (1 + β) := by ring
        have e2 : (1 + 2 * t * β) * (E0 + T) * (1 + β) = (1 + 2 * t * β) * (1 + β) * (E0 + T) := by ring
        linarith only [h7, e1, e2, h9, h10]
  obtain ⟨y, h1, h2, -⟩ := main n le_rfl
  refine ⟨y, fun i => h1 i i.2, ?_⟩
  have h3 := rough_sweep hn h hl hsym ha (x := x) (y := y) ho hs
  rw [← hE0] at h3
  refine h3.trans ?_
  have h4 : (∑ i, A i i * slip A b omega x y i ^ 2) ≤ n * (4 * (κ * ε ^ 2) * (E0 + T)) := by
    refine (Finset.sum_le_sum fun i _ => h2 i i.2).trans ?_
    simp
  linarith

/-- No intermediate result is large. -/
theorem relaxRange_le {u η omega d s x H : ℚ} (hu : 0 ≤ u) (hu1 : u ≤ 1) (hη : 0 ≤ η) (hη1 : η ≤ 1)
    (ho : omega = 1 ∨ omega = 3 / 2) (hH : 1 ≤ H) (hs0 : 0 ≤ s) (hp : (1 + u) ^ (n + 1) ≤ 2)
    (hq : n * (2 + u) * (1 + u) ^ n * η ≤ 1) (hs : s ≤ H) (hx : |x| ≤ H) (hd : 0 < d) (hd' : 1 / d ≤ H) :
    relaxRange u η n omega d s x ≤ 100 * H ^ 2 := by
  have hH2 : H ≤ H ^ 2 := by nlinarith
  have ho0 : 0 ≤ omega := by rcases ho with rfl | rfl <;> norm_num
  have ho1 : omega ≤ 3 / 2 := by rcases ho with rfl | rfl <;> norm_num
  have ho2 : |1 - omega| ≤ 1 / 2 := by
    rcases ho with rfl | rfl
    · norm_num
    · rw [abs_of_neg (by norm_num)]; norm_num
  have ho3 := abs_nonneg (1 - omega)
  have hx0 := abs_nonneg x
  unfold relaxRange productError
  dsimp only
  rw [abs_of_nonneg ho0, abs_of_pos hd]
  have hp0 : 1 ≤ (1 + u) ^ (n + 1) := one_le_pow₀ (by linarith)
  have hq0 : 0 ≤ n * (2 + u) * (1 + u) ^ n * η := by positivity
  obtain ⟨B0, hB0⟩ : ∃ B, B = s + (((1 + u) ^ (n + 1) - 1) * s + n * (2 + u) * (1 + u) ^ n * η) := ⟨_, rfl⟩
  rw [← hB0]
  have b0 : B0 ≤ 3 * H := by
    have := mul_le_mul_of_nonneg_right hp hs0
    rw [hB0]
    linarith
  have b0' : 0 ≤ B0 := by
    have := mul_nonneg (show 0 ≤ (1 + u) ^ (n + 1) - 1 by linarith) hs0
    rw [hB0]
    linarith
  obtain ⟨B1, hB1⟩ : ∃ B, B = (1 + u) * B0 + η := ⟨_, rfl⟩
  rw [← hB1]
  have b1 : B1 ≤ 7 * H := by
    have := mul_le_mul_of_nonneg_right hu1 b0'
    rw [hB1]
    linarith
  have b1' : 0 ≤ B1 := by rw [hB1]; positivity
  have c1 : omega * B1 ≤ 21 / 2 * H := by
    have := mul_le_mul_of_nonneg_right ho1 b1'
    linarith
  have c1' : 0 ≤ omega * B1 := by positivity
  obtain ⟨B2, hB2⟩ : ∃ B, B = (1 + u) * (omega * B1) + η := ⟨_, rfl⟩
  rw [← hB2]
  have b2 : B2 ≤ 22 * H := by
    have := mul_le_mul_of_nonneg_right hu1 c1'
    rw [hB2]
    linarith
  have b2' : 0 ≤ B2 := by rw [hB2]; positivity
  have c2 : B2 / d ≤ 22 * H ^ 2 := by
    rw [div_eq_mul_one_div]
    have := mul_le_mul b2 hd' (by positivity) (by linarith)
    linarith
  have c2' : 0 ≤ B2 / d := by positivity
  have b3 : (1 + u) * (B2 / d) + η ≤ 45 * H ^ 2 := by
    have := mul_le_mul_of_nonneg_right hu1 c2'
    linarith
  obtain ⟨B4, hB4⟩ : ∃ B, B = (1 + u) * |1 - omega| + η := ⟨_, rfl⟩
  rw [← hB4]
  have b4 : B4 ≤ 2 := by
    have := mul_le_mul_of_nonneg_right hu1 ho3
    rw [hB4]
    linarith
  have b4' : 0 ≤ B4 := by rw [hB4]; positivity
  have c4 : B4 * |x| ≤ 2 * H := by
    have := mul_le_mul b4 hx hx0 (by norm_num)
    linarith
  have c4' : 0 ≤ B4 * |x| := by positivity
  have b5 : (1 + u) * (B4 * |x|) + η ≤ 5 * H := by
    have := mul_le_mul_of_nonneg_right hu1 c4'
    linarith
  linarith

/-- The sum of the rounding errors. -/
theorem slip_sizes {N κ X e η : ℚ} (hN : 1 ≤ N) (hκ : 1 ≤ κ) (hY : 0 ≤ X + e) (hη0 : 0 ≤ η) (hη1 : η ≤ 1 / 2 ^ 100)
    (hη2 : η * 2 * (10 * 2 ^ 200) ≤ 1 / 2 ^ 47 * (1 / 2 ^ 800)) :
    6 * N / 2 ^ 52 * (4 * (N * κ * (X + e))) + 2 * η * (7 * N * 2 ^ 200 + (X + e) + 3) ≤
      N ^ 2 * κ / 2 ^ 47 * (X + 1 / 2 ^ 800 + e) := by
  have hnκ : 1 ≤ N * κ := by nlinarith
  have hn2 : N ≤ N ^ 2 * κ := by
    rw [pow_two, mul_assoc]
    exact le_mul_of_one_le_right (by linarith) hnκ
  have hP : (3 : ℚ) ≤ 3 * 2 ^ 200 := by norm_num
  have hτ : (0 : ℚ) ≤ 1 / 2 ^ 47 * (1 / 2 ^ 800) := by positivity
  have g2 : 2 * η ≤ N ^ 2 * κ / 2 ^ 50 := by
    have e3 : (2 * (1 / 2 ^ 100) : ℚ) ≤ 1 / 2 ^ 50 := by norm_num
    have e4 : 1 / 2 ^ 50 ≤ N ^ 2 * κ / 2 ^ 50 := div_le_div_of_nonneg_right (by linarith) (by positivity)
    linarith
  clear hη1
  generalize (2 ^ 200 : ℚ) = Q at *
  generalize (1 / 2 ^ 800 : ℚ) = τ at *
  have g1 : 2 * η * (7 * N * Q + 3) ≤ N ^ 2 * κ / 2 ^ 47 * τ := by
    have e1 : 7 * N * Q + 3 ≤ 10 * Q * N := by nlinarith
    have e2 := mul_le_mul_of_nonneg_left e1 (show 0 ≤ 2 * η by linarith)
    have e3 := mul_le_mul_of_nonneg_right hη2 (show 0 ≤ N by linarith)
    have e4 := mul_le_mul_of_nonneg_right hn2 hτ
    linarith
  have g3 := mul_le_mul_of_nonneg_right g2 hY
  have g5 : 0 ≤ N ^ 2 * κ / 2 ^ 47 * (X + e) := mul_nonneg (div_nonneg (by linarith) (by positivity)) hY
  linarith

/-- The new value of an unknown with doubles: the numbers are in range, and the rounding error is small against them. -/
theorem slip_bounds64 {l a X e : ℚ} (hn : (n : ℚ) ≤ 2 ^ 13) (hl : 1 / 2 ^ 200 ≤ l)
    (ha : a ≤ 2 ^ 200) (hent : ∀ i j, |A i j| ≤ a) (hdiag : ∀ i, l ≤ A i i) {b sol : Fin n → ℚ} (hsol : Solves A sol b)
    (hX : ∀ j, |sol j| ≤ X) (hX' : X ≤ 2 ^ 200) {omega : ℚ} (ho : omega = 1 ∨ omega = 3 / 2) (i : Fin n) (z : Fin n → ℚ)
    (hz : ∀ j, |z j - sol j| ≤ e) (he : e ≤ 2 ^ 216) :
    relaxRange (1 / 2 ^ 53) (1 / 2 ^ 1075) n omega (A i i) (|b i| + offAbs A z i) (z i) ≤ (2 - 1 / 2 ^ 52) * 2 ^ 1023 ∧
      sweepError (1 / 2 ^ 53) (1 / 2 ^ 1075) n omega (A i i) (|b i| + offAbs A z i) (z i) ≤
        n ^ 2 * (a / l) / 2 ^ 47 * (X + 1 / 2 ^ 800 + e) := by
  have hl0 : 0 < l := lt_of_lt_of_le (by positivity) hl
  have hd : 0 < A i i := hl0.trans_le (hdiag i)
  have he0 : 0 ≤ e := (abs_nonneg _).trans (hz i)
  have hX0 : 0 ≤ X := (abs_nonneg _).trans (hX i)
  have ha0 : 0 ≤ a := (abs_nonneg _).trans (hent i i)
  have hla : l ≤ a := (hdiag i).trans ((le_abs_self _).trans (hent i i))
  have hn1 : (1 : ℚ) ≤ n := by exact_mod_cast (by have := i.2; omega : 1 ≤ n)
  have hnN : n ≤ 2 ^ 13 := by exact_mod_cast hn
  have hzX : ∀ j, |z j| ≤ X + e := fun j => by
    have := abs_add_le (sol j) (z j - sol j)
    rw [add_sub_cancel] at this
    linarith [hX j, hz j]
  have hbi : |b i| ≤ n * a * X := by
    rw [← hsol i]
    refine (Finset.abs_sum_le_sum_abs _ _).trans ?_
    refine (Finset.sum_le_sum fun j _ => show |A i j * sol j| ≤ a * X from ?_).trans ?_
    · rw [abs_mul]; exact mul_le_mul (hent i j) (hX j) (abs_nonneg _) ha0
    · simp [mul_assoc]
  have hoff : offAbs A z i ≤ n * a * (X + e) := by
    unfold offAbs
    refine (Finset.sum_le_sum fun j _ => show _ ≤ a * (X + e) from ?_).trans ?_
    · split
      · positivity
      · rw [abs_mul]; exact mul_le_mul (hent i j) (hzX j) (abs_nonneg _) ha0
    · simp [mul_assoc]
  have hoff0 : 0 ≤ offAbs A z i := (abs_nonneg _).trans (off_le A z i)
  obtain ⟨s, hs'⟩ : ∃ s, s = |b i| + offAbs A z i := ⟨_, rfl⟩
  have hs0 : 0 ≤ s := by rw [hs']; have := abs_nonneg (b i); linarith
  have hs1 : s ≤ n * a * (2 * X + e) := by rw [hs']; linarith
  have hp5 := pow_double (n := n + 5) (by omega)
  have hp4 := pow_double (n := n + 4) (by omega)
  have hp1 := pow_double (n := n + 1) (by omega)
  have hp := pow_double (n := n) (by omega)
  push_cast at hp5 hp4 hp1
  have q4 : (1 + 1 / 2 ^ 53 : ℚ) ^ (n + 4) ≤ 2 := by linarith
  have q1 : (1 + 1 / 2 ^ 53 : ℚ) ^ (n + 1) ≤ 2 := by linarith
  have q0 : (1 + 1 / 2 ^ 53 : ℚ) ^ n ≤ 2 := by linarith
  have hη0 : (0 : ℚ) ≤ 1 / 2 ^ 1075 := by positivity
  have hη1 : (1 / 2 ^ 1075 : ℚ) ≤ 1 / 2 ^ 100 := one_div_le_one_div_of_le (by positivity) (pow_le_pow_right₀ (by norm_num) (by norm_num))
  have hη2 : (1 / 2 ^ 1075 : ℚ) * 2 * (10 * 2 ^ 200) ≤ 1 / 2 ^ 47 * (1 / 2 ^ 800) := by decide +kernel
  have hmax : (100 * (2 ^ 460) ^ 2 : ℚ) ≤ (2 - 1 / 2 ^ 52) * 2 ^ 1023 := by decide +kernel
  have hr : relaxRange (1 / 2 ^ 53) (1 / 2 ^ 1075) n omega (A i i) (|b i| + offAbs A z i) (z i) ≤ (2 - 1 / 2 ^ 52) * 2 ^ 1023 := by
    refine le_trans ?_ hmax
    clear hη2 hmax
    rw [← hs']
    refine relaxRange_le (by norm_num) (by norm_num) hη0 ?_ ho (one_le_pow₀ (by norm_num)) hs0 q1 ?_ ?_ ?_ hd ?_
    · exact hη1.trans (by norm_num)
    · generalize (1 / 2 ^ 1075 : ℚ) = η at hη0 hη1
      have h1 : (n : ℚ) * (2 + 1 / 2 ^ 53) * (1 + 1 / 2 ^ 53) ^ n ≤ 2 ^ 13 * 3 * 2 := by
        refine mul_le_mul (mul_le_mul hn (by norm_num) (by norm_num) (by norm_num)) q0 (by positivity) (by norm_num)
      refine (mul_le_mul h1 hη1 hη0 (by norm_num)).trans (by norm_num)
    · refine hs1.trans ?_
      have h1 : (n : ℚ) * a ≤ 2 ^ 13 * 2 ^ 200 := mul_le_mul hn ha ha0 (by norm_num)
      have h2 : 2 * X + e ≤ 2 ^ 217 := by
        have : (2 * 2 ^ 200 + 2 ^ 216 : ℚ) ≤ 2 ^ 217 := by norm_num
        linarith
      refine (mul_le_mul h1 h2 (by positivity) (by norm_num)).trans (by decide +kernel)
    · refine (hzX i).trans ?_
      have : (2 ^ 200 + 2 ^ 216 : ℚ) ≤ 2 ^ 460 := by decide +kernel
      exact (add_le_add hX' he).trans this
    · refine (one_div_le_one_div_of_le (by positivity) (hl.trans (hdiag i))).trans ?_
      decide +kernel
  refine ⟨hr, ?_⟩
  rw [← hs']
  have ho0 : 0 ≤ omega := by rcases ho with rfl | rfl <;> norm_num
  have ho1 : omega ≤ 3 / 2 := by rcases ho with rfl | rfl <;> norm_num
  have ho2 : |1 - omega| ≤ 1 / 2 := by
    rcases ho with rfl | rfl
    · norm_num
    · rw [abs_of_neg (by norm_num)]; norm_num
  unfold sweepError
  rw [abs_of_nonneg ho0, abs_of_pos hd]
  obtain ⟨κ, hκ⟩ : ∃ κ, κ = a / l := ⟨_, rfl⟩
  have hκ1 : 1 ≤ κ := by rw [hκ, le_div_iff₀ hl0]; linarith
  rw [← hκ]
  have hnκ : (1 : ℚ) ≤ n * κ := by nlinarith
  have h2 : s / A i i ≤ n * κ * (2 * X + e) := by
    have h3 : s / A i i ≤ s / l := div_le_div_of_nonneg_left hs0 hl0 (hdiag i)
    have h4 : s / l ≤ n * a * (2 * X + e) / l := div_le_div_of_nonneg_right hs1 hl0.le
    have e1 : n * a * (2 * X + e) / l = n * κ * (2 * X + e) := by rw [hκ]; ring
    linarith
  have h3 : omega * s / A i i + |1 - omega| * |z i| ≤ 4 * (n * κ * (X + e)) := by
    have h4 : omega * s / A i i ≤ 3 / 2 * (n * κ * (2 * X + e)) := by
      rw [mul_div_assoc]
      exact mul_le_mul ho1 h2 (by positivity) (by norm_num)
    have h5 : |1 - omega| * |z i| ≤ 1 / 2 * (X + e) := mul_le_mul ho2 (hzX i) (abs_nonneg _) (by norm_num)
    have h6 : X + e ≤ n * κ * (X + e) := le_mul_of_one_le_left (by linarith) hnκ
    have h7 : 0 ≤ n * κ * X := by positivity
    nlinarith
  have h4 : (1 + 1 / 2 ^ 53 : ℚ) ^ (n + 5) - 1 ≤ 6 * n / 2 ^ 52 := by linarith
  have h5 : ((1 + 1 / 2 ^ 53 : ℚ) ^ (n + 5) - 1) * (omega * s / A i i + |1 - omega| * |z i|) ≤
      6 * n / 2 ^ 52 * (4 * (n * κ * (X + e))) := by
    refine mul_le_mul h4 h3 ?_ (by positivity)
    have := abs_nonneg (1 - omega)
    positivity
  have h6 : (omega * (n * (2 + 1 / 2 ^ 53) + 1) + 1) / A i i ≤ 7 * n * 2 ^ 200 := by
    have h7 : omega * (n * (2 + 1 / 2 ^ 53) + 1) + 1 ≤ 7 * n := by
      have h8 : (n : ℚ) * (2 + 1 / 2 ^ 53) + 1 ≤ 4 * n := by linarith
      have := mul_le_mul ho1 h8 (by positivity) (by norm_num)
      linarith
    have h8 : 1 / A i i ≤ 2 ^ 200 := by
      refine (one_div_le_one_div_of_le (by positivity) (hl.trans (hdiag i))).trans ?_
      norm_num
    rw [div_eq_mul_one_div]
    exact mul_le_mul h7 h8 (by positivity) (by positivity)
  have h7 : (1 + 1 / 2 ^ 53 : ℚ) ^ (n + 4) * (1 / 2 ^ 1075) *
      ((omega * (n * (2 + 1 / 2 ^ 53) + 1) + 1) / A i i + |z i| + 3) ≤
      2 * (1 / 2 ^ 1075) * (7 * n * 2 ^ 200 + (X + e) + 3) := by
    refine mul_le_mul (mul_le_mul_of_nonneg_right q4 hη0) (by linarith [hzX i]) ?_ (by positivity)
    have := abs_nonneg (z i)
    positivity
  refine (add_le_add h5 h7).trans ?_
  exact slip_sizes hn1 hκ1 (by linarith) (by positivity) hη1 hη2

/-- The new value of an unknown with doubles: it is finite, and the rounding error is small against the numbers. -/
theorem row_slip64 {sqrt : Num binary64 → Num binary64} {L : Rows (Num binary64)} (hs : Sorted L) (hb : Bounded n L)
    (hA : ∀ i j : Fin n, (entry L i j).getD 0 = fin (A i j)) {l a X e : ℚ} (hn : (n : ℚ) ≤ 2 ^ 13) (hl : 1 / 2 ^ 200 ≤ l)
    (ha : a ≤ 2 ^ 200) (hent : ∀ i j, |A i j| ≤ a) (hdiag : ∀ i, l ≤ A i i) {b sol : Fin n → ℚ} (hsol : Solves A sol b)
    (hX : ∀ j, |sol j| ≤ X) (hX' : X ≤ 2 ^ 200) {omega : ℚ} (ho : omega = 1 ∨ omega = 3 / 2) (i : Fin n) (z : Fin n → ℚ)
    (hz : ∀ j, |z j - sol j| ≤ e) (he : e ≤ 2 ^ 216) :
    ∃ r, newValue (floats binary64 sqrt) L (fun i => fin (b i)) (fin omega) (fin (A i i)) (fun j => fin (z j)) i = fin r ∧
      |r - relaxed A b omega z i| ≤ n ^ 2 * (a / l) / 2 ^ 47 * (X + 1 / 2 ^ 800 + e) := by
  have hd : 0 < A i i := (lt_of_lt_of_le (by positivity) hl).trans_le (hdiag i)
  obtain ⟨h1, h2⟩ := slip_bounds64 hn hl ha hent hdiag hsol hX hX' ho i z hz he
  obtain ⟨r, hr⟩ := newValue_range rounds_binary64 c100_range hs hb hA (sqrt := sqrt) omega b z i hd.ne' h1
  exact ⟨r, hr, (newValue_error rounds_binary64 hs hb hA b z omega i hd.ne' r hr).trans h2⟩

/-- The energy of small errors. -/
theorem energy_le {a S : ℚ} (hA : ∀ i j, |A i j| ≤ a) (e : Fin n → ℚ) (he : ∀ i, |e i| ≤ S) : energy A e ≤ n ^ 2 * a * S ^ 2 := by
  have h1 : ∀ i j, e i * A i j * e j ≤ S * a * S := fun i j => by
    have hS : 0 ≤ S := (abs_nonneg _).trans (he i)
    have ha : 0 ≤ a := (abs_nonneg _).trans (hA i j)
    refine (le_abs_self _).trans ?_
    rw [abs_mul, abs_mul]
    exact mul_le_mul (mul_le_mul (he i) (hA i j) (abs_nonneg _) hS) (he j) (abs_nonneg _) (by positivity)
  unfold energy
  refine (Finset.sum_le_sum fun i _ => Finset.sum_le_sum fun j _ => h1 i j).trans (le_of_eq ?_)
  simp only [Finset.sum_const, Finset.card_univ, Fintype.card_fin, nsmul_eq_mul]
  ring

/-- The factors of the iteration. -/
theorem settle_sizes {N κ : ℚ} (hN : 1 ≤ N) (hκ : 1 ≤ κ) (hsize : N ^ 7 * κ ^ 4 ≤ 2 ^ 85) :
    32 * N * κ * (N ^ 2 * κ / 2 ^ 47) ^ 2 ≤ 3 ∧
      12 * N * κ * (N ^ 2 * κ / 2 ^ 47) ^ 2 ≤ 1 / (24 * N ^ 2 * κ) * (N ^ 7 * κ ^ 4 / 2 ^ 85) := by
  have hN0 : 0 < N := by linarith
  have hκ0 : 0 < κ := by linarith
  have h1 : N ^ 5 * κ ^ 3 ≤ N ^ 7 * κ ^ 4 :=
    mul_le_mul (pow_le_pow_right₀ hN (by norm_num)) (pow_le_pow_right₀ hκ (by norm_num)) (by positivity) (by positivity)
  constructor
  · have e : 32 * N * κ * (N ^ 2 * κ / 2 ^ 47) ^ 2 = N ^ 5 * κ ^ 3 * (32 / 2 ^ 94) := by ring
    rw [e]
    have h2 := mul_le_mul_of_nonneg_right (h1.trans hsize) (show (0 : ℚ) ≤ 32 / 2 ^ 94 by positivity)
    refine h2.trans ?_
    norm_num
  · have e1 : 12 * N * κ * (N ^ 2 * κ / 2 ^ 47) ^ 2 = N ^ 5 * κ ^ 3 * (12 / 2 ^ 94) := by ring
    have e2 : 1 / (24 * N ^ 2 * κ) * (N ^ 7 * κ ^ 4 / 2 ^ 85) = N ^ 5 * κ ^ 3 * (1 / (24 * 2 ^ 85)) := by
      field_simp
    rw [e1, e2]
    refine mul_le_mul_of_nonneg_left ?_ (by positivity)
    norm_num

/-- The relaxation factors. -/
theorem factor_cases (k : Method) : factor ℚ k = 1 ∨ factor ℚ k = 3 / 2 := by
  cases k
  · exact Or.inl rfl
  · exact Or.inl rfl
  · exact Or.inr rfl

/-- The bound on the size and the condition bounds the size. -/
theorem size_of (hn : 0 < n) {l a : ℚ} (hl0 : 0 < l) (hdef : Definiteness A l) (ha : ∀ i, A i i ≤ a)
    (hsize : (n : ℚ) ^ 7 * (a / l) ^ 4 ≤ 2 ^ 85) : (n : ℚ) ≤ 2 ^ 13 := by
  have hla : l ≤ a := (hdef.diag ⟨0, hn⟩).trans (ha _)
  have hκ1 : 1 ≤ a / l := by rw [le_div_iff₀ hl0]; linarith
  have e1 : (n : ℚ) ^ 7 ≤ 2 ^ 85 := (le_mul_of_one_le_right (by positivity) (one_le_pow₀ hκ1)).trans hsize
  have e2 : (n : ℚ) ^ 7 < (2 ^ 13) ^ 7 := e1.trans_lt (by norm_num)
  exact (lt_of_pow_lt_pow_left₀ 7 (by norm_num) e2).le

/-- The errors of iterations whose rounding errors are small.  `val` says which number a result stands for, `f` gives the new value
of an unknown, and `P j` says what is the iterate number `j`. -/
theorem definite_iterates {V : Type} (val : V → ℚ → Prop) (f : Fin n → (Fin n → V) → V) (P : Nat → (Fin n → V) → Prop)
    (hn : 0 < n) {l a X S : ℚ} (hl : 0 < l) (hdef : Definiteness A l) (hsym : ∀ i j, A i j = A j i) (ha : ∀ i, A i i ≤ a)
    (hsize : (n : ℚ) ^ 7 * (a / l) ^ 4 ≤ 2 ^ 85) {b sol : Fin n → ℚ} (hsol : Solves A sol b) {omega : ℚ}
    (ho : omega = 1 ∨ omega = 3 / 2) (hX : ∀ j, |sol j| ≤ X) (hX' : X ≤ 2 ^ 150)
    (hrow : ∀ (i : Fin n) (e : ℚ) (Z : Fin n → V) (z : Fin n → ℚ), (∀ j, val (Z j) (z j)) → (∀ j, |z j - sol j| ≤ e) →
      e ≤ 2 ^ 216 → ∃ r, val (f i Z) r ∧ |r - relaxed A b omega z i| ≤ n ^ 2 * (a / l) / 2 ^ 47 * (X + 1 / 2 ^ 800 + e))
    (hP : ∀ j Y, P j Y → ∃ v, P (j + 1) v ∧ ∀ i, v i = f i (fun j => if j < i then v j else Y j))
    (Y : Fin n → V) (x : Fin n → ℚ) (hY : ∀ j, val (Y j) (x j)) (hP0 : P 0 Y) (hx : ∀ j, |x j - sol j| ≤ S) (hS : S ≤ 2 ^ 150)
    (j : Nat) :
    ∃ (Z : Fin n → V) (z : Fin n → ℚ), P j Z ∧ (∀ i, val (Z i) (z i)) ∧
      ∀ i, (z i - sol i) ^ 2 ≤ (1 - l / (24 * n ^ 2 * a)) ^ j * (n ^ 2 * (a / l) * S ^ 2) +
        n ^ 7 * (a / l) ^ 4 / 2 ^ 85 * (X + 1 / 2 ^ 800) ^ 2 := by
  have hl0 := hl
  have hent := hdef.entry hl0 hsym ha
  have hdiag := hdef.diag
  have hd : ∀ i, A i i ≠ 0 := fun i => (hl0.trans_le (hdiag i)).ne'
  have hla : l ≤ a := (hdiag ⟨0, hn⟩).trans (ha _)
  have ha0 : 0 < a := hl0.trans_le hla
  have hX0 : 0 ≤ X := (abs_nonneg _).trans (hX ⟨0, hn⟩)
  have hS0 : 0 ≤ S := (abs_nonneg _).trans (hx ⟨0, hn⟩)
  have hn1 : (1 : ℚ) ≤ n := by exact_mod_cast hn
  obtain ⟨X', hX1⟩ : ∃ X', X' = X + 1 / 2 ^ 800 := ⟨_, rfl⟩
  have hX2 : 0 ≤ X' := by rw [hX1]; positivity
  have hX3 : X' ≤ 2 ^ 151 := by
    have e1 : (2 ^ 150 + 1 / 2 ^ 800 : ℚ) ≤ 2 ^ 151 := by decide +kernel
    rw [hX1]
    exact (add_le_add_left hX' _).trans e1
  obtain ⟨κ, hκ⟩ : ∃ κ, κ = a / l := ⟨_, rfl⟩
  have hκ1 : 1 ≤ κ := by rw [hκ, le_div_iff₀ hl0]; linarith
  have haκ : a = κ * l := by rw [hκ]; field_simp
  simp only [← hκ, ← hX1] at hrow
  rw [← hκ] at hsize
  rw [← hκ, ← hX1]
  obtain ⟨g1, g2⟩ := settle_sizes hn1 hκ1 hsize
  obtain ⟨ε, hε⟩ : ∃ ε, ε = n ^ 2 * κ / 2 ^ 47 := ⟨_, rfl⟩
  have hε0 : 0 ≤ ε := by rw [hε]; positivity
  rw [← hε] at g1 g2
  simp only [← hε] at hrow
  obtain ⟨Θ, hΘ⟩ : ∃ Θ, Θ = (n : ℚ) ^ 7 * κ ^ 4 / 2 ^ 85 := ⟨_, rfl⟩
  have hΘ0 : 0 ≤ Θ := by rw [hΘ]; positivity
  have hΘ1 : Θ ≤ 1 := by rw [hΘ, div_le_one (by positivity)]; exact hsize
  obtain ⟨γ, hγ⟩ : ∃ γ, γ = 1 / (24 * (n : ℚ) ^ 2 * κ) := ⟨_, rfl⟩
  have hγ0 : 0 ≤ γ := by rw [hγ]; positivity
  have hn2κ : 1 ≤ (n : ℚ) ^ 2 * κ := by
    have := one_le_pow₀ hn1 (n := 2)
    nlinarith
  have hγ1 : γ ≤ 1 := by
    rw [hγ, div_le_one (by positivity)]
    linarith
  have hγ' : l / (24 * n ^ 2 * a) = γ := by
    rw [hγ, haκ]
    field_simp
  have hγ'' : l / (12 * n ^ 2 * a) = 2 * γ := by
    rw [← hγ']
    field_simp
    norm_num
  rw [← hγ, ← hΘ] at g2
  rw [hγ', ← hΘ]
  obtain ⟨T, hT⟩ : ∃ T, T = l * X' ^ 2 := ⟨_, rfl⟩
  have hT0 : 0 ≤ T := by rw [hT]; positivity
  obtain ⟨E0, hE0⟩ : ∃ E0, E0 = energy A (fun i => x i - sol i) := ⟨_, rfl⟩
  have hE0n : 0 ≤ E0 := by rw [hE0]; exact hdef.nonneg hl0 _
  have hE0S : E0 ≤ l * (n ^ 2 * κ * S ^ 2) := by
    rw [hE0]
    refine (energy_le hent _ hx).trans (le_of_eq ?_)
    rw [haκ]
    ring
  have hbig : 2 * (E0 + 2 * T) ≤ l * (2 ^ 216) ^ 2 := by
    have e1 : (n : ℚ) ^ 2 * κ ≤ 2 ^ 85 := by
      refine le_trans ?_ hsize
      exact mul_le_mul (pow_le_pow_right₀ hn1 (by norm_num)) (by simpa using pow_le_pow_right₀ hκ1 (show 1 ≤ 4 by norm_num))
        (by linarith) (by positivity)
    have e2 : (n : ℚ) ^ 2 * κ * S ^ 2 ≤ 2 ^ 85 * (2 ^ 150) ^ 2 :=
      mul_le_mul e1 (pow_le_pow_left₀ hS0 hS 2) (by positivity) (by positivity)
    have e3 : X' ^ 2 ≤ (2 ^ 151) ^ 2 := pow_le_pow_left₀ hX2 hX3 2
    have e4 : 2 * (n ^ 2 * κ * S ^ 2 + 2 * X' ^ 2) ≤ ((2 ^ 216) ^ 2 : ℚ) := by
      have e5 : (2 * (2 ^ 85 * (2 ^ 150) ^ 2 + 2 * (2 ^ 151) ^ 2) : ℚ) ≤ (2 ^ 216) ^ 2 := by decide +kernel
      refine le_trans ?_ e5
      exact mul_le_mul_of_nonneg_left (add_le_add e2 (mul_le_mul_of_nonneg_left e3 (by norm_num))) (by norm_num)
    have e6 := mul_le_mul_of_nonneg_left e4 hl0.le
    refine le_trans ?_ e6
    rw [hT]
    linarith only [hE0S]
  have hR : (0 : ℚ) ≤ 2 ^ 216 := by positivity
  clear hX' hS hX3 hsize
  generalize (2 ^ 216 : ℚ) = R at hbig hrow hR
  have main : ∀ j, ∃ (Y : Fin n → V) (y : Fin n → ℚ), P j Y ∧ (∀ i, val (Y i) (y i)) ∧
      energy A (fun i => y i - sol i) ≤ (1 - γ) ^ j * E0 + Θ * T := by
    intro j
    induction j with
    | zero =>
      refine ⟨Y, x, hP0, hY, ?_⟩
      rw [← hE0, pow_zero, one_mul]
      exact le_add_of_nonneg_right (mul_nonneg hΘ0 hT0)
    | succ j ih =>
      obtain ⟨Y, y, e1, e3, e2⟩ := ih
      have hEn : 0 ≤ energy A (fun i => y i - sol i) := hdef.nonneg hl0 _
      have hE : energy A (fun i => y i - sol i) ≤ E0 + T := by
        refine e2.trans (add_le_add ?_ ?_)
        · exact mul_le_of_le_one_left hE0n (pow_le_one₀ (by linarith) (by linarith))
        · exact mul_le_of_le_one_left hT0 hΘ1
      obtain ⟨v, f1, f3⟩ := hP j Y e1
      obtain ⟨z, z1, z2⟩ := sweep_definite val f hn hdef hl0 hsym ha ho hsol hX2 hR hε0 hrow (by rw [← hκ]; exact g1) Y y e3
        (by rw [← hT]; linarith only [hE, hbig]) v f3
      refine ⟨v, z, f1, z1, z2.trans ?_⟩
      · rw [← hT, ← hκ, hγ'']
        generalize energy A (fun i => y i - sol i) = E at *
        have k1 := mul_le_mul_of_nonneg_right g2 (show 0 ≤ E + T by linarith)
        have k2 : γ * Θ * E ≤ γ * E := by
          rw [mul_assoc]
          exact mul_le_mul_of_nonneg_left (mul_le_of_le_one_left hEn hΘ1) hγ0
        have k3 := mul_le_mul_of_nonneg_left e2 (show 0 ≤ 1 - γ by linarith)
        rw [pow_succ (1 - γ) j]
        generalize (1 - γ) ^ j = p at *
        generalize 12 * (n : ℚ) * κ * ε ^ 2 = c at *
        linarith only [k1, k2, k3]
  obtain ⟨Z, y, e1, e3, e2⟩ := main j
  refine ⟨Z, y, e1, e3, fun i => ?_⟩
  have c1 := hdef.component hl0 (fun i => y i - sol i) i
  rw [le_div_iff₀ hl0] at c1
  have c2 := mul_le_mul_of_nonneg_left hE0S (pow_nonneg (show 0 ≤ 1 - γ by linarith) j)
  refine le_of_mul_le_mul_left ?_ hl0
  rw [hT] at e2
  linarith

/-- C214: Gauss Seidel and successive over relaxation with doubles on a symmetric positive definite system.  None of the iterates
overflows, and their distance to the solution shrinks to a multiple of the rounding error. -/
theorem c214_definite (sqrt : Num binary64 → Num binary64) (k : Method) (hk : k ≠ .jacobi) (s : FixedPoint (Num binary64))
    {n : Nat} (hn : 0 < n) (m : Sparse (Num binary64)) (A : Fin n → Fin n → ℚ)
    (hm : Square m fun i j => (fin (A i j) : Num binary64)) {l a X S : ℚ} (hl : 1 / 2 ^ 200 ≤ l) (ha' : a ≤ 2 ^ 200)
    (hco : ∀ v : Fin n → ℚ, l * ∑ i, v i ^ 2 ≤ ∑ i, ∑ j, v i * A i j * v j) (hsym : ∀ i j, A i j = A j i)
    (ha : ∀ i, A i i ≤ a) (hsize : (n : ℚ) ^ 7 * (a / l) ^ 4 ≤ 2 ^ 85) (b sol : Fin n → ℚ) (hsol : Solves A sol b)
    (hX : ∀ j, |sol j| ≤ X) (hX' : X ≤ 2 ^ 150) (x : Fin n → ℚ) (hx : ∀ j, |x j - sol j| ≤ S) (hS : S ≤ 2 ^ 150)
    (w : List (Num binary64)) (j : Nat) :
    ∃ (y : Fin n → ℚ) (w' : List (Num binary64)),
      times (step (floats binary64 sqrt) k s m (vec fun i => fin (b i))) j (vec fun i => fin (x i), w) =
        .ok (vec fun i => fin (y i), w') ∧
      ∀ i, (y i - sol i) ^ 2 ≤ (1 - l / (24 * n ^ 2 * a)) ^ j * (n ^ 2 * (a / l) * S ^ 2) +
        n ^ 7 * (a / l) ^ 4 / 2 ^ 85 * (X + 1 / 2 ^ 800) ^ 2 := by
  obtain ⟨L, h1, h2, h3, h4, h5⟩ := square_rep hm
  have hdef : Definiteness A l := hco
  have hl0 : 0 < l := lt_of_lt_of_le (by positivity) hl
  have hd : ∀ i, A i i ≠ 0 := fun i => (hl0.trans_le (hdef.diag i)).ne'
  have ho := factor_cases k
  have ho' : (if k = .sor then (floats binary64 sqrt).threeHalves else (floats binary64 sqrt).one) = fin (factor ℚ k) := by
    cases k <;> rfl
  obtain ⟨Z, z, ⟨w', e1⟩, e2, e3⟩ := definite_iterates (fun v q => v = (fin q : Num binary64))
    (fun i Z => newValue (floats binary64 sqrt) L (fun i => fin (b i)) (fin (factor ℚ k)) (fin (A i i)) Z i)
    (fun j Y => ∃ w', times (step (floats binary64 sqrt) k s m (vec fun i => fin (b i))) j (vec fun i => fin (x i), w) = .ok (vec Y, w'))
    hn hl0 hdef hsym ha hsize hsol ho hX hX' (fun i e Z z hZ hz he => by
      obtain rfl : Z = fun j => fin (z j) := funext hZ
      exact row_slip64 h2 h3 h5 (size_of hn hl0 hdef ha hsize) hl ha' (hdef.entry hl0 hsym ha) hdef.diag hsol hX
        (hX'.trans (pow_le_pow_right₀ (by norm_num) (by norm_num))) ho i z hz he)
    (fun j Y hj => by
      obtain ⟨w', e1⟩ := hj
      obtain ⟨v, w'', f1, f2, f3⟩ := step_gen (floats binary64 sqrt) k s h1 h3 h4 (fun i => fin (A i i))
        (fun i => diag_entry h5 i (hd i)) (fun i => fin (b i)) Y w' (fun h => absurd h hk)
      simp only [ho', ne_eq, hk, not_false_eq_true, true_and] at f3
      exact ⟨v, ⟨w'', by rw [times_succ_right, e1, Out.ok_bind, f1]⟩, f3⟩)
    (fun i => fin (x i)) x (fun _ => rfl) ⟨w, rfl⟩ hx hS j
  obtain rfl : Z = fun i => fin (z i) := funext e2
  exact ⟨z, w', e1, e3⟩

/-- C214: in the end the error is of the size of the rounding errors. -/
theorem c214_settles (sqrt : Num binary64 → Num binary64) (k : Method) (hk : k ≠ .jacobi) (s : FixedPoint (Num binary64))
    {n : Nat} (hn : 0 < n) (m : Sparse (Num binary64)) (A : Fin n → Fin n → ℚ)
    (hm : Square m fun i j => (fin (A i j) : Num binary64)) {l a X S : ℚ} (hl : 1 / 2 ^ 200 ≤ l) (ha' : a ≤ 2 ^ 200)
    (hco : ∀ v : Fin n → ℚ, l * ∑ i, v i ^ 2 ≤ ∑ i, ∑ j, v i * A i j * v j) (hsym : ∀ i j, A i j = A j i)
    (ha : ∀ i, A i i ≤ a) (hsize : (n : ℚ) ^ 7 * (a / l) ^ 4 ≤ 2 ^ 85) (b sol : Fin n → ℚ) (hsol : Solves A sol b)
    (hX : ∀ j, |sol j| ≤ X) (hX' : X ≤ 2 ^ 150) (x : Fin n → ℚ) (hx : ∀ j, |x j - sol j| ≤ S) (hS : S ≤ 2 ^ 150)
    (w : List (Num binary64)) :
    ∃ J, ∀ j, J ≤ j → ∃ (y : Fin n → ℚ) (w' : List (Num binary64)),
      times (step (floats binary64 sqrt) k s m (vec fun i => fin (b i))) j (vec fun i => fin (x i), w) =
        .ok (vec fun i => fin (y i), w') ∧
      ∀ i, (y i - sol i) ^ 2 ≤ n ^ 7 * (a / l) ^ 4 / 2 ^ 84 * (X + 1 / 2 ^ 800) ^ 2 := by
  have hl0 : 0 < l := lt_of_lt_of_le (by positivity) hl
  have hdef : Definiteness A l := hco
  have hla : l ≤ a := (hdef.diag ⟨0, hn⟩).trans (ha _)
  have ha0 : 0 < a := hl0.trans_le hla
  have hX0 : 0 ≤ X := (abs_nonneg _).trans (hX ⟨0, hn⟩)
  have hn1 : (1 : ℚ) ≤ n := by exact_mod_cast hn
  have hq1 : 1 - l / (24 * n ^ 2 * a) < 1 := by
    have : 0 < l / (24 * (n : ℚ) ^ 2 * a) := by positivity
    linarith
  have hq0 : 0 ≤ 1 - l / (24 * (n : ℚ) ^ 2 * a) := by
    rw [sub_nonneg, div_le_one (by positivity)]
    have h2 : (1 : ℚ) ≤ n ^ 2 := one_le_pow₀ hn1
    nlinarith
  obtain ⟨D, hD⟩ : ∃ D, D = n ^ 7 * (a / l) ^ 4 / 2 ^ 85 * (X + 1 / 2 ^ 800) ^ 2 := ⟨_, rfl⟩
  have hD0 : 0 < D := by rw [hD]; positivity
  have hD2 : n ^ 7 * (a / l) ^ 4 / 2 ^ 84 * (X + 1 / 2 ^ 800) ^ 2 = D + D := by
    rw [hD]
    ring
  obtain ⟨G, hG⟩ : ∃ G, G = n ^ 2 * (a / l) * S ^ 2 := ⟨_, rfl⟩
  have hG0 : 0 ≤ G := by rw [hG]; positivity
  obtain ⟨J, hJ⟩ := exists_pow_lt_of_lt_one (show 0 < D / (G + 1) by positivity) hq1
  refine ⟨J, fun j hj => ?_⟩
  obtain ⟨y, w', e1, e2⟩ := c214_definite sqrt k hk s hn m A hm hl ha' hco hsym ha hsize b sol hsol hX hX' x hx hS w j
  refine ⟨y, w', e1, fun i => (e2 i).trans ?_⟩
  rw [hD2, ← hG, ← hD]
  rw [lt_div_iff₀ (by positivity)] at hJ
  have h3 := mul_le_mul_of_nonneg_right (pow_le_pow_of_le_one hq0 hq1.le hj) hG0
  have h4 : 0 ≤ (1 - l / (24 * (n : ℚ) ^ 2 * a)) ^ J := pow_nonneg hq0 J
  have h5 := mul_le_mul_of_nonneg_left (show G ≤ G + 1 by linarith) h4
  linarith

/-- The hypotheses hold for doubles: a system with two unknowns that is not dominant and whose solution has to be rounded. -/
example (sqrt : Num binary64 → Num binary64) (s : FixedPoint (Num binary64)) (j : Nat) :
    ∃ (y : Fin 2 → ℚ) (w' : List (Num binary64)),
      times (Iterative.step (floats binary64 sqrt) .sor s (dense2 (fin 2) (fin 3) (fin 3) (fin 6))
        (vec fun _ : Fin 2 => fin 1)) j (vec fun _ : Fin 2 => fin 0, []) = .ok (vec fun i => fin (y i), w') ∧
      ∀ i, (y i - ![1, -1 / 3] i) ^ 2 ≤ (1 - 1 / 3 / (24 * (2 : ℕ) ^ 2 * 6)) ^ j * ((2 : ℕ) ^ 2 * (6 / (1 / 3)) * 1 ^ 2) +
        (2 : ℕ) ^ 7 * (6 / (1 / 3)) ^ 4 / 2 ^ 85 * (1 + 1 / 2 ^ 800) ^ 2 := by
  have hm : Square (dense2 (fin 2) (fin 3) (fin 3) (fin 6) : Sparse (Num binary64))
      fun i j => fin ((![![2, 3], ![3, 6]] : Fin 2 → Fin 2 → ℚ) i j) := by
    refine ⟨Built.ofLists (nz := [0, 2, 4]) (ix := [0, 1, 0, 1]) (vs := [fin 2, fin 3, fin 3, fin 6]) (c := 2)
      (by simp [sizeMax]) (by simp [sizeMax]) (dense2_lists _ _ _ _), rfl, rfl, ?_⟩
    intro i j
    fin_cases i <;> fin_cases j <;> rfl
  refine c214_definite sqrt .sor (by simp) s (by norm_num) _ _ hm (l := 1 / 3) (a := 6) (X := 1) (S := 1) (by decide +kernel)
    (by decide +kernel) ?_ (by decide +kernel) (by decide +kernel) (by decide +kernel) (fun _ => 1) ![1, -1 / 3]
    (by unfold Solves; decide +kernel) (by decide +kernel) (by decide +kernel) (fun _ => 0) (by decide +kernel)
    (by decide +kernel) [] j
  intro v
  simp only [Fin.sum_univ_two, Matrix.cons_val_zero, Matrix.cons_val_one]
  nlinarith [sq_nonneg (5 * v 0 + 9 * v 1), sq_nonneg (v 1)]

end Disa.Props
