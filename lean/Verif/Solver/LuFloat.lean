import Verif.Solver.LuProof
import Verif.Scalar.Float
import Mathlib.Algebra.Order.BigOperators.Group.Finset
import Mathlib.Tactic.GCongr

/-!
# The direct solver with rounded arithmetic
-/

namespace Disa.Lu

open Disa Spec Dense Num

variable {rnd : ℚ → Fl} {u η : ℚ}

/-! ### The errors of single operations -/

/-- The factor by which the error of an operation grows if it is measured by the result. -/
def gain (u : ℚ) : ℚ := 1 / (1 - u)

theorem gain_spec (h0 : 0 ≤ u) (h1 : u < 1) : 1 ≤ gain u ∧ 1 + u ≤ gain u ∧ u * gain u = gain u - 1 := by
  have hp : 0 < 1 - u := by linarith
  have e : gain u * (1 - u) = 1 := by unfold gain; field_simp
  have hpos : 0 < gain u := by unfold gain; positivity
  refine ⟨?_, ?_, by linarith⟩
  · nlinarith
  · nlinarith

theorem back_error (h : Rounds rnd u η) (h1 : u < 1) {q r : ℚ} (hr : rnd q = .fin r) :
    |q - r| ≤ (gain u - 1) * |r| + gain u * η ∧ |q| ≤ gain u * (|r| + η) := by
  obtain ⟨g1, g2, g3⟩ := gain_spec h.u_nonneg h1
  have e := h.error _ _ hr
  have hη := h.η_nonneg
  have e1 : |q| ≤ |r| + (u * |q| + η) := by
    have := abs_sub_abs_le_abs_sub q r
    rw [abs_sub_comm] at this
    linarith
  have e2 : |q| ≤ gain u * (|r| + η) := by
    have := mul_le_mul_of_nonneg_left e1 (show 0 ≤ gain u by linarith)
    have e3 : gain u * (|r| + (u * |q| + η)) = gain u * (|r| + η) + (u * gain u) * |q| := by ring
    rw [e3, g3] at this
    linarith
  refine ⟨?_, e2⟩
  rw [abs_sub_comm]
  have := mul_le_mul_of_nonneg_left e2 h.u_nonneg
  have e4 : u * (gain u * (|r| + η)) = (gain u - 1) * (|r| + η) := by rw [← g3]; ring
  rw [e4] at this
  linarith

/-- One step `r = s - a b`, for a value `v` that should be `S + s`. -/
theorem chain_error (h : Rounds rnd u η) (h1 : u < 1) {s a b p r v S T H : ℚ} (k : Nat) (hp : rnd (a * b) = .fin p)
    (hr : rnd (s - p) = .fin r) (he : |v - S - s| ≤ (gain u ^ k - 1) * (T + |s|) + H) (hT : 0 ≤ T) :
    |v - (S + a * b) - r| ≤ (gain u ^ (k + 1) - 1) * (T + |a * b| + |r|) + (H + gain u ^ k * ((1 + gain u) * η)) := by
  obtain ⟨g1, g2, g3⟩ := gain_spec h.u_nonneg h1
  have hη := h.η_nonneg
  have hu := h.u_nonneg
  obtain ⟨e1, e2⟩ := back_error h h1 hr
  have e3 := h.error _ _ hp
  have e4 : |v - (S + a * b) - r| ≤ |v - S - s| + |s - p - r| + |p - a * b| := by
    rw [show v - (S + a * b) - r = (v - S - s) + (s - p - r) + (p - a * b) by ring]
    exact (abs_add_le _ _).trans (add_le_add (abs_add_le _ _) le_rfl)
  have e5 : |s| ≤ |s - p| + (|a * b| + |p - a * b|) := by
    have h2 : |s| ≤ |s - p| + |p| := by
      rw [show s = (s - p) + p by ring]
      simpa using abs_add_le (s - p) p
    have h3 : |p| ≤ |a * b| + |p - a * b| := by
      conv_lhs => rw [show p = a * b + (p - a * b) by ring]
      exact abs_add_le _ _
    linarith
  have e6 : |s| ≤ gain u * (|r| + η) + ((1 + u) * |a * b| + η) := by linarith
  have hG : 1 ≤ gain u ^ k := one_le_pow₀ g1
  have e7 : (gain u ^ k - 1) * (T + |s|) ≤ (gain u ^ k - 1) * (T + (gain u * (|r| + η) + ((1 + u) * |a * b| + η))) :=
    mul_le_mul_of_nonneg_left (by linarith) (by linarith)
  have hab := abs_nonneg (a * b)
  have e8 : gain u ^ k * ((1 + u) * |a * b|) ≤ gain u ^ k * (gain u * |a * b|) := by gcongr
  have e9 : gain u ^ k * T ≤ gain u ^ (k + 1) * T := by
    rw [pow_succ]
    have : gain u ^ k * T * 1 ≤ gain u ^ k * T * gain u := by gcongr
    linarith
  have e10 : gain u ^ (k + 1) = gain u ^ k * gain u := pow_succ _ _
  rw [e10] at e9 ⊢
  nlinarith

/-- A step `r = s / d`. -/
theorem quot_error (h : Rounds rnd u η) (h1 : u < 1) {s d r v S T H : ℚ} (k : Nat) (hd : d ≠ 0)
    (hr : rnd (s / d) = .fin r) (he : |v - S - s| ≤ (gain u ^ k - 1) * (T + |s|) + H) (hT : 0 ≤ T) :
    |v - (S + r * d)| ≤ (gain u ^ (k + 1) - 1) * (T + |r * d|) + (H + gain u ^ (k + 1) * (η * |d|)) := by
  obtain ⟨g1, g2, g3⟩ := gain_spec h.u_nonneg h1
  obtain ⟨e1, e2⟩ := back_error h h1 hr
  have hdp : 0 < |d| := abs_pos.mpr hd
  have e3 : |s - r * d| ≤ (gain u - 1) * |r * d| + gain u * (η * |d|) := by
    have := mul_le_mul_of_nonneg_right e1 hdp.le
    rw [← abs_mul, show (s / d - r) * d = s - r * d by field_simp] at this
    rw [abs_mul]
    linarith
  have e4 : |s| ≤ gain u * (|r * d| + η * |d|) := by
    have := mul_le_mul_of_nonneg_right e2 hdp.le
    rw [← abs_mul, show s / d * d = s by field_simp] at this
    rw [abs_mul]
    linarith
  have e5 : |v - (S + r * d)| ≤ |v - S - s| + |s - r * d| := by
    rw [show v - (S + r * d) = (v - S - s) + (s - r * d) by ring]
    exact abs_add_le _ _
  have hG : 1 ≤ gain u ^ k := one_le_pow₀ g1
  have e6 : (gain u ^ k - 1) * (T + |s|) ≤ (gain u ^ k - 1) * (T + gain u * (|r * d| + η * |d|)) :=
    mul_le_mul_of_nonneg_left (by linarith) (by linarith)
  have e9 : gain u ^ k * T ≤ gain u ^ (k + 1) * T := by
    rw [pow_succ]
    have : gain u ^ k * T * 1 ≤ gain u ^ k * T * gain u := by gcongr
    linarith
  have e10 : gain u ^ (k + 1) = gain u ^ k * gain u := pow_succ _ _
  rw [e10] at e9 ⊢
  nlinarith

/-- Bound of the absolute errors of `n` steps. -/
def small (u η : ℚ) (n : Nat) : ℚ := n * gain u ^ n * ((1 + gain u) * η)

theorem small_succ (h0 : 0 ≤ u) (h1 : u < 1) (hη : 0 ≤ η) (n : Nat) :
    small u η n + gain u ^ n * ((1 + gain u) * η) ≤ small u η (n + 1) := by
  obtain ⟨g1, -, -⟩ := gain_spec h0 h1
  unfold small
  push_cast
  have hz : 0 ≤ (1 + gain u) * η := mul_nonneg (by linarith) hη
  have : gain u ^ n ≤ gain u ^ (n + 1) := pow_le_pow_right₀ g1 (Nat.le_succ n)
  have h2 : (n + 1 : ℚ) * gain u ^ n * ((1 + gain u) * η) ≤ (n + 1 : ℚ) * gain u ^ (n + 1) * ((1 + gain u) * η) := by gcongr
  linarith

theorem small_nonneg (h0 : 0 ≤ u) (h1 : u < 1) (hη : 0 ≤ η) (n : Nat) : 0 ≤ small u η n := by
  obtain ⟨g1, -, -⟩ := gain_spec h0 h1
  unfold small
  positivity

theorem small_mono (h0 : 0 ≤ u) (h1 : u < 1) (hη : 0 ≤ η) {m n : Nat} (h : m ≤ n) : small u η m ≤ small u η n := by
  obtain ⟨g1, -, -⟩ := gain_spec h0 h1
  unfold small
  have : gain u ^ m ≤ gain u ^ n := pow_le_pow_right₀ g1 h
  have : (m : ℚ) ≤ n := by exact_mod_cast h
  gcongr

/-! ### The loops that subtract -/

theorem psum_nonneg {n : Nat} {f : Fin n → ℚ} (hf : ∀ c, 0 ≤ f c) (a m : Nat) : 0 ≤ psum f a m := by
  unfold psum
  refine Finset.sum_nonneg fun c _ => ?_
  split
  · exact hf c
  · exact le_rfl

theorem less_error (h : Rounds rnd u η) (h1 : u < 1) {n : Nat} (v : Num rnd) (f g : Fin n → Num rnd) (a m : Nat) :
    a + m ≤ n → ∀ r, less v (fun c => f c * g c) a m = fin r →
    v = fin (Num.val v) ∧
    (∀ c : Fin n, a ≤ c.1 → c.1 < a + m → f c = fin (Num.val (f c)) ∧ g c = fin (Num.val (g c))) ∧
    |Num.val v - psum (fun c => Num.val (f c) * Num.val (g c)) a m - r| ≤
      (gain u ^ m - 1) * (psum (fun c => |Num.val (f c) * Num.val (g c)|) a m + |r|) + small u η m := by
  induction m with
  | zero =>
    intro _ r hr
    have hv : v = fin r := hr
    subst hv
    refine ⟨rfl, fun c h1 h2 => by omega, ?_⟩
    simp [psum_zero, Num.val_fin, small]
  | succ m ih =>
    intro hm r hr
    have hlt : a + m < n := by omega
    unfold less at hr
    rw [dif_pos hlt] at hr
    obtain ⟨s, p, e1, e2, e3⟩ := sub_fin hr
    obtain ⟨x, y, e4, e5, e6⟩ := mul_fin e2
    obtain ⟨i1, i2, i3⟩ := ih (by omega) s e1
    refine ⟨i1, ?_, ?_⟩
    · intro c h2 h3
      by_cases hc : c = ⟨a + m, hlt⟩
      · subst hc
        rw [e4, e5]
        exact ⟨rfl, rfl⟩
      · have : c.1 ≠ a + m := fun h => hc (Fin.ext h)
        exact i2 c h2 (by omega)
    · rw [psum_succ _ _ _ hlt, psum_succ _ _ _ hlt, e4, e5]
      simp only [Num.val_fin]
      refine (chain_error h h1 m e6 e3 i3 (psum_nonneg (fun c => abs_nonneg _) _ _)).trans ?_
      have := small_succ h.u_nonneg h1 h.η_nonneg m
      linarith

/-! ### The product of the factors -/

/-- The product of the factors after `i` steps. -/
def prod {n : Nat} (M : Fin n → Fin n → ℚ) (i : Nat) (r c : Fin n) : ℚ := ∑ k, lower M i r k * upper M i k c

theorem prod_nonneg {n : Nat} {M : Fin n → Fin n → ℚ} (h : ∀ r c, 0 ≤ M r c) (i : Nat) (r c : Fin n) : 0 ≤ prod M i r c := by
  unfold prod
  refine Finset.sum_nonneg fun k _ => mul_nonneg ?_ ?_
  · unfold lower
    split
    · norm_num
    · split
      · exact h _ _
      · exact le_rfl
  · unfold upper
    split
    · exact le_rfl
    · exact h _ _

/-- What the product is after step `i`, which changes the rows below from column `i` on. -/
theorem prod_elim {n : Nat} {M M' : Fin n → Fin n → ℚ} {i : Fin n}
    (h : ∀ r c : Fin n, (r ≤ i ∨ c < i) → M' r c = M r c) (r c : Fin n) :
    prod M' (i.1 + 1) r c = prod M i.1 r c +
      if i < r ∧ i ≤ c then M' r i * M i c + (if i < c then M' r c else 0) - M r c else 0 := by
  have hup : ∀ k c, upper M' (i.1 + 1) k c =
      upper M i.1 k c + (if i < k ∧ i ≤ c then (if i < c then M' k c else 0) - M k c else 0) := by
    intro k c
    by_cases hk : i < k
    · have hk' : i.1 < k.1 := hk
      unfold upper
      rw [show min k.1 i.1 = i.1 by omega, show min k.1 (i.1 + 1) = i.1 + 1 by omega]
      by_cases hc : i ≤ c
      · have hc' : i.1 ≤ c.1 := hc
        by_cases hc2 : i < c
        · have h2 : i.1 < c.1 := hc2
          simp [hk, hc, hc2, show ¬ c.1 < i.1 + 1 by omega, show ¬ c.1 < i.1 by omega]
        · have h2 : ¬ i.1 < c.1 := hc2
          simp [hk, hc, hc2, show c.1 < i.1 + 1 by omega, show ¬ c.1 < i.1 by omega]
      · have hc' : ¬ i.1 ≤ c.1 := hc
        simp [hc, show c.1 < i.1 + 1 by omega, show c.1 < i.1 by omega]
    · have hk' : k.1 ≤ i.1 := by
        have : ¬ i.1 < k.1 := hk
        omega
      unfold upper
      rw [show min k.1 i.1 = k.1 by omega, show min k.1 (i.1 + 1) = k.1 by omega, h k c (.inl hk')]
      simp [hk]
  have hlo : ∀ r k, lower M' (i.1 + 1) r k = lower M i.1 r k + (if k = i ∧ i < r then M' r i else 0) := by
    intro r k
    unfold lower
    by_cases hrk : r = k
    · subst hrk
      by_cases hri : r = i
      · subst hri; simp
      · simp [hri]
    · rw [if_neg hrk, if_neg hrk]
      by_cases hki : k = i
      · subst hki
        by_cases hr : k < r
        · simp [hr]
        · simp [hr]
      · have hki' : k.1 ≠ i.1 := fun h => hki (Fin.ext h)
        have h1 : k.1 < i.1 + 1 ↔ k.1 < i.1 := by omega
        simp only [hki, false_and, if_false, add_zero, h1]
        split
        · rename_i hk
          exact h r k (.inr hk.1)
        · rfl
  unfold prod
  have e1 : ∀ k, lower M' (i.1 + 1) r k * upper M' (i.1 + 1) k c = lower M i.1 r k * upper M i.1 k c +
      (if k = r then (if i < r ∧ i ≤ c then (if i < c then M' r c else 0) - M r c else 0) else 0) +
      (if k = i then (if i < r ∧ i ≤ c then M' r i * M i c else 0) else 0) := by
    intro k
    rw [hup, hlo]
    by_cases hki : k = i
    · subst hki
      have hrk : k < r → k ≠ r := fun h h' => by subst h'; exact lt_irrefl _ h
      have hu : upper M k.1 k c = if c < k then 0 else M k c := by
        unfold upper
        rw [Nat.min_self]
        rfl
      by_cases hr : k < r
      · by_cases hc : k ≤ c
        · have hc' : ¬ c < k := not_lt.mpr hc
          simp [hr, hrk hr, hu, hc, hc']
          ring
        · have hc' : c < k := not_le.mp hc
          simp [hr, hrk hr, hu, hc, hc']
      · simp [hr]
    · simp only [hki, false_and, if_false, add_zero]
      by_cases hk : i < k
      · have hk' : ¬ k.1 < i.1 := by have : i.1 < k.1 := hk; omega
        by_cases hrk : k = r
        · subst hrk
          simp [lower, hk]
        · have : r ≠ k := fun h => hrk h.symm
          simp [lower, hk', hrk, this]
      · by_cases hrk : k = r
        · subst hrk; simp [hk]
        · simp [hk, hrk]
  simp only [e1, Finset.sum_add_distrib, Finset.sum_ite_eq', Finset.mem_univ, if_true]
  by_cases hr : i < r ∧ i ≤ c
  · simp only [hr, and_self, if_true]
    ring
  · simp only [hr, if_false, add_zero]

/-- Swapping rows swaps those of the product. -/
theorem prod_swap {n : Nat} (M : Fin n → Fin n → ℚ) {i m : Fin n} (hm : i ≤ m) (r c : Fin n) :
    prod (fun r => M (Equiv.swap i m r)) i r c = prod M i (Equiv.swap i m r) c := by
  have h : Factors (prod M i) 1 M i := fun r c => rfl
  have := factors_swap h hm r c
  exact this.symm

theorem le_prod {n : Nat} {M : Fin n → Fin n → ℚ} (h : ∀ r c, 0 ≤ M r c) {i : Nat} {r c : Fin n} (hc : i ≤ c.1) :
    M r c ≤ prod M i r c := by
  have hnn : ∀ k ∈ Finset.univ, 0 ≤ lower M i r k * upper M i k c := by
    intro k _
    refine mul_nonneg ?_ ?_
    · unfold lower
      split
      · norm_num
      · split
        · exact h _ _
        · exact le_rfl
    · unfold upper
      split
      · exact le_rfl
      · exact h _ _
  have := Finset.single_le_sum hnn (Finset.mem_univ r)
  refine le_trans (le_of_eq ?_) this
  have : ¬ c.1 < min r.1 i := by omega
  simp [lower, upper, this]

/-! ### Invariant of the factorisation -/

/-- All elements are finite. -/
def Finite {n : Nat} (M : Fin n → Fin n → Num rnd) : Prop := ∀ r c, M r c = fin (Num.val (M r c))

/-- The values of the elements. -/
def vals {n : Nat} (M : Fin n → Fin n → Num rnd) (r c : Fin n) : ℚ := Num.val (M r c)

/-- The absolute values of the elements. -/
def sizes {n : Nat} (M : Fin n → Fin n → Num rnd) (r c : Fin n) : ℚ := |Num.val (M r c)|

theorem sizes_nonneg {n : Nat} (M : Fin n → Fin n → Num rnd) (r c : Fin n) : 0 ≤ sizes M r c := abs_nonneg _

/-- The factors after `i` steps are near to the matrix with permuted rows, unless there was an overflow. -/
def Close (u η : ℚ) {n : Nat} (A : Fin n → Fin n → Num rnd) (p : Equiv.Perm (Fin n)) (M : Fin n → Fin n → Num rnd) (i : Nat) :
    Prop :=
  Finite M → Finite A ∧ ∀ r c, |Num.val (A (p r) c) - prod (vals M) i r c| ≤
    (gain u ^ i - 1) * prod (sizes M) i r c + small u η i * (1 + if c.1 < i then sizes M c c else 0)

theorem close_zero {n : Nat} (A : Fin n → Fin n → Num rnd) : Close u η A 1 A 0 := by
  intro hA
  refine ⟨hA, fun r c => ?_⟩
  have : prod (vals A) 0 r c = Num.val (A r c) := by
    unfold prod
    simp [lower, upper, vals]
  simp [this, small]

theorem close_swap {n : Nat} {A : Fin n → Fin n → Num rnd} {p : Equiv.Perm (Fin n)} {M : Fin n → Fin n → Num rnd} {i m : Fin n}
    (h : Close u η A p M i) (hm : i ≤ m) :
    Close u η A ((Equiv.swap i m).trans p) (fun r => M (Equiv.swap i m r)) i := by
  intro hf
  have hM : Finite M := by
    intro r c
    have := hf (Equiv.swap i m r) c
    simpa using this
  obtain ⟨h1, h2⟩ := h hM
  refine ⟨h1, fun r c => ?_⟩
  have e1 : prod (vals fun r => M (Equiv.swap i m r)) i r c = prod (vals M) i (Equiv.swap i m r) c := prod_swap (vals M) hm r c
  have e2 : prod (sizes fun r => M (Equiv.swap i m r)) i r c = prod (sizes M) i (Equiv.swap i m r) c := prod_swap (sizes M) hm r c
  rw [e1, e2, Equiv.trans_apply]
  refine (h2 (Equiv.swap i m r) c).trans (le_of_eq ?_)
  congr 3
  by_cases hc : c.1 < i.1
  · have : Equiv.swap i m c = c := by
      apply Equiv.swap_apply_of_ne_of_ne
      · rintro rfl; omega
      · rintro rfl; have : i.1 ≤ c.1 := hm; omega
    rw [if_pos hc, if_pos hc]
    simp only [sizes, this]
  · rw [if_neg hc, if_neg hc]

theorem elim_same {n : Nat} (M : Fin n → Fin n → Num rnd) {i r c : Fin n} (h : r ≤ i ∨ c < i) : elim M i r c = M r c := by
  unfold elim
  rcases h with h | h
  · rw [if_neg (not_lt.mpr h)]
  · split
    · rw [if_neg (ne_of_lt h), if_neg (not_lt.mpr h.le)]
    · rfl

theorem close_elim (h : Rounds rnd u η) (h1 : u < 1) {n : Nat} {A : Fin n → Fin n → Num rnd} {p : Equiv.Perm (Fin n)}
    {M : Fin n → Fin n → Num rnd} {i : Fin n} (hc : Close u η A p M i)
    (hd : M i i = fin (Num.val (M i i)) → Num.val (M i i) ≠ 0) : Close u η A p (elim M i) (i.1 + 1) := by
  intro hf
  have hu := h.u_nonneg
  have hη := h.η_nonneg
  obtain ⟨g1, -, -⟩ := gain_spec hu h1
  have hdf : M i i = fin (Num.val (M i i)) := by
    have := hf i i
    rwa [elim_same M (.inl le_rfl)] at this
  have hd0 := hd hdf
  -- the steps for the multipliers and the other elements
  have hquot : ∀ r, i < r → M r i = fin (Num.val (M r i)) ∧
      rnd (Num.val (M r i) / Num.val (M i i)) = .fin (Num.val (elim M i r i)) := by
    intro r hr
    have e : M r i / fin (Num.val (M i i)) = fin (Num.val (elim M i r i)) := by
      rw [← hf r i, ← hdf]
      simp [elim, hr]
    obtain ⟨x, e1, e2⟩ := div_fin hd0 e
    rw [e1]
    exact ⟨rfl, e2⟩
  have hchain : ∀ r c, i < r → i < c → M r c = fin (Num.val (M r c)) ∧
      ∃ q, rnd (Num.val (elim M i r i) * Num.val (M i c)) = .fin q ∧
        rnd (Num.val (M r c) - q) = .fin (Num.val (elim M i r c)) := by
    intro r c hr hic
    have e : M r c - elim M i r i * M i c = fin (Num.val (elim M i r c)) := by
      rw [← hf r c]
      have : c ≠ i := ne_of_gt hic
      simp [elim, hr, this, hic]
    obtain ⟨x, y, e1, e2, e3⟩ := sub_fin e
    obtain ⟨a, b, e4, e5, e6⟩ := mul_fin e2
    rw [e1]
    refine ⟨rfl, y, ?_, e3⟩
    rw [e4, e5]
    exact e6
  have hM : Finite M := by
    intro r c
    by_cases hs : r ≤ i ∨ c < i
    · have := hf r c
      rwa [elim_same M hs] at this
    · push Not at hs
      rcases hs.2.lt_or_eq with hlt | heq
      · exact (hchain r c hs.1 hlt).1
      · subst heq
        exact (hquot r hs.1).1
  obtain ⟨hA, hb⟩ := hc hM
  refine ⟨hA, fun r c => ?_⟩
  have hsame : ∀ r c : Fin n, (r ≤ i ∨ c < i) → vals (elim M i) r c = vals M r c := fun r c hs => by
    unfold vals; rw [elim_same M hs]
  have hsame' : ∀ r c : Fin n, (r ≤ i ∨ c < i) → sizes (elim M i) r c = sizes M r c := fun r c hs => by
    unfold sizes; rw [elim_same M hs]
  have p1 := prod_elim hsame r c
  have p2 := prod_elim hsame' r c
  have hbr := hb r c
  have hsm := small_succ hu h1 hη i.1
  have hs0 := small_nonneg hu h1 hη (i.1 + 1)
  have hz : 0 ≤ η * gain u ^ i.1 := by positivity
  by_cases hrc : i < r ∧ i ≤ c
  · rw [if_pos hrc] at p1 p2
    have hci : ¬ c.1 < i.1 := Nat.not_lt.mpr hrc.2
    rw [if_neg hci, add_zero, mul_one] at hbr
    have hT : 0 ≤ prod (sizes M) i r c - sizes M r c := sub_nonneg.mpr (le_prod (sizes_nonneg M) hrc.2)
    have he : |Num.val (A (p r) c) - (prod (vals M) i r c - Num.val (M r c)) - Num.val (M r c)| ≤
        (gain u ^ i.1 - 1) * (prod (sizes M) i r c - sizes M r c + |Num.val (M r c)|) + small u η i.1 := by
      have e1 : Num.val (A (p r) c) - (prod (vals M) i r c - Num.val (M r c)) - Num.val (M r c) =
          Num.val (A (p r) c) - prod (vals M) i r c := by ring
      have e2 : prod (sizes M) i r c - sizes M r c + |Num.val (M r c)| = prod (sizes M) i r c := by
        unfold sizes; ring
      rw [e1, e2]
      exact hbr
    rcases hrc.2.lt_or_eq with hlt | heq
    · obtain ⟨-, q, e1, e2⟩ := hchain r c hrc.1 hlt
      have hlt' : ¬ c.1 < i.1 + 1 := by have : i.1 < c.1 := hlt; omega
      have := chain_error h h1 i.1 e1 e2 he hT
      rw [p1, p2, if_pos hlt, if_pos hlt, if_neg hlt', add_zero, mul_one]
      have e3 : Num.val (A (p r) c) - (prod (vals M) i r c + (vals (elim M i) r i * vals M i c + vals (elim M i) r c - vals M r c))
          = Num.val (A (p r) c) - (prod (vals M) i r c - Num.val (M r c) + Num.val (elim M i r i) * Num.val (M i c)) -
            Num.val (elim M i r c) := by unfold vals; ring
      have e4 : prod (sizes M) i r c + (sizes (elim M i) r i * sizes M i c + sizes (elim M i) r c - sizes M r c) =
          prod (sizes M) i r c - sizes M r c + |Num.val (elim M i r i) * Num.val (M i c)| + |Num.val (elim M i r c)| := by
        rw [abs_mul]; unfold sizes; ring
      rw [e3, e4]
      linarith
    · subst heq
      obtain ⟨-, e1⟩ := hquot r hrc.1
      have := quot_error h h1 i.1 hd0 e1 he hT
      have hdd : sizes (elim M i) i i = sizes M i i := hsame' i i (.inl le_rfl)
      rw [p1, p2, if_neg (lt_irrefl i), if_neg (lt_irrefl i), if_pos (Nat.lt_succ_self i.1), hdd]
      have e3 : Num.val (A (p r) i) - (prod (vals M) i r i + (vals (elim M i) r i * vals M i i + 0 - vals M r i))
          = Num.val (A (p r) i) - (prod (vals M) i r i - Num.val (M r i) + Num.val (elim M i r i) * Num.val (M i i)) := by
        unfold vals; ring
      have e4 : prod (sizes M) i r i + (sizes (elim M i) r i * sizes M i i + 0 - sizes M r i) =
          prod (sizes M) i r i - sizes M r i + |Num.val (elim M i r i) * Num.val (M i i)| := by
        rw [abs_mul]; unfold sizes; ring
      rw [e3, e4]
      have hp := sizes_nonneg M i i
      have e5 : small u η i.1 ≤ small u η (i.1 + 1) := small_mono hu h1 hη (Nat.le_succ _)
      have e6 : gain u ^ (i.1 + 1) * (η * |Num.val (M i i)|) ≤ small u η (i.1 + 1) * sizes M i i := by
        have : gain u ^ (i.1 + 1) * η ≤ small u η (i.1 + 1) := by
          unfold small
          push_cast
          have h3 : 0 ≤ gain u ^ (i.1 + 1) * η := by positivity
          have h4 : (1 : ℚ) ≤ (i.1 + 1) * (1 + gain u) := by
            have : (0 : ℚ) ≤ i.1 := by positivity
            nlinarith
          nlinarith
        have := mul_le_mul_of_nonneg_right this hp
        unfold sizes at this ⊢
        linarith
      linarith
  · rw [if_neg hrc, add_zero] at p1 p2
    rw [p1, p2]
    refine hbr.trans (add_le_add ?_ ?_)
    · refine mul_le_mul_of_nonneg_right ?_ (prod_nonneg (sizes_nonneg M) _ _ _)
      have : gain u ^ i.1 ≤ gain u ^ (i.1 + 1) := pow_le_pow_right₀ g1 (Nat.le_succ _)
      linarith
    · refine mul_le_mul (small_mono hu h1 hη (Nat.le_succ _)) ?_ ?_ hs0
      · by_cases hc1 : c.1 < i.1
        · rw [if_pos hc1, if_pos (by omega), hsame' c c (.inr hc1)]
        · rw [if_neg hc1]
          split
          · have := sizes_nonneg (elim M i) c c
            linarith
          · exact le_rfl
      · split
        · have := sizes_nonneg M c c
          linarith
        · norm_num

/-! ### The factorisation -/

section

variable {K : Type} [Zero K] [Sub K] [Mul K] [Div K]

/-- The pivot step swaps rows `i` and `m`, whatever the numbers are. -/
theorem pivotStep_any {F : Arith K} (hF : ∀ a b, ∃ g, F.nearlyGreater a b F.rel F.tol = .ok g) {n : Nat}
    (M : Fin n → Fin n → K) (p : Fin n → Nat) (i : Fin n) :
    ∃ m : Fin n, i ≤ m ∧ pivotStep F i (mat M, vec p) =
        .ok (mat fun r => M (Equiv.swap i m r), vec fun r => p (Equiv.swap i m r)) := by
  obtain ⟨⟨mx, m⟩, h1, h2, h3⟩ := loop_inv (n := n - i.1) (body := searchBody F (mat M) i.1) (s := ((0 : K), i.1))
    (fun k t => i.1 ≤ t.2 ∧ t.2 < n) ⟨le_rfl, i.2⟩ (by
      rintro k ⟨mx, m⟩ hk ⟨h2, h3⟩
      have hr : i.1 + k < n := by omega
      obtain ⟨g, hg⟩ := hF (F.abs (M ⟨i.1 + k, hr⟩ ⟨i.1, i.2⟩)) mx
      refine ⟨_, by simp only [searchBody, rd2_mat M hr i.2, Out.ok_bind, hg]; rfl, ?_⟩
      cases g
      · exact ⟨h2, h3⟩
      · exact ⟨by simp, by simpa using hr⟩)
  simp only at h2 h3
  refine ⟨⟨m, h3⟩, h2, ?_⟩
  unfold pivotStep
  simp only
  rw [sizeColumn_mat (by omega), h1, Out.ok_bind]
  simp only
  by_cases hm : m = i.1
  · subst hm
    simp
  · have hm' : (m != i.1) = true := by simpa using hm
    rw [if_pos hm', show swapAt (vec p) i.1 m = _ from swapAt_ok p i ⟨m, h3⟩, Out.ok_bind, mat_eq_vec,
      show swapAt (vec fun r => vec (M r)) i.1 m = _ from swapAt_ok _ i ⟨m, h3⟩]
    rfl

end

theorem nearlyGreater_num (a b : Num rnd) :
    ∃ g, (Num.arith rnd).nearlyGreater a b (Num.arith rnd).rel (Num.arith rnd).tol = .ok g := by
  have h1 : (Num.arith rnd).le (Num.arith rnd).eps (Num.arith rnd).rel = true := by
    show Fl.le (.fin (1 / 2 ^ 52)) (.fin (65536 * (1 / 2 ^ 52))) = true
    decide +kernel
  have h2 : (Num.arith rnd).le (Num.arith rnd).rel (Num.arith rnd).one = true := by
    show Fl.le (.fin (65536 * (1 / 2 ^ 52))) (.fin 1) = true
    decide +kernel
  unfold Arith.nearlyGreater Arith.nearlyLessEqual
  rw [Props.nearlyEqual_ok _ h1 h2]
  split <;> exact ⟨_, rfl⟩

/-- State of the factorisation before step `i`. -/
structure Rounded (u η : ℚ) {n : Nat} (pivot : Bool) (tol : Num rnd) (A : Fin n → Fin n → Num rnd) (piv : List Nat)
    (p : Equiv.Perm (Fin n)) (M : Fin n → Fin n → Num rnd) (i : Nat) (st : List Nat) : Prop where
  close : Close u η A p M i
  diag : ∀ k : Fin n, k.1 < i → (Num.arith rnd).lt ((Num.arith rnd).abs (M k k)) tol = false
  pivots : pivot = true → st = vec fun r => (p r).1
  none : pivot = false → st = piv ∧ p = 1

theorem ne_zero_of_accepted {a : Num rnd} {t : ℚ} (ht : 0 < t)
    (h : (Num.arith rnd).lt ((Num.arith rnd).abs a) (fin t) = false) : a = fin (Num.val a) → Num.val a ≠ 0 := by
  intro ha h0
  rw [ha, h0] at h
  have : Fl.lt (Fl.abs (.fin 0)) (.fin t) = false := h
  simp [Fl.lt, Fl.abs, ht] at this

theorem factorise_rounded (h : Rounds rnd u η) (h1 : u < 1) (pivot : Bool) (s : Lu (Num rnd)) {t : ℚ} (ht : 0 < t)
    (hs : s.tol = fin t) {n : Nat} (A : Fin n → Fin n → Num rnd) :
    ∃ (p : Equiv.Perm (Fin n)) (M : Fin n → Fin n → Num rnd) (st : List Nat) (ok : Bool),
      factorise (Num.arith rnd) pivot s (mat A) = .ok ({ s with factorised := ok, lu := mat M, piv := st }, ok) ∧
      (ok = true → Rounded u η pivot s.tol A s.piv p M n st) := by
  obtain ⟨_, h2, p, M, st, ok, rfl, h3⟩ := loop_inv (n := n) (body := factoriseBody (Num.arith rnd) pivot s.tol)
    (s := (mat A, (if pivot then List.range (sizeColumn (mat A)) else s.piv), true))
    (fun i t => ∃ (p : Equiv.Perm (Fin n)) (M : Fin n → Fin n → Num rnd) (st : List Nat) (ok : Bool), t = (mat M, st, ok) ∧
      (ok = true → Rounded u η pivot s.tol A s.piv p M i st))
    ⟨1, A, _, true, rfl, fun _ => ⟨close_zero A, fun k hk => absurd hk (Nat.not_lt_zero _), fun hp => by
      rw [if_pos hp, sizeColumn_mat (by omega), vec_range]; rfl, fun hp => by rw [if_neg (by simp [hp])]; exact ⟨rfl, rfl⟩⟩⟩ (by
      rintro i t' hi ⟨p, M, st, ok, rfl, h3⟩
      cases ok with
      | false => exact ⟨_, rfl, p, M, st, false, rfl, by simp⟩
      | true =>
        have h4 := h3 rfl
        obtain ⟨p1, M1, st1, e1, h5⟩ : ∃ (p1 : Equiv.Perm (Fin n)) (M1 : Fin n → Fin n → Num rnd) (st1 : List Nat),
            (if pivot then pivotStep (Num.arith rnd) i (mat M, st) else pure (mat M, st)) = .ok (mat M1, st1) ∧
            Rounded u η pivot s.tol A s.piv p1 M1 i st1 := by
          cases pivot with
          | false => exact ⟨p, M, st, rfl, h4⟩
          | true =>
            obtain ⟨m, hm, hsw⟩ := pivotStep_any (F := Num.arith rnd) nearlyGreater_num M (fun r => (p r).1) ⟨i, hi⟩
            rw [h4.pivots rfl]
            refine ⟨_, _, _, hsw, ⟨close_swap h4.close hm, ?_, fun _ => rfl, by simp⟩⟩
            intro k hk
            have : Equiv.swap ⟨i, hi⟩ m k = k := by
              apply Equiv.swap_apply_of_ne_of_ne
              · rintro rfl; exact absurd hk (by simp)
              · rintro rfl
                have : i ≤ k.1 := hm
                omega
            simp only [this]
            exact h4.diag k hk
        cases hsmall : (Num.arith rnd).lt ((Num.arith rnd).abs (M1 ⟨i, hi⟩ ⟨i, hi⟩)) s.tol with
        | true =>
          refine ⟨(mat M1, st1, false), ?_, p1, M1, st1, false, rfl, by simp⟩
          unfold factoriseBody
          simp only [if_true, e1, Out.ok_bind, rd2_mat M1 hi hi, hsmall]
          rfl
        | false =>
          refine ⟨(mat (elim M1 ⟨i, hi⟩), st1, true), ?_, p1, _, st1, true, rfl, fun _ => ⟨?_, ?_, h5.pivots, h5.none⟩⟩
          · unfold factoriseBody
            simp only [if_true, e1, Out.ok_bind, rd2_mat M1 hi hi, hsmall, Bool.false_eq_true, if_false, mat_length]
            have := eliminate_ok M1 ⟨i, hi⟩
            simp only at this
            rw [this]
            rfl
          · refine close_elim h h1 (i := ⟨i, hi⟩) h5.close ?_
            rw [hs] at hsmall
            exact ne_zero_of_accepted ht hsmall
          · intro k hk
            rw [elim_same M1 (.inl (show k.1 ≤ i by omega))]
            by_cases hki : k.1 < i
            · exact h5.diag k hki
            · obtain rfl : k = ⟨i, hi⟩ := Fin.ext (by show k.1 = i; omega)
              exact hsmall)
  refine ⟨p, M, st, ok, ?_, h3⟩
  unfold factorise
  rw [mat_length, h2]
  rfl

end Disa.Lu
