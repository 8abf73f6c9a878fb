import Verif.Props.MeanFloat

/-!
# Property C127: norms of doubles
-/

namespace Disa.Props

open Disa Spec Dense Num

theorem near_of_double {a : ℚ} (h : binary64 a = .fin a) : near64 a = a := by
  rw [binary64_near] at h
  split at h
  · exact (Fl.fin.injEq _ _).mp h
  · cases h

theorem double_multiple {a : ℚ} (h : binary64 a = .fin a) : ∃ k : ℤ, a = k * 2 ^ (-1074 : ℤ) := by
  have h1 := near_of_double h
  unfold near64 at h1
  have h2 : -1074 ≤ lastDigit a := le_max_right _ _
  obtain ⟨d, hd⟩ := Int.eq_ofNat_of_zero_le (show 0 ≤ lastDigit a + 1074 by omega)
  refine ⟨nearestEven (a / 2 ^ lastDigit a) * 2 ^ d, ?_⟩
  have e : (2 : ℚ) ^ lastDigit a = 2 ^ d * 2 ^ (-1074 : ℤ) := by
    rw [show lastDigit a = d + -1074 by omega, zpow_add₀ (by norm_num), zpow_natCast]
  push_cast
  rw [mul_assoc, ← e, h1]

/-- Sums of doubles do not underflow. -/
theorem add_relative {a b r : ℚ} (ha : binary64 a = .fin a) (hb : binary64 b = .fin b) (h : binary64 (a + b) = .fin r) :
    |r - (a + b)| ≤ 1 / 2 ^ 53 * |a + b| := by
  obtain ⟨k, hk⟩ := double_multiple ha
  obtain ⟨l, hl⟩ := double_multiple hb
  have hs : a + b = ((k + l : ℤ) : ℚ) * 2 ^ (-1074 : ℤ) := by
    push_cast
    rw [add_mul, ← hk, ← hl]
  generalize a + b = q at *
  have hr : r = near64 q := by
    rw [binary64_near] at h
    split at h
    · exact ((Fl.fin.injEq _ _).mp h).symm
    · cases h
  by_cases h0 : q = 0
  · subst h0
    rw [hr, near64_zero]
    simp
  have hq : 0 < |q| := abs_pos.mpr h0
  rcases le_total (Int.log 2 |q| - 52) (-1074) with hle | hle
  · have : lastDigit q = -1074 := max_eq_right hle
    rw [hr, near64_multiple (by rw [this]) hs]
    simp only [sub_self, abs_zero]
    positivity
  · have : lastDigit q = Int.log 2 |q| - 52 := max_eq_left hle
    have hpos : (0 : ℚ) < 2 ^ lastDigit q := zpow_pos (by norm_num) _
    have e : |near64 q - q| ≤ 1 / 2 * 2 ^ lastDigit q := by
      have h1 : near64 q - q = ((nearestEven (q / 2 ^ lastDigit q) : ℚ) - q / 2 ^ lastDigit q) * 2 ^ lastDigit q := by
        unfold near64
        field_simp
      rw [h1, abs_mul, abs_of_pos hpos]
      exact mul_le_mul_of_nonneg_right (nearestEven_error _) hpos.le
    rw [hr]
    refine e.trans ?_
    rw [this]
    have h1 : ((2 : ℕ) : ℚ) ^ Int.log 2 |q| ≤ |q| := Int.zpow_log_le_self (by norm_num) hq
    have h2 : (1 / 2 : ℚ) * 2 ^ (Int.log 2 |q| - 52) = 1 / 2 ^ 53 * 2 ^ Int.log 2 |q| := by
      rw [zpow_sub₀ (by norm_num), show (52 : ℤ) = ((52 : ℕ) : ℤ) from rfl, zpow_natCast, pow_succ 2 52]
      field_simp
    rw [h2]
    exact mul_le_mul_of_nonneg_left (by exact_mod_cast h1) (by positivity)

theorem near64_neg (q : ℚ) (h : near64 q = q) : near64 (-q) = -q := by
  refine near64_multiple (k := -nearestEven (q / 2 ^ lastDigit q)) (e := lastDigit q) (le_of_eq ?_) ?_
  · unfold lastDigit
    rw [abs_neg]
  · push_cast
    rw [neg_mul]
    congr 1
    exact h.symm

theorem double_abs {q : ℚ} (h : binary64 q = .fin q) : binary64 |q| = .fin |q| := by
  have hb : |q| < 2 ^ (1024 : ℕ) := by
    have h1 := near_of_double h
    rw [binary64_near] at h
    split at h
    · rename_i hb
      rwa [h1] at hb
    · cases h
  have hn : near64 |q| = |q| := by
    rcases abs_choice q with h2 | h2 <;> rw [h2]
    · exact near_of_double h
    · exact near64_neg q (near_of_double h)
  rw [binary64_near, hn, abs_abs, if_pos hb]

/-- Sums of doubles that are not negative. -/
theorem sums_near (t : List ℚ) (ht : ∀ q ∈ t, 0 ≤ q ∧ binary64 q = .fin q) : ∀ M : ℚ, (∀ q, |q| ≤ M → ∃ q', binary64 q = .fin q') →
    (1 + 1 / 2 ^ 53) ^ t.length * t.sum ≤ M →
    ∃ r, (t.map fun q => (fin q : Num binary64)).foldl (· + ·) 0 = fin r ∧ binary64 r = .fin r ∧ (∀ q ∈ t, q ≤ r) ∧ 0 ≤ r ∧
      |r - t.sum| ≤ ((1 + 1 / 2 ^ 53) ^ t.length - 1) * t.sum := by
  intro M hM
  have hu : (0 : ℚ) ≤ 1 / 2 ^ 53 := by positivity
  have hadd := @add_relative
  generalize (1 / 2 ^ 53 : ℚ) = u at *
  induction t using List.reverseRecOn with
  | nil => exact fun _ => ⟨0, rfl, by decide +kernel, by simp, le_rfl, by simp⟩
  | append_singleton t a ih =>
    intro hb
    have hta := ht a (by simp)
    have htt : ∀ q ∈ t, 0 ≤ q ∧ binary64 q = .fin q := fun q hq => ht q (by simp [hq])
    simp only [List.sum_append, List.sum_cons, List.sum_nil, add_zero, List.length_append, List.length_cons, List.length_nil,
      Nat.zero_add] at hb ⊢
    have hS0 : 0 ≤ t.sum := List.sum_nonneg fun q hq => (htt q hq).1
    generalize t.sum = S at *
    have hp1 : 1 ≤ (1 + u) ^ t.length := one_le_pow₀ (by linarith)
    rw [pow_succ] at hb ⊢
    generalize hP : (1 + u) ^ t.length = P at *
    have m1 : 0 ≤ P * u := mul_nonneg (by linarith) hu
    have m2 : 0 ≤ P * u * (S + a) := mul_nonneg m1 (by linarith [hta.1])
    have m3 : a ≤ P * a := le_mul_of_one_le_left hta.1 hp1
    obtain ⟨r, h1, h2, h3, h3', h4⟩ := ih htt (by nlinarith [hta.1])
    obtain ⟨h5, h6⟩ := abs_le.mp h4
    obtain ⟨q, hq⟩ := hM (r + a) (by rw [abs_of_nonneg (by linarith [hta.1])]; nlinarith)
    have k1 := (binary64_between hq h2).1 (by linarith [hta.1])
    have k2 := (binary64_between hq hta.2).1 (by linarith)
    refine ⟨q, ?_, binary64_idem hq, ?_, by linarith, ?_⟩
    · rw [List.map_append, List.foldl_append, h1, List.map_cons, List.map_nil, List.foldl_cons, List.foldl_nil]
      exact hq
    · intro p hp
      rcases List.mem_append.mp hp with hp | hp
      · exact (h3 p hp).trans k1
      · rw [List.mem_singleton.mp hp]
        exact k2
    · have h7 := hadd h2 hta.2 hq
      rw [abs_of_nonneg (by linarith [hta.1] : 0 ≤ r + a)] at h7
      have e : q - (S + a) = (q - (r + a)) + (r - S) := by ring
      rw [e]
      refine (abs_add_le _ _).trans ((add_le_add h7 h4).trans ?_)
      have h8 := mul_le_mul_of_nonneg_left (show r + a ≤ P * (S + a) by nlinarith) hu
      nlinarith

theorem size_vec {n : Nat} (x : Fin n → ℚ) :
    Rounded.norm1 (vec fun i => (fin (x i) : Num binary64)) = ((List.ofFn fun i => |x i|).map fun q => (fin q : Num binary64)).foldl (· + ·) 0 := by
  unfold Rounded.norm1
  rw [vec, List.map_ofFn]
  have e : ∀ (l : List (Num binary64)) (s : Num binary64), l.foldl (fun a b => a + Rounded.size b) s = (l.map Rounded.size).foldl (· + ·) s :=
    fun l s => by rw [List.foldl_map]
  rw [e, List.map_ofFn]
  rfl

theorem maxElement_fin (l : List ℚ) : ∀ (a : ℚ), ∃ m ∈ a :: l, (∀ q ∈ a :: l, |q| ≤ |m|) ∧
    (l.map fun q => (fin q : Num binary64)).foldl (fun m x => if Fl.lt (Rounded.size m) (Rounded.size x) then x else m) (fin a) = fin m := by
  induction l with
  | nil => exact fun a => ⟨a, by simp, by simp, rfl⟩
  | cons b l ih =>
    intro a
    rw [List.map_cons, List.foldl_cons]
    have e : (Fl.lt (Rounded.size (fin a : Num binary64)) (Rounded.size (fin b : Num binary64))) = decide (|a| < |b|) := rfl
    rw [e]
    by_cases h : |a| < |b|
    · rw [if_pos (by simpa using h)]
      obtain ⟨m, h1, h2, h3⟩ := ih b
      refine ⟨m, List.mem_cons_of_mem _ h1, ?_, h3⟩
      intro q hq
      rcases List.mem_cons.mp hq with rfl | hq
      · exact h.le.trans (h2 b (by simp))
      · exact h2 q hq
    · rw [if_neg (by simpa using h)]
      obtain ⟨m, h1, h2, h3⟩ := ih a
      refine ⟨m, ?_, ?_, h3⟩
      · rcases List.mem_cons.mp h1 with rfl | h1
        · simp
        · simp [h1]
      · intro q hq
        rcases List.mem_cons.mp hq with rfl | hq
        · exact h2 q (by simp)
        · rcases List.mem_cons.mp hq with rfl | hq
          · exact (not_lt.mp h).trans (h2 a (by simp))
          · exact h2 q (by simp [hq])

/-! ### C127 -/

/-- C127: the norms of vectors of doubles have relative errors of at most `(n + 5) / 2⁵²`, for the Euclidean norm in its square. -/
def C127 : Prop := ∀ (n : Nat) (_ : 0 < n) (_ : n ≤ 2 ^ 40) (x : Fin n → ℚ), (∀ i, binary64 (x i) = .fin (x i)) →
  ∃ a b c : ℚ, Rounded.normMax (vec fun i => (fin (x i) : Num binary64)) = .ok (fin a) ∧ (∃ i, a = |x i|) ∧ (∀ i, |x i| ≤ a) ∧
    Rounded.norm1 (vec fun i => (fin (x i) : Num binary64)) = fin b ∧ |b - (∑ i, |x i|)| ≤ (n + 5) / 2 ^ 52 * ∑ i, |x i| ∧
    Rounded.norm2 root64 (vec fun i => (fin (x i) : Num binary64)) = fin c ∧
      |c ^ 2 - ∑ i, x i * x i| ≤ (n + 5) / 2 ^ 52 * ∑ i, x i * x i

/-- C127 fails: the Euclidean norm of a vector that is not zero can be zero. -/
theorem c127_violated : ¬ C127 := by
  intro h
  obtain ⟨a, b, c, -, -, -, -, -, h1, h2⟩ := h 1 (by norm_num) (by norm_num) (fun _ => 1 / 2 ^ 600) (fun _ => by decide +kernel)
  have h3 : Rounded.norm2 root64 (vec fun _ : Fin 1 => (fin (1 / 2 ^ 600) : Num binary64)) = fin 0 := by decide +kernel
  rw [h3] at h1
  have := fin_inj.mp h1
  subst this
  revert h2
  decide +kernel

/-- C127: the Euclidean norm of a finite vector can be infinite. -/
theorem c127_overflow : binary64 (2 ^ 600) = .fin (2 ^ 600) ∧ Rounded.norm2 root64 [(fin (2 ^ 600) : Num binary64)] = (show Num binary64 from .inf false) := by
  constructor <;> decide +kernel

/-- C127: the largest norm is exact. -/
theorem c127_max_partial {n : Nat} (h0 : 0 < n) (x : Fin n → ℚ) :
    ∃ a, Rounded.normMax (vec fun i => (fin (x i) : Num binary64)) = .ok (fin a) ∧ (∃ i, a = |x i|) ∧ ∀ i, |x i| ≤ a := by
  obtain ⟨k, rfl⟩ : ∃ k, n = k + 1 := ⟨n - 1, by omega⟩
  obtain ⟨m, h1, h2, h3⟩ := maxElement_fin (List.ofFn fun i : Fin k => x i.succ) (x 0)
  rw [← List.ofFn_succ] at h1 h2
  obtain ⟨i, rfl⟩ := List.mem_ofFn.mp h1
  refine ⟨|x i|, ?_, ⟨i, rfl⟩, fun j => h2 _ (List.mem_ofFn.mpr ⟨j, rfl⟩)⟩
  unfold Rounded.normMax
  rw [vec_map, List.ofFn_succ, List.map_cons]
  show (Out.ok (List.foldl (fun m x => if Fl.lt (Rounded.size m) (Rounded.size x) then x else m) _ _) >>= fun m => pure (Rounded.size m)) = _
  rw [h3]
  rfl

/-- C127: the sum of the absolute values, which is at least the largest of them. -/
theorem c127_sum_partial {n : Nat} (hn : n ≤ 2 ^ 40) (x : Fin n → ℚ) (hx : ∀ i, binary64 (x i) = .fin (x i)) (hb : ∑ i, |x i| ≤ 2 ^ 1023) :
    ∃ b, Rounded.norm1 (vec fun i => (fin (x i) : Num binary64)) = fin b ∧ |b - (∑ i, |x i|)| ≤ n / 2 ^ 52 * ∑ i, |x i| ∧ ∀ i, |x i| ≤ b := by
  have hn' : (n : ℚ) ≤ 2 ^ 40 := by exact_mod_cast hn
  have hP := pow_double (n := n) (hn.trans (by norm_num))
  have hsmall : (n : ℚ) / 2 ^ 52 ≤ 1 / 2 ^ 12 := by rw [div_le_iff₀ (by norm_num)]; linarith
  have hA0 : 0 ≤ ∑ i, |x i| := Finset.sum_nonneg fun i _ => abs_nonneg _
  obtain ⟨r, h1, -, h3, -, h5⟩ := sums_near (List.ofFn fun i => |x i|) (fun q hq => by
    obtain ⟨i, rfl⟩ := List.mem_ofFn.mp hq
    exact ⟨abs_nonneg _, double_abs (hx i)⟩) (3 / 2 * 2 ^ 1023) (fun q hq => range_double hq) (by
    rw [List.sum_ofFn, List.length_ofFn]
    generalize (2 : ℚ) ^ 1023 = w at *
    calc _ ≤ (3 / 2 : ℚ) * ∑ i, |x i| := mul_le_mul_of_nonneg_right (hP.trans (by norm_num at hsmall ⊢; linarith)) hA0
      _ ≤ _ := by linarith)
  rw [List.sum_ofFn, List.length_ofFn] at h5
  refine ⟨r, by rw [size_vec]; exact h1, h5.trans (mul_le_mul_of_nonneg_right (by linarith) hA0), fun i => ?_⟩
  exact h3 _ (List.mem_ofFn.mpr ⟨i, rfl⟩)

/-- C127: the Euclidean norm of vectors that are neither too large nor too small. -/
theorem c127_euclid_partial {n : Nat} (hn : n ≤ 2 ^ 40) (x : Fin n → ℚ) (hlo : 1 / 2 ^ 970 ≤ ∑ i, x i * x i)
    (hhi : ∑ i, x i * x i ≤ 2 ^ 1023) :
    ∃ s, 0 ≤ s ∧ Rounded.norm2 root64 (vec fun i => (fin (x i) : Num binary64)) = fin s ∧
      |s ^ 2 - ∑ i, x i * x i| ≤ (n + 5) / 2 ^ 52 * ∑ i, x i * x i := norm2_near hn x hlo hhi

/-- The hypotheses hold. -/
example : binary64 (-1 / 2 ^ 1074) = .fin (-1 / 2 ^ 1074) ∧ binary64 (2 ^ 1022) = .fin (2 ^ 1022) ∧
    ∑ i, |(![-1 / 2 ^ 1074, 2 ^ 1022] : Fin 2 → ℚ) i| ≤ 2 ^ 1023 ∧
    Rounded.norm1 (vec fun i => (fin ((![-1 / 2 ^ 1074, 2 ^ 1022] : Fin 2 → ℚ) i) : Num binary64)) = fin (2 ^ 1022) := by
  refine ⟨?_, ?_, ?_, ?_⟩ <;> decide +kernel

end Disa.Props
