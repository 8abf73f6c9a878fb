import Verif.Props.UnitFloat

/-!
# Property C126: the mean of doubles
-/

namespace Disa.Props

open Disa Spec Dense Num

theorem double_twice {a : ℚ} (h : binary64 a = .fin a) (hb : |2 * a| < 2 ^ 1024) : binary64 (2 * a) = .fin (2 * a) := by
  have h1 : near64 a = a := by
    rw [binary64_near] at h
    split at h
    · exact (Fl.fin.injEq _ _).mp h
    · cases h
  by_cases h0 : a = 0
  · subst h0
    rw [mul_zero]
    exact h
  have hpos : 0 < |a| := abs_pos.mpr h0
  have hl : lastDigit (2 * a) ≤ lastDigit a + 1 := by
    have h2 : Int.log 2 |2 * a| < Int.log 2 |a| + 2 := by
      rw [← Int.lt_zpow_iff_log_lt (by norm_num) (by rw [abs_mul]; positivity), abs_mul, abs_two]
      have h3 : |a| < ((2 : ℕ) : ℚ) ^ (Int.log 2 |a| + 1) := Int.lt_zpow_succ_log_self (by norm_num) |a|
      push_cast at h3 ⊢
      rw [show Int.log 2 |a| + 2 = Int.log 2 |a| + 1 + 1 by ring, zpow_add_one₀ (by norm_num)]
      linarith
    unfold lastDigit
    omega
  have h4 : near64 (2 * a) = 2 * a := by
    refine near64_multiple (k := nearestEven (a / 2 ^ lastDigit a)) hl ?_
    rw [zpow_add_one₀ (by norm_num), ← mul_assoc]
    have : (nearestEven (a / 2 ^ lastDigit a) : ℚ) * 2 ^ lastDigit a = a := h1
    rw [this]
    ring
  rw [binary64_near, h4, if_pos hb]

/-- Sums of rounded numbers. -/
theorem adds_near (t : List ℚ) : ∀ M : ℚ, (∀ q, |q| ≤ M → ∃ q', binary64 q = .fin q') →
    (1 + 1 / 2 ^ 53) ^ t.length * ((t.map (|·|)).sum + t.length * (1 / 2 ^ 1075)) ≤ M →
    ∃ r, (t.map fun q => (fin q : Num binary64)).foldl (· + ·) 0 = fin r ∧
      |r - t.sum| ≤ ((1 + 1 / 2 ^ 53) ^ t.length - 1) * (t.map (|·|)).sum + t.length * (1 + 1 / 2 ^ 53) ^ t.length * (1 / 2 ^ 1075) := by
  intro M hM
  have herr := rounds_binary64.error
  have hη : (0 : ℚ) ≤ 1 / 2 ^ 1075 := by positivity
  generalize (1 / 2 ^ 1075 : ℚ) = η at *
  have hu : (0 : ℚ) ≤ 1 / 2 ^ 53 := by positivity
  generalize (1 / 2 ^ 53 : ℚ) = u at *
  induction t using List.reverseRecOn with
  | nil => exact fun _ => ⟨0, rfl, by simp⟩
  | append_singleton t a ih =>
    intro hb
    simp only [List.map_append, List.map_cons, List.map_nil, List.sum_append, List.sum_cons, List.sum_nil, add_zero,
      List.length_append, List.length_cons, List.length_nil, Nat.zero_add] at hb ⊢
    have hT0 : 0 ≤ (t.map (|·|)).sum := List.sum_nonneg (by simp)
    have hT : |t.sum| ≤ (t.map (|·|)).sum := by
      clear ih hb
      induction t with
      | nil => simp
      | cons b t ih =>
        rw [List.sum_cons, List.map_cons, List.sum_cons]
        exact (abs_add_le _ _).trans (add_le_add le_rfl (ih (List.sum_nonneg (by simp))))
    generalize (t.map (|·|)).sum = T at *
    generalize t.sum = S at *
    have ha := abs_nonneg a
    have hp1 : 1 ≤ (1 + u) ^ t.length := one_le_pow₀ (by linarith)
    rw [pow_succ] at hb ⊢
    push_cast at hb ⊢
    have hn0 : (0 : ℚ) ≤ t.length := Nat.cast_nonneg _
    generalize (t.length : ℚ) = k at *
    generalize hP : (1 + u) ^ t.length = P at *
    have m1 : 0 ≤ P * u := mul_nonneg (by linarith) hu
    have m2 : 0 ≤ P * u * (T + k * η) := mul_nonneg m1 (by positivity)
    have m3 : 0 ≤ P * (1 + u) * (|a| + η) := by positivity
    obtain ⟨r, h1, h2⟩ := ih (by nlinarith)
    have h3 : |r + a - (S + a)| ≤ (P - 1) * T + k * P * η := by rwa [add_sub_add_right_eq_sub]
    have h4 : |r + a| ≤ P * T + k * P * η + |a| := by
      have e : r + a = (r - S) + (S + a) := by ring
      rw [e]
      have := abs_add_le (r - S) (S + a)
      have := abs_add_le S a
      linarith
    have m4 : 0 ≤ (P - 1) * |a| := mul_nonneg (by linarith) ha
    have m5 : 0 ≤ P * u * |a| := mul_nonneg m1 ha
    have m6 : 0 ≤ P * (1 + u) * η := by positivity
    obtain ⟨q, hq⟩ := hM (r + a) (h4.trans (by nlinarith))
    refine ⟨q, ?_, ?_⟩
    · rw [List.foldl_append, h1, List.foldl_cons, List.foldl_nil]
      exact hq
    · have h5 := herr _ _ hq
      have e : q - (S + a) = (q - (r + a)) + (r + a - (S + a)) := by ring
      rw [e]
      refine (abs_add_le _ _).trans ((add_le_add h5 h3).trans ?_)
      have h6 := mul_le_mul_of_nonneg_left h4 hu
      have m7 : η ≤ P * (1 + u) * η := by
        have : 1 ≤ P * (1 + u) := by nlinarith
        nlinarith
      have m8 : u * |a| ≤ (P * (1 + u) - 1) * |a| := mul_le_mul_of_nonneg_right (by nlinarith) ha
      linear_combination h6 + m7 + m8

/-! ### C126 -/

/-- C126: the mean of doubles lies between the smallest and the largest of them. -/
def C126 : Prop := ∀ (s n : Nat) (x : Fin n → ℚ), 0 < n → (∀ i, binary64 (x i) = .fin (x i)) →
  ∃ m i j, Rounded.mean s (vec fun i => (fin (x i) : Num binary64)) = .ok (fin m) ∧ x i ≤ m ∧ m ≤ x j

/-- C126 fails: the mean of three equal doubles can be larger than them. -/
theorem c126_violated : ¬ C126 := by
  intro h
  obtain ⟨m, i, j, h1, -, h3⟩ := h 0 3 (fun _ => 3602879701896397 / 2 ^ 55) (by norm_num) (fun _ => by decide +kernel)
  have h4 : Rounded.mean 0 (vec fun _ : Fin 3 => (fin (3602879701896397 / 2 ^ 55) : Num binary64)) =
    .ok (fin (7205759403792795 / 2 ^ 56)) := by decide +kernel
  rw [h4, Out.ok.injEq] at h1
  have := fin_inj.mp h1
  subst this
  norm_num at h3

/-- C126: the mean of large doubles can be infinite. -/
theorem c126_overflow : binary64 (2 ^ 1023) = .fin (2 ^ 1023) ∧
    Rounded.mean 0 [(fin (2 ^ 1023) : Num binary64), fin (2 ^ 1023)] = .ok (.inf false) := by
  constructor <;> decide +kernel

/-- C126 holds for one double, and for two doubles whose sum does not overflow. -/
theorem c126_two_partial (s : Nat) {a b : ℚ} (ha : binary64 a = .fin a) (hb : binary64 b = .fin b) (hab : a ≤ b) :
    Rounded.mean s [(fin a : Num binary64)] = .ok (fin a) ∧
    (|a| < 2 ^ 1023 → |b| < 2 ^ 1023 → ∃ m, Rounded.mean s [(fin a : Num binary64), fin b] = .ok (fin m) ∧ a ≤ m ∧ m ≤ b) := by
  have z : ∀ {q : ℚ}, binary64 q = .fin q → (0 : Num binary64) + fin q = fin q := fun {q} hq => by
    show binary64 (0 + q) = .fin q
    rwa [zero_add]
  have c1 : (Rounded.ofNat 1 : Num binary64) = fin 1 := by decide +kernel
  have c2 : (Rounded.ofNat 2 : Num binary64) = fin 2 := by decide +kernel
  constructor
  · unfold Rounded.mean
    simp only [List.isEmpty_cons, Bool.not_false, Bool.or_true, assert_true, Out.ok_bind, List.foldl_cons, List.foldl_nil,
      List.length_cons, List.length_nil, Nat.zero_add, z ha, c1]
    show Out.ok (Fl.div binary64 (.fin a) (.fin 1)) = .ok (.fin a)
    simp [Fl.div, ha]
  · intro h1 h2
    have e1024 : (2 : ℚ) ^ 1024 = 2 * 2 ^ 1023 := by rw [pow_succ 2 1023, mul_comm]
    have ha2 : |2 * a| < 2 ^ 1024 := by
      rw [abs_mul, abs_two, e1024]
      exact mul_lt_mul_of_pos_left h1 (by norm_num)
    have hb2 : |2 * b| < 2 ^ 1024 := by
      rw [abs_mul, abs_two, e1024]
      exact mul_lt_mul_of_pos_left h2 (by norm_num)
    have hr : ∃ r, binary64 (a + b) = .fin r := by
      have l1 := near64_mono (show 2 * a ≤ a + b by linarith)
      have l2 := near64_mono (show a + b ≤ 2 * b by linarith)
      have g : ∀ {q : ℚ}, binary64 q = .fin q → near64 q = q := fun {q} hq => by
        rw [binary64_near] at hq
        split at hq
        · exact (Fl.fin.injEq _ _).mp hq
        · cases hq
      rw [g (double_twice ha ha2)] at l1
      rw [g (double_twice hb hb2)] at l2
      refine ⟨near64 (a + b), ?_⟩
      rw [binary64_near, if_pos]
      rw [abs_lt] at ha2 hb2 ⊢
      generalize (2 : ℚ) ^ 1024 = w at *
      constructor
      · linarith
      · linarith
    obtain ⟨r, hr⟩ := hr
    have k1 := (binary64_between hr (double_twice ha ha2)).1 (by linarith)
    have k2 := (binary64_between hr (double_twice hb hb2)).2 (by linarith)
    have hm : ∃ m, binary64 (r / 2) = .fin m := by
      have l1 := binary64_mono (show a ≤ r / 2 by linarith)
      have l2 := binary64_mono (show r / 2 ≤ b by linarith)
      rw [ha] at l1
      rw [hb] at l2
      cases hq : binary64 (r / 2) with
      | nan => rw [hq] at l1; cases l1
      | inf t => rw [hq] at l1 l2; cases t <;> simp [Fl.le, Fl.lt, Fl.eq] at l1 l2
      | fin m => exact ⟨m, rfl⟩
    obtain ⟨m, hm⟩ := hm
    refine ⟨m, ?_, (binary64_between hm ha).1 (by linarith), (binary64_between hm hb).2 (by linarith)⟩
    have e : (fin a : Num binary64) + fin b = fin r := hr
    unfold Rounded.mean
    simp only [List.isEmpty_cons, Bool.not_false, Bool.or_true, assert_true, Out.ok_bind, List.foldl_cons, List.foldl_nil,
      List.length_cons, List.length_nil, Nat.zero_add, z ha, e]
    show Out.ok ((fin r : Num binary64) / Rounded.ofNat 2) = .ok (.fin m)
    rw [c2]
    show Out.ok (Fl.div binary64 (.fin r) (.fin 2)) = .ok (.fin m)
    simp [Fl.div, hm]

/-- C126: in general the mean is near to the exact one. -/
theorem c126_partial (s : Nat) {n : Nat} (h0 : 0 < n) (hn : n ≤ 2 ^ 40) (x : Fin n → ℚ) (hb : ∑ i, |x i| ≤ 2 ^ 1023) :
    ∃ m, Rounded.mean s (vec fun i => (fin (x i) : Num binary64)) = .ok (fin m) ∧
      |m - (∑ i, x i) / n| ≤ (n + 1) / 2 ^ 52 * ((∑ i, |x i|) / n) + 1 / 2 ^ 1070 := by
  have hn' : (n : ℚ) ≤ 2 ^ 40 := by exact_mod_cast hn
  have hn0 : (1 : ℚ) ≤ n := by exact_mod_cast h0
  have hS : (List.ofFn x).sum = ∑ i, x i := List.sum_ofFn
  have hA : ((List.ofFn x).map (|·|)).sum = ∑ i, |x i| := by
    rw [List.map_ofFn, List.sum_ofFn]
    rfl
  have hP := pow_double (n := n) (hn.trans (by norm_num))
  have hP1 : 1 ≤ (1 + 1 / 2 ^ 53 : ℚ) ^ n := one_le_pow₀ (by norm_num)
  have hsmall : (n : ℚ) / 2 ^ 52 ≤ 1 / 2 ^ 12 := by rw [div_le_iff₀ (by norm_num)]; linarith
  have hA0 : 0 ≤ ∑ i, |x i| := Finset.sum_nonneg fun i _ => abs_nonneg _
  have hη : (1 / 2 ^ 1075 : ℚ) = 1 / 2 ^ 1070 / 32 := by rw [pow_add 2 1070 5, ← div_div]; norm_num
  have hη0 : (0 : ℚ) < 1 / 2 ^ 1070 := by positivity
  have hη1 : (1 / 2 ^ 1070 : ℚ) ≤ 1 / 2 ^ 40 := one_div_le_one_div_of_le (by positivity) (pow_le_pow_right₀ (by norm_num) (by norm_num))
  have hw : (1 : ℚ) ≤ 2 ^ 1023 := one_le_pow₀ (by norm_num)
  obtain ⟨r, hr, he⟩ := adds_near (List.ofFn x) (3 / 2 * 2 ^ 1023) (fun q hq => range_double hq) (by
    rw [hA, List.length_ofFn, hη]
    generalize (2 : ℚ) ^ 1023 = w at *
    generalize (1 / 2 ^ 1070 : ℚ) = η at *
    have h1 : (n : ℚ) * (η / 32) ≤ 2 ^ 40 * (1 / 2 ^ 40 / 32) := mul_le_mul hn' (by linarith) (by positivity) (by norm_num)
    have h2 : (1 + 1 / 2 ^ 53 : ℚ) ^ n ≤ 1 + 1 / 2 ^ 12 := hP.trans (by linarith)
    calc _ ≤ (1 + 1 / 2 ^ 12 : ℚ) * (w + 1 / 32) := mul_le_mul h2 (by norm_num at h1 ⊢; linarith) (by positivity) (by norm_num)
      _ ≤ _ := by norm_num; linarith)
  rw [hA, hS, List.length_ofFn, hη] at he
  have hcount : (Rounded.ofNat n : Num binary64) = fin n := binary64_nat (by omega)
  have hdiv : |(∑ i, x i) / n| ≤ (∑ i, |x i|) / n := by
    rw [abs_div, Nat.abs_cast]
    exact div_le_div_of_nonneg_right (Finset.abs_sum_le_sum_abs _ _) (by linarith)
  -- the error of the sum, divided by the size
  have he2 : |r / n - (∑ i, x i) / n| ≤ n / 2 ^ 52 * ((∑ i, |x i|) / n) + 1 / 2 ^ 1070 / 16 := by
    rw [← sub_div, abs_div, Nat.abs_cast, div_le_iff₀ (by linarith)]
    refine he.trans ?_
    generalize (1 / 2 ^ 1070 : ℚ) = η at *
    have h1 := mul_le_mul_of_nonneg_right (show (1 + 1 / 2 ^ 53 : ℚ) ^ n - 1 ≤ n / 2 ^ 52 by linarith) hA0
    have h2 : (n : ℚ) * (1 + 1 / 2 ^ 53) ^ n * (η / 32) ≤ n * 2 * (η / 32) := by
      refine mul_le_mul_of_nonneg_right (mul_le_mul_of_nonneg_left (by linarith) (by linarith)) (by positivity)
    have e : (n / 2 ^ 52 * ((∑ i, |x i|) / n) + η / 16) * n = n / 2 ^ 52 * (∑ i, |x i|) + n * 2 * (η / 32) := by
      have : (∑ i, |x i|) / n * n = ∑ i, |x i| := div_mul_cancel₀ _ (by linarith)
      linear_combination ((n : ℚ) / 2 ^ 52) * this
    linarith
  have hAn : 0 ≤ (∑ i, |x i|) / (n : ℚ) := div_nonneg hA0 (by linarith)
  have hle : (∑ i, |x i|) / (n : ℚ) ≤ ∑ i, |x i| := div_le_self hA0 hn0
  have hrn : |r / n| ≤ (1 + n / 2 ^ 52) * ((∑ i, |x i|) / n) + 1 / 2 ^ 1070 / 16 := by
    have := abs_add_le (r / n - (∑ i, x i) / n) ((∑ i, x i) / n)
    rw [sub_add_cancel] at this
    linarith
  obtain ⟨m, hm⟩ := range_double (q := r / n) (by
    refine hrn.trans ?_
    have h1 := mul_le_mul_of_nonneg_right hsmall hAn
    generalize (2 : ℚ) ^ 1023 = w at *
    generalize (1 / 2 ^ 1070 : ℚ) = η at *
    norm_num at h1 hη1 ⊢
    linarith)
  have herr := rounds_binary64.error _ _ hm
  refine ⟨m, ?_, ?_⟩
  · unfold Rounded.mean
    have hne : (vec fun i => (fin (x i) : Num binary64)).isEmpty = false := by
      rw [List.isEmpty_eq_false_iff_exists_mem]
      exact ⟨_, List.mem_ofFn.mpr ⟨⟨0, h0⟩, rfl⟩⟩
    rw [hne, vec_length, vec_map, hr, hcount]
    simp only [Bool.not_false, Bool.or_true, assert_true, Out.ok_bind]
    show Out.ok (Fl.div binary64 (.fin r) (.fin n)) = .ok (.fin m)
    simp [Fl.div, hm, h0.ne']
  · rw [hη] at herr
    clear hη hw hr hm hb
    generalize (1 / 2 ^ 1070 : ℚ) = η at *
    have := abs_add_le (m - r / n) (r / n - (∑ i, x i) / n)
    rw [sub_add_sub_cancel] at this
    have h1 := mul_le_mul_of_nonneg_right hsmall hAn
    have h2 := mul_le_mul_of_nonneg_left hrn (by norm_num : (0 : ℚ) ≤ 1 / 2 ^ 53)
    have e : ((n : ℚ) + 1) / 2 ^ 52 * ((∑ i, |x i|) / n) = n / 2 ^ 52 * ((∑ i, |x i|) / n) + 2 * (1 / 2 ^ 53 * ((∑ i, |x i|) / n)) := by ring
    rw [e]
    have h3 : 1 / 2 ^ 53 * ((1 + n / 2 ^ 52) * ((∑ i, |x i|) / n) + η / 16) ≤ 2 * (1 / 2 ^ 53 * ((∑ i, |x i|) / n)) + η / 16 := by
      norm_num at h1 ⊢
      linarith
    linarith

/-- The hypotheses hold. -/
example : (∑ i, |(![1 / 3, -2 ^ 1022] : Fin 2 → ℚ) i| ≤ 2 ^ 1023) ∧ binary64 3 = .fin 3 ∧ binary64 (-1 / 4) = .fin (-1 / 4) := by
  refine ⟨?_, ?_, ?_⟩ <;> decide +kernel

end Disa.Props
