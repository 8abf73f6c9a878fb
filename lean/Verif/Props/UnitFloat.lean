import Verif.Dense.GeometryFloat
import Verif.Scalar.Mono
import Verif.Props.SolveFloat

/-!
# Property C125: unit vectors of doubles
-/

namespace Disa.Props

open Disa Spec Dense Num

theorem fold_zip_self {α β : Type} (f : β → α × α → β) (l : List α) (s : β) :
    (l.zip l).foldl f s = l.foldl (fun s b => f s (b, b)) s := by
  induction l generalizing s with
  | nil => rfl
  | cons a l ih => simp [ih]

theorem dot_self {rnd : ℚ → Fl} (v : List (Num rnd)) : dot v v = .ok (v.foldl (fun a b => a + b * b) 0) := by
  unfold dot innerProduct
  simp [fold_zip_self]

/-- The errors of doubles for sums of not too many products. -/
theorem productError_double {n : Nat} (hn : n + 1 ≤ 2 ^ 52) {S : ℚ} (hS : 0 ≤ S) :
    productError (1 / 2 ^ 53) (1 / 2 ^ 1075) n S ≤ (n + 1) / 2 ^ 52 * S + n / 2 ^ 1072 := by
  have h1 := pow_double hn
  have h2 := pow_double (n := n) (by omega)
  have h3 : (n : ℚ) ≤ 2 ^ 52 := by exact_mod_cast (by omega : n ≤ 2 ^ 52)
  have h4 : (1 + 1 / 2 ^ 53 : ℚ) ^ n ≤ 2 := by
    refine h2.trans ?_
    have : (n : ℚ) / 2 ^ 52 ≤ 1 := by rw [div_le_one (by norm_num)]; exact h3
    linarith
  push_cast at h1
  unfold productError
  refine add_le_add (mul_le_mul_of_nonneg_right (by linarith) hS) ?_
  have e : (1 / 2 ^ 1075 : ℚ) = 1 / 8 * (1 / 2 ^ 1072) := by rw [pow_add 2 1072 3]; norm_num
  have h5 : (n : ℚ) * (2 + 1 / 2 ^ 53) * (1 + 1 / 2 ^ 53) ^ n ≤ n * 8 := by
    rw [mul_assoc]
    refine mul_le_mul_of_nonneg_left ?_ (Nat.cast_nonneg n)
    calc (2 + 1 / 2 ^ 53 : ℚ) * (1 + 1 / 2 ^ 53) ^ n ≤ (2 + 1 / 2 ^ 53) * 2 := mul_le_mul_of_nonneg_left h4 (by norm_num)
      _ ≤ 8 := by norm_num
  have h6 : (0 : ℚ) < 1 / 2 ^ 1072 := by positivity
  rw [e, div_eq_mul_one_div (n : ℚ) (2 ^ 1072)]
  generalize (1 / 2 ^ 1072 : ℚ) = w at *
  calc _ ≤ n * 8 * (1 / 8 * w) := mul_le_mul_of_nonneg_right h5 (by positivity)
    _ = n * w := by ring

theorem range_double {q : ℚ} (hq : |q| ≤ 3 / 2 * 2 ^ 1023) : ∃ q', binary64 q = .fin q' := by
  refine c100_range q (hq.trans ?_)
  refine mul_le_mul_of_nonneg_right (by norm_num) (by positivity)

/-- The computed sum of squares. -/
theorem squares_near {n : Nat} (hn : n ≤ 2 ^ 40) (x : Fin n → ℚ) (hlo : 1 / 2 ^ 970 ≤ ∑ i, x i * x i)
    (hhi : ∑ i, x i * x i ≤ 2 ^ 1023) :
    ∃ q, (vec fun i => (fin (x i) : Num binary64)).foldl (fun a b => a + b * b) 0 = fin q ∧
      |q - ∑ i, x i * x i| ≤ (n + 2) / 2 ^ 52 * ∑ i, x i * x i := by
  have e : ∑ i, |x i * x i| = ∑ i, x i * x i := Finset.sum_congr rfl fun i _ => abs_mul_self _
  have hn' : (n : ℚ) ≤ 2 ^ 40 := by exact_mod_cast hn
  have hS0 : 0 ≤ ∑ i, x i * x i := Finset.sum_nonneg fun i _ => mul_self_nonneg _
  have h1 := productError_double (n := n) (by omega) hS0
  have h2 : (n : ℚ) / 2 ^ 1072 ≤ 1 / 2 ^ 52 * ∑ i, x i * x i := by
    refine le_trans ?_ (mul_le_mul_of_nonneg_left hlo (by positivity))
    have e2 : (2 : ℚ) ^ 1072 = 2 ^ 50 * (2 ^ 52 * 2 ^ 970) := by rw [← pow_add, ← pow_add]
    rw [e2]
    have : (0 : ℚ) < 2 ^ 970 := by positivity
    generalize (2 : ℚ) ^ 970 = w at *
    rw [div_le_iff₀ (by positivity)]
    field_simp
    linarith
  have h3 : productError (1 / 2 ^ 53) (1 / 2 ^ 1075) n (∑ i, x i * x i) ≤ (n + 2) / 2 ^ 52 * ∑ i, x i * x i := by
    calc _ ≤ _ := h1
      _ ≤ (n + 1) / 2 ^ 52 * ∑ i, x i * x i + 1 / 2 ^ 52 * ∑ i, x i * x i := by linarith
      _ = _ := by ring
  obtain ⟨r, hr⟩ := c100_finite rounds_binary64 (M := 3 / 2 * 2 ^ 1023) (fun q hq => range_double hq) x x (by
    rw [e]
    have h4 : ((n : ℚ) + 2) / 2 ^ 52 ≤ 1 / 2 := by rw [div_le_iff₀ (by norm_num)]; linarith
    have h5 := mul_le_mul_of_nonneg_right h4 hS0
    generalize (2 : ℚ) ^ 1023 = w at *
    linarith)
  obtain ⟨p, q, hp, hq, he⟩ := c100_dot rounds_binary64 _ _ r hr
  have hp' : p = x := funext fun i => (fin_inj.mp (hp i)).symm
  have hq' : q = x := funext fun i => (fin_inj.mp (hq i)).symm
  subst hp' hq'
  rw [e] at he
  rw [dot_self, Out.ok.injEq] at hr
  exact ⟨r, hr, he.trans h3⟩

theorem root_finite {q : ℚ} (h0 : 0 ≤ q) (hq : q ≤ 2 ^ 1023 * (3 / 2)) : ∃ s, root64 (fin q) = fin s := by
  have hlt : ¬ q < 0 := not_lt.mpr h0
  show ∃ s, (if q < 0 then Fl.nan else binary64 (Nat.sqrt ⌊q * 4 ^ 1200⌋₊ / 2 ^ 1200)) = Fl.fin s
  rw [if_neg hlt]
  apply range_double
  obtain ⟨r, hr⟩ : ∃ r, r = Nat.sqrt ⌊q * 4 ^ 1200⌋₊ := ⟨_, rfl⟩
  rw [← hr]
  have h1 : (r : ℚ) ^ 2 ≤ q * 4 ^ 1200 := by
    have e1 : r ^ 2 ≤ ⌊q * 4 ^ 1200⌋₊ := by rw [hr, pow_two]; exact Nat.sqrt_le _
    have e2 : ((⌊q * 4 ^ 1200⌋₊ : ℕ) : ℚ) ≤ q * 4 ^ 1200 := Nat.floor_le (by positivity)
    refine le_trans ?_ e2
    exact_mod_cast e1
  rw [abs_of_nonneg (div_nonneg (Nat.cast_nonneg _) (pow_nonneg (by norm_num) _))]
  have h4 : (4 : ℚ) ^ 1200 = 2 ^ 1200 * 2 ^ 1200 := by rw [← mul_pow]; norm_num
  rw [h4] at h1
  have hB : (1 : ℚ) ≤ 2 ^ 1023 := one_le_pow₀ (by norm_num)
  have hA : (0 : ℚ) < 2 ^ 1200 := by positivity
  generalize (2 : ℚ) ^ 1023 = B at *
  generalize (2 : ℚ) ^ 1200 = A at *
  rw [div_le_iff₀ hA]
  by_contra hc
  have hc := not_le.mp hc
  have : (3 / 2 * B * A) ^ 2 < (r : ℚ) ^ 2 := pow_lt_pow_left₀ hc (by positivity) (by norm_num)
  have h5 : q * (A * A) ≤ B * (3 / 2) * (A * A) := mul_le_mul_of_nonneg_right hq (by positivity)
  have h6 : B * (3 / 2) * (A * A) ≤ (3 / 2 * B * A) ^ 2 := by
    have : B ≤ B * B := le_mul_of_one_le_left (by linarith) hB
    have h7 := mul_le_mul_of_nonneg_right this (by positivity : 0 ≤ A * A)
    nlinarith [h7]
  linarith

/-- The computed norm. -/
theorem norm2_near {n : Nat} (hn : n ≤ 2 ^ 40) (x : Fin n → ℚ) (hlo : 1 / 2 ^ 970 ≤ ∑ i, x i * x i)
    (hhi : ∑ i, x i * x i ≤ 2 ^ 1023) :
    ∃ s, 0 ≤ s ∧ Rounded.norm2 root64 (vec fun i => (fin (x i) : Num binary64)) = fin s ∧
      |s ^ 2 - ∑ i, x i * x i| ≤ (n + 5) / 2 ^ 52 * ∑ i, x i * x i := by
  obtain ⟨q, h1, h2⟩ := squares_near hn x hlo hhi
  have hn' : (n : ℚ) ≤ 2 ^ 40 := by exact_mod_cast hn
  have h4 : ((n : ℚ) + 2) / 2 ^ 52 ≤ 1 / 2 ^ 10 := by rw [div_le_iff₀ (by norm_num)]; linarith
  obtain ⟨S, hS⟩ : ∃ S, S = ∑ i, x i * x i := ⟨_, rfl⟩
  rw [← hS] at h2 hlo hhi ⊢
  have hw : (0 : ℚ) < 1 / 2 ^ 970 := by positivity
  have hS0 : 0 < S := hw.trans_le hlo
  have h5 := mul_le_mul_of_nonneg_right h4 hS0.le
  obtain ⟨h6, h7⟩ := abs_le.mp h2
  obtain ⟨s, hs⟩ := root_finite (q := q) (by linarith) (by
    generalize (2 : ℚ) ^ 1023 = w at *
    linarith)
  unfold Rounded.norm2
  rw [h1]
  obtain ⟨q', g1, -, g3, g4⟩ := c111_root.error _ _ hs
  obtain rfl : q = q' := fin_inj.mp g1
  refine ⟨s, g3, hs, ?_⟩
  have h8 : (1 / 2 ^ 2000 : ℚ) ≤ 1 / 2 ^ 60 * S := by
    refine le_trans ?_ (mul_le_mul_of_nonneg_left hlo (by positivity))
    rw [one_div_mul_one_div]
    refine one_div_le_one_div_of_le (by positivity) ?_
    rw [← pow_add]
    exact pow_le_pow_right₀ (by norm_num) (by norm_num)
  generalize (1 / 2 ^ 2000 : ℚ) = τ at *
  obtain ⟨g5, g6⟩ := abs_le.mp g4
  have e : ((n : ℚ) + 5) / 2 ^ 52 * S = (n + 2) / 2 ^ 52 * S + 3 / 2 ^ 52 * S := by ring
  rw [abs_le, e]
  constructor <;> linarith

theorem ratio_near {a d X Z : ℚ} (ha0 : 0 ≤ a) (ha : a ≤ 1 / 4) (hd0 : 0 ≤ d) (hd : d ≤ 1 / 4) (hX : |X - 1| ≤ d) (hZ : |Z - 1| ≤ a) :
    |X ^ 2 / Z - 1| ≤ 2 * a + 5 * d := by
  obtain ⟨h1, h2⟩ := abs_le.mp hX
  obtain ⟨h3, h4⟩ := abs_le.mp hZ
  have hZ0 : 0 < Z := by linarith
  have h5 : (1 - d) ^ 2 ≤ X ^ 2 := pow_le_pow_left₀ (by linarith) (by linarith) 2
  have h6 : X ^ 2 ≤ (1 + d) ^ 2 := pow_le_pow_left₀ (by linarith) (by linarith) 2
  have h7 : 0 ≤ a * d := mul_nonneg ha0 hd0
  have h8 : d * d ≤ 1 / 4 * d := mul_le_mul_of_nonneg_right hd hd0
  have h9 : a * a ≤ 1 / 4 * a := mul_le_mul_of_nonneg_right ha ha0
  have h10 : a * d ≤ 1 / 4 * d := mul_le_mul_of_nonneg_right ha hd0
  rw [abs_le]
  constructor
  · rw [neg_le_sub_iff_le_add, ← sub_le_iff_le_add, le_div_iff₀ hZ0]
    by_cases hneg : 1 - (2 * a + 5 * d) ≤ 0
    · have := mul_nonpos_of_nonpos_of_nonneg hneg hZ0.le
      exact this.trans (sq_nonneg _)
    · have := mul_le_mul_of_nonneg_left (show Z ≤ 1 + a by linarith) (not_le.mp hneg).le
      nlinarith
  · rw [sub_le_iff_le_add, div_le_iff₀ hZ0]
    have := mul_le_mul_of_nonneg_left (show 1 - a ≤ Z by linarith) (by positivity : 0 ≤ 2 * a + 5 * d + 1)
    nlinarith

/-- The computed factor. -/
theorem inverse_near {n : Nat} (hn : n ≤ 2 ^ 40) {s S : ℚ} (hlo : 1 / 2 ^ 970 ≤ S) (hhi : S ≤ 2 ^ 1023) (hs0 : 0 ≤ s)
    (hs : |s ^ 2 - S| ≤ (n + 5) / 2 ^ 52 * S) :
    ∃ c, (fin 1 : Num binary64) / fin s = fin c ∧ 0 < c ∧ |c ^ 2 * S - 1| ≤ ((n : ℚ) + 8) / 2 ^ 51 := by
  have hn' : (n : ℚ) ≤ 2 ^ 40 := by exact_mod_cast hn
  have h4 : ((n : ℚ) + 5) / 2 ^ 52 ≤ 1 / 4 := by rw [div_le_iff₀ (by norm_num)]; linarith
  have hw : (0 : ℚ) < 1 / 2 ^ 970 := by positivity
  have hS0 : 0 < S := hw.trans_le hlo
  have h5 := mul_le_mul_of_nonneg_right h4 hS0.le
  obtain ⟨h6, h7⟩ := abs_le.mp hs
  have hspos : 0 < s := by
    rcases hs0.eq_or_lt with h | h
    · rw [← h] at h6
      linarith
    · exact h
  -- the size of the norm
  have hs1 : 1 / 2 ^ 486 ≤ s := by
    by_contra hc
    have hc := not_le.mp hc
    have h8 : s ^ 2 < (1 / 2 ^ 486) ^ 2 := pow_lt_pow_left₀ hc hs0 (by norm_num)
    have e : ((1 / 2 ^ 486) ^ 2 : ℚ) = 1 / 4 * (1 / 2 ^ 970) := by
      rw [div_pow, one_pow, ← pow_mul, show 486 * 2 = 2 + 970 from rfl, pow_add, ← one_div_mul_one_div]
      norm_num only
    rw [e] at h8
    linarith
  have hs2 : s ≤ 2 ^ 512 := by
    by_contra hc
    have hc := not_le.mp hc
    have h8 : (2 ^ 512) ^ 2 < s ^ 2 := pow_lt_pow_left₀ hc (by positivity) (by norm_num)
    have e : ((2 ^ 512) ^ 2 : ℚ) = 2 * 2 ^ 1023 := by
      rw [← pow_mul, show 512 * 2 = 1 + 1023 from rfl, pow_add, pow_one]
    rw [e] at h8
    generalize (2 : ℚ) ^ 1023 = w at *
    linarith
  have hinv : 1 / s ≤ 2 ^ 486 := by
    rw [div_le_iff₀ hspos]
    rw [div_le_iff₀ (by positivity)] at hs1
    linarith
  obtain ⟨c, hc⟩ := range_double (q := 1 / s) (by
    rw [abs_of_pos (by positivity)]
    refine hinv.trans ?_
    calc (2 : ℚ) ^ 486 ≤ 2 ^ 1023 := pow_le_pow_right₀ (by norm_num) (by norm_num)
      _ ≤ 3 / 2 * 2 ^ 1023 := le_mul_of_one_le_left (by positivity) (by norm_num))
  have hd : (fin 1 : Num binary64) / fin s = fin c := by
    show Fl.div binary64 (.fin 1) (.fin s) = .fin c
    simp only [Fl.div, hspos.ne', if_false]
    exact hc
  have herr := rounds_binary64.error _ _ hc
  rw [abs_of_pos (by positivity : 0 < 1 / s)] at herr
  have hη : (1 / 2 ^ 1075 : ℚ) * s ≤ 1 / 2 ^ 53 := by
    calc (1 / 2 ^ 1075 : ℚ) * s ≤ 1 / 2 ^ 1075 * 2 ^ 512 := mul_le_mul_of_nonneg_left hs2 (by positivity)
      _ ≤ 1 / 2 ^ 53 := by
        rw [one_div_mul_eq_div, div_le_div_iff₀ (by positivity) (by positivity), one_mul, ← pow_add]
        exact pow_le_pow_right₀ (by norm_num) (by norm_num)
  have hX : |c * s - 1| ≤ 1 / 2 ^ 52 := by
    have e : c * s - 1 = (c - 1 / s) * s := by field_simp
    rw [e, abs_mul, abs_of_pos hspos]
    calc |c - 1 / s| * s ≤ (1 / 2 ^ 53 * (1 / s) + 1 / 2 ^ 1075) * s := mul_le_mul_of_nonneg_right herr hs0
      _ = 1 / 2 ^ 53 + 1 / 2 ^ 1075 * s := by rw [add_mul, mul_assoc, one_div_mul_cancel hspos.ne', mul_one]
      _ ≤ 1 / 2 ^ 53 + 1 / 2 ^ 53 := by linarith
      _ = 1 / 2 ^ 52 := by norm_num
  have hZ : |s ^ 2 / S - 1| ≤ ((n : ℚ) + 5) / 2 ^ 52 := by
    have e : s ^ 2 / S - 1 = (s ^ 2 - S) / S := by field_simp
    rw [e, abs_div, abs_of_pos hS0, div_le_iff₀ hS0]
    exact hs
  refine ⟨c, hd, ?_, ?_⟩
  · have h8 := (abs_le.mp hX).1
    by_contra hcn
    have : c * s ≤ 0 := mul_nonpos_of_nonpos_of_nonneg (not_lt.mp hcn) hs0
    norm_num at h8
    linarith
  · have := ratio_near (a := ((n : ℚ) + 5) / 2 ^ 52) (d := 1 / 2 ^ 52)
      (div_nonneg (add_nonneg (Nat.cast_nonneg _) (by norm_num)) (by norm_num)) h4 (by norm_num) (by norm_num) hX hZ
    have e : (c * s) ^ 2 / (s ^ 2 / S) = c ^ 2 * S := by field_simp
    rw [e] at this
    refine this.trans ?_
    rw [show 2 * (((n : ℚ) + 5) / 2 ^ 52) + 5 * (1 / 2 ^ 52) = (2 * n + 15) / 2 ^ 52 by ring,
      show ((n : ℚ) + 8) / 2 ^ 51 = (2 * n + 16) / 2 ^ 52 by ring]
    exact div_le_div_of_nonneg_right (by linarith) (by norm_num)

theorem square_near {u η y z : ℚ} (hu : 0 ≤ u) (hu1 : u ≤ 1 / 8) (hη : 0 ≤ η) (hη1 : η ≤ 1 / 8) (hz : |z| ≤ 2) (h : |y - z| ≤ u * |z| + η) :
    |y * y - z * z| ≤ 3 * u * (z * z) + 5 * η := by
  have e : y * y - z * z = (y - z) * (y - z) + 2 * z * (y - z) := by ring
  have hz0 := abs_nonneg z
  have h1 : |(y - z) * (y - z)| ≤ (u * |z| + η) * (u * |z| + η) := by
    rw [abs_mul]
    exact mul_le_mul h h (abs_nonneg _) (by positivity)
  have h2 : |2 * z * (y - z)| ≤ 2 * |z| * (u * |z| + η) := by
    rw [abs_mul, abs_mul, abs_two]
    exact mul_le_mul_of_nonneg_left h (by positivity)
  have e2 : z * z = |z| * |z| := (abs_mul_abs_self z).symm
  have h3 := abs_add_le ((y - z) * (y - z)) (2 * z * (y - z))
  rw [← e, e2] at h3
  rw [e2]
  have k1 : u * u * (|z| * |z|) ≤ 1 / 8 * (u * (|z| * |z|)) := by
    have := mul_le_mul_of_nonneg_right hu1 (by positivity : 0 ≤ u * (|z| * |z|))
    linarith
  have k2 : u * |z| * η ≤ 1 / 4 * η := by
    refine mul_le_mul_of_nonneg_right ?_ hη
    calc u * |z| ≤ 1 / 8 * 2 := mul_le_mul hu1 hz hz0 (by norm_num)
      _ = 1 / 4 := by norm_num
  have k3 : η * η ≤ 1 / 8 * η := mul_le_mul_of_nonneg_right hη1 hη
  have k4 : |z| * η ≤ 2 * η := mul_le_mul_of_nonneg_right hz hη
  have k5 : 0 ≤ u * (|z| * |z|) := by positivity
  nlinarith

theorem unit_vec {n : Nat} (x : Fin n → Num binary64) (c : ℚ) (h : (fin 1 : Num binary64) / Rounded.norm2 root64 (vec x) = fin c) :
    Rounded.unit root64 (vec x) = .ok (vec fun i => x i * fin c) := by
  unfold Rounded.unit
  rw [h]
  show loop (vec x).length (scaleBody (· * ·) (.val (fin c))) (vec x) = _
  rw [vec_length]
  exact scale_val (· * ·) x (fin c)

/-! ### C125 -/

/-- C125: the unit vector of a vector of doubles that is not zero has length one, up to rounding. -/
def C125 : Prop := ∀ (n : Nat) (_ : n ≤ 2 ^ 40) (x : Fin n → ℚ), (∀ i, binary64 (x i) = .fin (x i)) → (∃ i, x i ≠ 0) →
  ∃ y : Fin n → ℚ, Rounded.unit root64 (vec fun i => fin (x i)) = .ok (vec fun i => fin (y i)) ∧ |∑ i, y i * y i - 1| ≤ ((n : ℚ) + 10) / 2 ^ 51

/-- C125 fails: the square of a small element is zero. -/
theorem c125_violated : ¬ C125 := by
  intro h
  obtain ⟨y, h1, h2⟩ := h 1 (by norm_num) (fun _ => 1 / 2 ^ 600) (fun _ => by decide +kernel) ⟨0, by positivity⟩
  have h3 : Rounded.unit root64 (vec fun _ : Fin 1 => (fin (1 / 2 ^ 600) : Num binary64)) = .ok (vec fun _ : Fin 1 => fin 0) := by
    decide +kernel
  rw [h3, Out.ok.injEq] at h1
  have h4 := fin_inj.mp (congrFun (vec_inj.mp h1) 0)
  rw [Fin.sum_univ_one, ← h4] at h2
  norm_num at h2

theorem binary64_nonneg_cases {q : ℚ} (h : 0 ≤ q) : binary64 q = .inf false ∨ ∃ r, 0 ≤ r ∧ binary64 q = .fin r := by
  rw [binary64_near]
  split
  · exact .inr ⟨_, near64_nonneg h, rfl⟩
  · exact .inl (by simp [not_lt.mpr h])

theorem binary64_overflow {q : ℚ} (h : 2 ^ 1024 ≤ q) : binary64 q = .inf false := by
  have h1 : near64 (2 ^ 1024) = 2 ^ 1024 := by decide +kernel
  have h2 := near64_mono h
  have h0 : (0 : ℚ) < 2 ^ 1024 := by positivity
  rw [h1] at h2
  rw [binary64_near]
  generalize (2 : ℚ) ^ 1024 = w at *
  rw [if_neg (by rw [abs_of_pos (h0.trans_le h2)]; exact not_lt.mpr h2)]
  simp [(h0.trans_le h).le]

theorem binary64_underflow {q : ℚ} (h0 : 0 ≤ q) (h : q ≤ 1 / 2 ^ 1075) : binary64 q = .fin 0 := by
  have h1 : near64 (1 / 2 ^ 1075) = 0 := by decide +kernel
  have h2 := near64_mono h
  rw [h1] at h2
  have h3 : near64 q = 0 := le_antisymm h2 (near64_nonneg h0)
  rw [binary64_near, h3, abs_zero, if_pos (by positivity)]

/-- A sum of squares is not negative and not NaN. -/
def Pos (t : Num binary64) : Prop := t = .inf false ∨ ∃ r, 0 ≤ r ∧ t = fin r

theorem pos_add {s t : Num binary64} (hs : Pos s) (ht : Pos t) : Pos (s + t) ∧ (s = .inf false ∨ t = .inf false → s + t = .inf false) := by
  rcases hs with rfl | ⟨r, hr, rfl⟩ <;> rcases ht with rfl | ⟨r', hr', rfl⟩
  · exact ⟨.inl rfl, fun _ => rfl⟩
  · exact ⟨.inl rfl, fun _ => rfl⟩
  · exact ⟨.inl rfl, fun _ => rfl⟩
  · refine ⟨?_, fun h => ?_⟩
    · exact binary64_nonneg_cases (add_nonneg hr hr')
    · rcases h with h | h <;> cases h

theorem squares_infinite (l : List ℚ) (s : Num binary64) (hs : Pos s) (h : s = .inf false ∨ ∃ q ∈ l, 2 ^ 512 ≤ |q|) :
    (l.map fun q => (fin q : Num binary64)).foldl (fun a b => a + b * b) s = .inf false := by
  induction l generalizing s with
  | nil =>
    rcases h with h | ⟨q, hq, -⟩
    · exact h
    · cases hq
  | cons a l ih =>
    rw [List.map_cons, List.foldl_cons]
    have hp : Pos ((fin a : Num binary64) * fin a) := binary64_nonneg_cases (mul_self_nonneg a)
    obtain ⟨h1, h2⟩ := pos_add hs hp
    refine ih _ h1 ?_
    rcases h with h | ⟨q, hq, hb⟩
    · exact .inl (h2 (.inl h))
    · rcases List.mem_cons.mp hq with rfl | hq
      · left
        refine h2 (.inr (binary64_overflow ?_))
        have : (2 ^ 512 : ℚ) * 2 ^ 512 ≤ |q| * |q| := mul_self_le_mul_self (by positivity) hb
        rwa [abs_mul_abs_self, ← pow_add] at this
      · exact .inr ⟨q, hq, hb⟩

theorem squares_zero (l : List ℚ) (h : ∀ q ∈ l, |q| ≤ 1 / 2 ^ 538) :
    (l.map fun q => (fin q : Num binary64)).foldl (fun a b => a + b * b) 0 = 0 := by
  induction l with
  | nil => rfl
  | cons a l ih =>
    rw [List.map_cons, List.foldl_cons]
    have h1 : (fin a : Num binary64) * fin a = 0 := by
      refine binary64_underflow (mul_self_nonneg a) ?_
      have h2 : |a| * |a| ≤ 1 / 2 ^ 538 * (1 / 2 ^ 538) := mul_self_le_mul_self (abs_nonneg a) (h a (by simp))
      rw [abs_mul_abs_self, one_div_mul_one_div, ← pow_add] at h2
      exact h2.trans (one_div_le_one_div_of_le (by positivity) (pow_le_pow_right₀ (by norm_num) (by norm_num)))
    have h2 : (0 : Num binary64) + 0 = 0 := by decide +kernel
    rw [h1, h2]
    exact ih fun q hq => h q (by simp [hq])

theorem vec_map {n : Nat} (x : Fin n → ℚ) : (vec fun i => (fin (x i) : Num binary64)) = (List.ofFn x).map fun q => fin q := by
  rw [vec, List.map_ofFn]
  rfl

theorem unit_zero {n : Nat} (x : Fin n → ℚ)
    (h : (if Rounded.isInf ((fin 1 : Num binary64) / Rounded.norm2 root64 (vec fun i => fin (x i))) then 0
      else (fin 1 : Num binary64) / Rounded.norm2 root64 (vec fun i => fin (x i))) = fin 0) :
    Rounded.unit root64 (vec fun i => fin (x i)) = .ok (vec fun _ : Fin n => (fin 0 : Num binary64)) := by
  unfold Rounded.unit
  show loop (vec fun i => (fin (x i) : Num binary64)).length (scaleBody (· * ·) (.val (if _ then _ else _))) _ = _
  rw [h, vec_length, scale_val]
  refine congrArg (fun f : Fin n → Num binary64 => Out.ok (vec f)) (funext fun i => ?_)
  have h0 : binary64 0 = .fin 0 := by decide +kernel
  show binary64 (x i * 0) = .fin 0
  rw [mul_zero, h0]

/-- C125: the unit vector is zero if an element of the vector is too large. -/
theorem c125_large {n : Nat} (x : Fin n → ℚ) (i : Fin n) (hi : 2 ^ 512 ≤ |x i|) :
    Rounded.unit root64 (vec fun i => fin (x i)) = .ok (vec fun _ : Fin n => (fin 0 : Num binary64)) := by
  apply unit_zero
  have h : Rounded.norm2 root64 (vec fun i => (fin (x i) : Num binary64)) = .inf false := by
    unfold Rounded.norm2
    rw [vec_map, squares_infinite (List.ofFn x) 0 (.inr ⟨0, le_rfl, rfl⟩) (.inr ⟨x i, List.mem_ofFn.mpr ⟨i, rfl⟩, hi⟩)]
    rfl
  rw [h]
  rfl

/-- C125: the unit vector is zero if all elements are too small. -/
theorem c125_small {n : Nat} (x : Fin n → ℚ) (hx : ∀ i, |x i| ≤ 1 / 2 ^ 538) :
    Rounded.unit root64 (vec fun i => fin (x i)) = .ok (vec fun _ : Fin n => (fin 0 : Num binary64)) := by
  apply unit_zero
  have h : Rounded.norm2 root64 (vec fun i => (fin (x i) : Num binary64)) = fin 0 := by
    unfold Rounded.norm2
    rw [vec_map, squares_zero _ (by simpa using hx)]
    decide +kernel
  rw [h]
  rfl

/-- C125: for vectors whose length is neither too large nor too small the unit vector has length one, and its elements are those
of the vector times a factor, up to rounding. -/
theorem c125_partial {n : Nat} (hn : n ≤ 2 ^ 40) (x : Fin n → ℚ) (hlo : 1 / 2 ^ 970 ≤ ∑ i, x i * x i)
    (hhi : ∑ i, x i * x i ≤ 2 ^ 1023) :
    ∃ (c : ℚ) (y : Fin n → ℚ), Rounded.unit root64 (vec fun i => fin (x i)) = .ok (vec fun i => (fin (y i) : Num binary64)) ∧
      0 < c ∧ |c ^ 2 * (∑ i, x i * x i) - 1| ≤ ((n : ℚ) + 8) / 2 ^ 51 ∧
      (∀ i, |y i - c * x i| ≤ 1 / 2 ^ 53 * |c * x i| + 1 / 2 ^ 1075) ∧ |∑ i, y i * y i - 1| ≤ ((n : ℚ) + 10) / 2 ^ 51 := by
  obtain ⟨s, hs0, hs, he⟩ := norm2_near hn x hlo hhi
  obtain ⟨c, hc, hcpos, hcS⟩ := inverse_near hn hlo hhi hs0 he
  have hn' : (n : ℚ) ≤ 2 ^ 40 := by exact_mod_cast hn
  have hδ : ((n : ℚ) + 8) / 2 ^ 51 ≤ 1 / 4 := by rw [div_le_iff₀ (by norm_num)]; linarith
  have hz : ∀ i, |c * x i| ≤ 2 := by
    intro i
    have h1 : x i * x i ≤ ∑ j, x j * x j := Finset.single_le_sum (f := fun j => x j * x j) (fun j _ => mul_self_nonneg _) (Finset.mem_univ i)
    have h2 : (c * x i) ^ 2 ≤ 2 := by
      have h3 := mul_le_mul_of_nonneg_left h1 (sq_nonneg c)
      have h4 := (abs_le.mp hcS).2
      rw [mul_pow, pow_two (x i)]
      linarith
    exact abs_le_of_sq_le_sq (h2.trans (by norm_num)) (by norm_num)
  have hy : ∀ i, ∃ y, binary64 (x i * c) = .fin y := fun i => range_double (by
    rw [mul_comm]
    refine (hz i).trans ?_
    have : (2 : ℚ) ^ 1 ≤ 2 ^ 1023 := pow_le_pow_right₀ (by norm_num) (by norm_num)
    generalize (2 : ℚ) ^ 1023 = w at *
    linarith)
  choose y hy using hy
  have hyerr : ∀ i, |y i - c * x i| ≤ 1 / 2 ^ 53 * |c * x i| + 1 / 2 ^ 1075 := fun i => by
    have := rounds_binary64.error _ _ (hy i)
    rwa [mul_comm (x i) c] at this
  refine ⟨c, y, ?_, hcpos, hcS, hyerr, ?_⟩
  · rw [unit_vec _ c (by rw [hs]; exact hc)]
    exact congrArg (fun f : Fin n → Num binary64 => Out.ok (vec f)) (funext fun i => hy i)
  · have hη : (1 / 2 ^ 1075 : ℚ) ≤ 1 / 2 ^ 100 := one_div_le_one_div_of_le (by positivity) (pow_le_pow_right₀ (by norm_num) (by norm_num))
    have hη0 : (0 : ℚ) ≤ 1 / 2 ^ 1075 := by positivity
    clear hlo hhi hs he
    generalize (1 / 2 ^ 1075 : ℚ) = η at *
    have h1 : |∑ i, y i * y i - ∑ i, c * x i * (c * x i)| ≤ ∑ i, (3 * (1 / 2 ^ 53) * (c * x i * (c * x i)) + 5 * η) := by
      rw [← Finset.sum_sub_distrib]
      refine (Finset.abs_sum_le_sum_abs _ _).trans (Finset.sum_le_sum fun i _ => ?_)
      exact square_near (by norm_num) (by norm_num) hη0 (hη.trans (by norm_num)) (hz i) (hyerr i)
    have e : ∑ i, c * x i * (c * x i) = c ^ 2 * ∑ i, x i * x i := by
      rw [Finset.mul_sum]
      exact Finset.sum_congr rfl fun i _ => by ring
    rw [Finset.sum_add_distrib, ← Finset.mul_sum, e, Finset.sum_const, Finset.card_univ, Fintype.card_fin, nsmul_eq_mul] at h1
    have h2 : (n : ℚ) * (5 * η) ≤ 2 ^ 40 * (5 * (1 / 2 ^ 100)) := mul_le_mul hn' (by linarith) (by positivity) (by norm_num)
    obtain ⟨k1, k2⟩ := abs_le.mp h1
    obtain ⟨k3, k4⟩ := abs_le.mp hcS
    have e3 : ((n : ℚ) + 10) / 2 ^ 51 = (n + 8) / 2 ^ 51 + 2 / 2 ^ 51 := by ring
    rw [abs_le, e3]
    norm_num at h2 ⊢
    norm_num at k1 k2
    constructor <;> linarith

/-- NaN. -/
def notANumber : Num binary64 := Fl.nan

theorem foldl_nan (v : List (Num binary64)) (a : Num binary64) (h : a = notANumber ∨ notANumber ∈ v) :
    v.foldl (fun a b => a + b * b) a = notANumber := by
  induction v generalizing a with
  | nil => exact h.resolve_right (by simp)
  | cons b l ih =>
    apply ih
    rcases h with rfl | h
    · exact .inl rfl
    rcases List.mem_cons.mp h with rfl | h
    · left
      rcases a with _ | s | p <;> rfl
    · exact .inr h

/-- A NaN is not hidden: all elements of the unit vector are NaN. -/
theorem c125_nan {n : Nat} (x : Fin n → Num binary64) (k : Fin n) (h : x k = notANumber) :
    Rounded.unit root64 (vec x) = .ok (vec fun _ : Fin n => notANumber) := by
  have hm : notANumber ∈ vec x := by
    rw [← h]
    simp [vec]
  have h1 : Rounded.norm2 root64 (vec x) = notANumber := by
    unfold Rounded.norm2
    rw [foldl_nan _ _ (.inr hm)]
    rfl
  unfold Rounded.unit mulScalar
  rw [h1, vec_length]
  show loop n (scaleBody (· * ·) (.val notANumber)) (vec x) = _
  rw [scale_val]
  congr 2
  funext i
  rcases x i with _ | s | p <;> rfl

/-- The hypotheses hold: vectors that are too large, too small and neither. -/
example : ((2 : ℚ) ^ 512 ≤ |(![2 ^ 600, 1] : Fin 2 → ℚ) 0|) ∧ (∀ i, |(![1 / 2 ^ 540, -1 / 2 ^ 600] : Fin 2 → ℚ) i| ≤ 1 / 2 ^ 538) ∧
    1 / 2 ^ 970 ≤ ∑ i, (![1 / 3, -2 ^ 500] : Fin 2 → ℚ) i * (![1 / 3, -2 ^ 500] : Fin 2 → ℚ) i ∧
    ∑ i, (![1 / 3, -2 ^ 500] : Fin 2 → ℚ) i * (![1 / 3, -2 ^ 500] : Fin 2 → ℚ) i ≤ 2 ^ 1023 := by
  refine ⟨?_, ?_, ?_, ?_⟩ <;> decide +kernel

end Disa.Props
