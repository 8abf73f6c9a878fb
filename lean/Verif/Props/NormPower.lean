import Verif.Dense.NormPower
import Verif.Props.NormFloat
import Mathlib.Analysis.SpecialFunctions.Pow.Real

/-!
# Property C225: norms of order three and more with doubles
-/

namespace Disa.Props

open Disa Spec Dense Num

/-- What is used of `std::cbrt`. -/
structure CubeRoot (cbrt : Num binary64 → Num binary64) (δ : ℚ) : Prop where
  error : ∀ q : ℚ, 1 / 2 ^ 980 ≤ q → q ≤ 2 ^ 1023 → ∃ r, 0 ≤ r ∧ cbrt (fin q) = fin r ∧ |r ^ 3 - q| ≤ δ * q

/-- What is used of `std::pow`: whole powers, where results that underflow may be wrong by two times the smallest double, and
powers with exponents between zero and one. -/
structure PowerFunction (pow : Num binary64 → Num binary64 → Num binary64) (δ : ℚ) : Prop where
  whole : ∀ (q : ℚ) (p : Nat), 0 ≤ q ∨ p % 2 = 0 → |q| ^ p ≤ 2 ^ 1022 →
    ∃ r, 0 ≤ r ∧ binary64 r = .fin r ∧ pow (fin q) (fin p) = fin r ∧ |r - |q| ^ p| ≤ δ * |q| ^ p + 1 / 2 ^ 1073
  part : ∀ q e : ℚ, 1 / 2 ^ 980 ≤ q → q ≤ 2 ^ 1023 → 0 < e → e ≤ 1 →
    ∃ r : ℚ, pow (fin q) (fin e) = fin r ∧ |(r : ℝ) - (q : ℝ) ^ (e : ℝ)| ≤ δ * (q : ℝ) ^ (e : ℝ)

/-- Sums of terms that are nearly right. -/
theorem terms_near {n : Nat} (hn : n ≤ 2 ^ 40) {t T : Fin n → ℚ} {γ : ℚ} (hγ0 : 0 ≤ γ) (hγ : γ ≤ 1 / 8)
    (ht : ∀ i, 0 ≤ t i ∧ binary64 (t i) = .fin (t i)) (hT : ∀ i, 0 ≤ T i) (h : ∀ i, |t i - T i| ≤ γ * T i + 1 / 2 ^ 1073)
    (hlo : 1 / 2 ^ 970 ≤ ∑ i, T i) (hhi : ∑ i, T i ≤ 2 ^ 1022) :
    ∃ s, ((List.ofFn t).map fun q => (fin q : Num binary64)).foldl (· + ·) 0 = fin s ∧ 1 / 2 ^ 980 ≤ s ∧ s ≤ 2 ^ 1023 ∧
      |s - ∑ i, T i| ≤ (γ + n / 2 ^ 51) * ∑ i, T i := by
  have hn' : (n : ℚ) ≤ 2 ^ 40 := by exact_mod_cast hn
  have hn1 : (1 : ℚ) ≤ n := by
    rcases Nat.eq_zero_or_pos n with rfl | h0
    · rw [Finset.univ_eq_empty, Finset.sum_empty] at hlo
      have : (0 : ℚ) < 1 / 2 ^ 970 := by positivity
      exact absurd hlo (not_le.mpr this)
    · exact_mod_cast h0
  have hP := pow_double (n := n) (hn.trans (by norm_num))
  have hP1 : (1 : ℚ) ≤ (1 + 1 / 2 ^ 53) ^ n := one_le_pow₀ (by norm_num)
  have hS0 : 0 ≤ ∑ i, T i := Finset.sum_nonneg fun i _ => hT i
  have hsum : |∑ i, t i - ∑ i, T i| ≤ (γ + 1 / 2 ^ 60) * ∑ i, T i := by
    rw [← Finset.sum_sub_distrib]
    refine (Finset.abs_sum_le_sum_abs _ _).trans ((Finset.sum_le_sum fun i _ => h i).trans ?_)
    rw [Finset.sum_add_distrib, ← Finset.mul_sum, Finset.sum_const, Finset.card_univ, Fintype.card_fin, nsmul_eq_mul, add_mul]
    refine add_le_add le_rfl ?_
    have e : (1 : ℚ) / 2 ^ 1073 = 1 / 2 ^ 970 * (1 / 2 ^ 103) := by
      rw [show (1073 : ℕ) = 970 + 103 from rfl, pow_add, one_div_mul_one_div]
    rw [e]
    clear e
    have hw0 : (0 : ℚ) ≤ 1 / 2 ^ 970 := by positivity
    generalize (1 : ℚ) / 2 ^ 970 = w at *
    refine (mul_le_mul hn' (mul_le_mul_of_nonneg_right hlo (by norm_num)) (by positivity) (by norm_num)).trans ?_
    norm_num
    linarith
  have hS2 : (0 : ℚ) < 1 / 2 ^ 980 := by positivity
  have hS3 : (1 : ℚ) / 2 ^ 980 ≤ 1 / 2 * (1 / 2 ^ 970) := by
    rw [one_div_mul_one_div, ← pow_succ']
    exact one_div_le_one_div_of_le (by positivity) (pow_le_pow_right₀ (by norm_num) (by norm_num))
  have hS4 : (2 : ℚ) ^ 1023 = 2 * 2 ^ 1022 := by rw [← pow_succ']
  obtain ⟨k1, k2⟩ := abs_le.mp hsum
  generalize hw : ∑ i, T i = S at *
  have hγS : γ * S ≤ 1 / 8 * S := mul_le_mul_of_nonneg_right hγ hS0
  have hγS0 : 0 ≤ γ * S := mul_nonneg hγ0 hS0
  have hq : (n : ℚ) / 2 ^ 52 ≤ 1 / 2 ^ 12 := by rw [div_le_iff₀ (by norm_num)]; linarith
  have hs9 : ∑ i, t i ≤ 5 / 4 * S := by
    rw [add_mul] at k2
    norm_num at k2
    linarith
  have ht0 : 0 ≤ ∑ i, t i := Finset.sum_nonneg fun i _ => (ht i).1
  obtain ⟨s, g1, -, -, -, g5⟩ := sums_near (List.ofFn t) (fun q hq => by
    obtain ⟨i, rfl⟩ := List.mem_ofFn.mp hq
    exact ht i) (3 / 2 * 2 ^ 1023) (fun q hq => range_double hq) (by
    rw [List.sum_ofFn, List.length_ofFn]
    calc _ ≤ (2 : ℚ) * (5 / 4 * S) := mul_le_mul (hP.trans (by linarith)) hs9 ht0 (by norm_num)
      _ ≤ _ := by
        rw [hS4]
        generalize (2 : ℚ) ^ 1022 = w at *
        linarith)
  rw [List.sum_ofFn, List.length_ofFn] at g5
  have g6 : |s - ∑ i, t i| ≤ n / 2 ^ 52 * (5 / 4 * S) :=
    g5.trans (mul_le_mul (by linarith) hs9 ht0 (by positivity))
  have g7 : |s - S| ≤ (γ + n / 2 ^ 51) * S := by
    have := abs_add_le (s - ∑ i, t i) (∑ i, t i - S)
    rw [sub_add_sub_cancel] at this
    refine this.trans ((add_le_add g6 hsum).trans ?_)
    have h1 : 1 / 2 ^ 60 * S ≤ 3 / 4 * (n / 2 ^ 52) * S := by
      refine mul_le_mul_of_nonneg_right ?_ hS0
      rw [← mul_div_assoc, le_div_iff₀ (by norm_num)]
      norm_num
      linarith
    have e : (γ + n / 2 ^ 51) * S = n / 2 ^ 52 * (5 / 4 * S) + (γ * S + 3 / 4 * (n / 2 ^ 52) * S) := by ring
    rw [e, add_mul]
    linarith
  obtain ⟨l1, l2⟩ := abs_le.mp g7
  have e : (γ + n / 2 ^ 51) * S = γ * S + 2 * (n / 2 ^ 52 * S) := by ring
  have h3 : n / 2 ^ 52 * S ≤ 1 / 2 ^ 12 * S := mul_le_mul_of_nonneg_right hq hS0
  rw [e] at l1 l2
  norm_num at h3
  refine ⟨s, g1, ?_, ?_, g7⟩
  · generalize (1 : ℚ) / 2 ^ 980 = w at *
    generalize (1 : ℚ) / 2 ^ 970 = w' at *
    linarith
  · rw [hS4]
    generalize (2 : ℚ) ^ 1022 = w at *
    linarith

/-! ### Order three -/

theorem cube_near {x : ℚ} (hx : |x| ^ 3 ≤ 2 ^ 1022) :
    ∃ b, (fin |x| * fin |x| * fin |x| : Num binary64) = fin b ∧ 0 ≤ b ∧ binary64 b = .fin b ∧
      |b - |x| ^ 3| ≤ 3 / 2 ^ 53 * |x| ^ 3 + 1 / 2 ^ 1073 := by
  have hx0 := abs_nonneg x
  generalize |x| = y at *
  have hbig : (1 : ℚ) ≤ 2 ^ 1022 := one_le_pow₀ (by norm_num)
  have hS4 : (2 : ℚ) ^ 1023 = 2 * 2 ^ 1022 := by rw [← pow_succ']
  have hy2 : y * y ≤ 1 + y ^ 3 := by
    rcases le_total y 1 with h | h
    · nlinarith [pow_nonneg hx0 3]
    · nlinarith [mul_nonneg (mul_nonneg hx0 hx0) (sub_nonneg.mpr h)]
  have h3 : 0 ≤ y ^ 3 := by positivity
  obtain ⟨a, ha⟩ := range_double (q := y * y) (by
    rw [abs_of_nonneg (by positivity), hS4]
    generalize (2 : ℚ) ^ 1022 = w at *
    clear hS4
    linarith)
  have hη : (1 : ℚ) / 2 ^ 1073 = 4 * (1 / 2 ^ 1075) := by
    rw [show (1075 : ℕ) = 2 + 1073 from rfl, pow_add, ← one_div_mul_one_div]
    ring
  have hη0 : (0 : ℚ) < 1 / 2 ^ 1075 := by positivity
  have hη1 : (1 : ℚ) / 2 ^ 1075 ≤ 1 / 2 ^ 60 :=
    one_div_le_one_div_of_le (by positivity) (pow_le_pow_right₀ (by norm_num) (by norm_num))
  have ea := rounds_binary64.error _ _ ha
  have ha0 : 0 ≤ a := binary64_nonneg (by positivity) ha
  rw [abs_of_nonneg (by positivity : 0 ≤ y * y)] at ea
  rw [hη]
  generalize heta : (1 : ℚ) / 2 ^ 1075 = η at *
  have e1 : |a * y - y ^ 3| ≤ 1 / 2 ^ 53 * y ^ 3 + η * y := by
    rw [show a * y - y ^ 3 = (a - y * y) * y by ring, abs_mul, abs_of_nonneg hx0]
    refine (mul_le_mul_of_nonneg_right ea hx0).trans (le_of_eq ?_)
    ring
  have hηy : η * y ≤ η + η * y ^ 3 := by
    rcases le_total y 1 with h | h
    · nlinarith
    · have : y ≤ y ^ 3 := by nlinarith [mul_nonneg hx0 (sub_nonneg.mpr h)]
      nlinarith
  have hη3 : η * y ^ 3 ≤ 1 / 2 ^ 60 * y ^ 3 := mul_le_mul_of_nonneg_right hη1 h3
  obtain ⟨i1, i2⟩ := abs_le.mp e1
  have hay0 : 0 ≤ a * y := by positivity
  norm_num at hη1 hη3
  obtain ⟨b, hb⟩ := range_double (q := a * y) (by
    rw [abs_of_nonneg hay0, hS4]
    generalize (2 : ℚ) ^ 1022 = w at *
    clear hS4
    norm_num at i2
    linarith)
  have eb := rounds_binary64.error _ _ hb
  rw [abs_of_nonneg hay0, heta] at eb
  refine ⟨b, ?_, binary64_nonneg hay0 hb, binary64_idem hb, ?_⟩
  · have e : (fin y * fin y : Num binary64) = fin a := ha
    rw [e]
    exact hb
  · obtain ⟨j1, j2⟩ := abs_le.mp eb
    norm_num at i1 i2 j1 j2
    rw [abs_le]
    norm_num
    constructor <;> linarith

theorem cubes_vec {n : Nat} (x b : Fin n → ℚ) (h : ∀ i, (fin |x i| * fin |x i| * fin |x i| : Num binary64) = fin (b i)) :
    (vec fun i => (fin (x i) : Num binary64)).foldl (fun a b => a + Rounded.size b * Rounded.size b * Rounded.size b) 0 =
      ((List.ofFn b).map fun q => (fin q : Num binary64)).foldl (· + ·) 0 := by
  rw [vec, List.map_ofFn]
  have e : ∀ (l : List (Num binary64)) (s : Num binary64), l.foldl (fun a b => a + Rounded.size b * Rounded.size b * Rounded.size b) s =
      (l.map fun b => Rounded.size b * Rounded.size b * Rounded.size b).foldl (· + ·) s := fun l s => by rw [List.foldl_map]
  rw [e, List.map_ofFn]
  congr 2
  exact funext h

/-- C225: the norm of order three. -/
theorem c225_cube {cbrt : Num binary64 → Num binary64} {δ : ℚ} (hc : CubeRoot cbrt δ) {n : Nat} (hn : n ≤ 2 ^ 40) (x : Fin n → ℚ)
    (hlo : 1 / 2 ^ 970 ≤ ∑ i, |x i| ^ 3) (hhi : ∑ i, |x i| ^ 3 ≤ 2 ^ 1022) :
    ∃ r, 0 ≤ r ∧ Rounded.norm3 cbrt (vec fun i => (fin (x i) : Num binary64)) = fin r ∧
      |r ^ 3 - ∑ i, |x i| ^ 3| ≤ (2 * δ + (n + 1) / 2 ^ 51) * ∑ i, |x i| ^ 3 := by
  have hδ : 0 ≤ δ := by
    have h1 : (1 : ℚ) / 2 ^ 980 ≤ 1 := by
      rw [div_le_one (by positivity)]
      exact one_le_pow₀ (by norm_num)
    obtain ⟨r, -, -, h⟩ := hc.error 1 h1 (one_le_pow₀ (by norm_num))
    have := (abs_nonneg _).trans h
    linarith
  have hle : ∀ i, |x i| ^ 3 ≤ ∑ i, |x i| ^ 3 := fun i =>
    Finset.single_le_sum (f := fun i => |x i| ^ 3) (fun j _ => by positivity) (Finset.mem_univ i)
  choose b h1 h2 h3 h4 using fun i => cube_near ((hle i).trans hhi)
  obtain ⟨s, g1, g2, g3, g4⟩ := terms_near hn (t := b) (T := fun i => |x i| ^ 3) (by norm_num) (by norm_num) (fun i => ⟨h2 i, h3 i⟩)
    (fun i => by positivity) h4 hlo hhi
  obtain ⟨r, k1, k2, k3⟩ := hc.error s g2 g3
  refine ⟨r, k1, ?_, ?_⟩
  · rw [Rounded.norm3, cubes_vec x b h1, g1, k2]
  have hS0 : 0 ≤ ∑ i, |x i| ^ 3 := Finset.sum_nonneg fun i _ => by positivity
  clear hlo hhi g2 g3 h4 hle
  generalize ∑ i, |x i| ^ 3 = S at *
  have hn' : (n : ℚ) ≤ 2 ^ 40 := by exact_mod_cast hn
  have hg : (3 / 2 ^ 53 + (n : ℚ) / 2 ^ 51) * S ≤ 1 * S := by
    refine mul_le_mul_of_nonneg_right ?_ hS0
    have : (n : ℚ) / 2 ^ 51 ≤ 1 / 2 := by
      rw [div_le_iff₀ (by norm_num)]
      norm_num at hn' ⊢
      linarith
    norm_num at this ⊢
    linarith
  have hs : s ≤ 2 * S := by linarith [(abs_le.mp g4).2]
  have := abs_add_le (r ^ 3 - s) (s - S)
  rw [sub_add_sub_cancel] at this
  have h5 : δ * s ≤ δ * (2 * S) := mul_le_mul_of_nonneg_left hs hδ
  have e : (2 * δ + (n + 1) / 2 ^ 51) * S = δ * (2 * S) + (3 / 2 ^ 53 + n / 2 ^ 51) * S + 1 / 2 ^ 53 * S := by ring
  rw [e]
  have : 0 ≤ 1 / 2 ^ 53 * S := by positivity
  linarith

/-! ### Greater orders -/

theorem powers_vec {n : Nat} {pow : Num binary64 → Num binary64 → Num binary64} {p : Nat} (hp : p < 2 ^ 53) (x b : Fin n → ℚ)
    (h : ∀ i, pow (fin (if p % 2 = 0 then x i else |x i|)) (fin p) = fin (b i)) :
    (vec fun i => (fin (x i) : Num binary64)).foldl
        (fun a b => a + pow (if p % 2 == 0 then b else Rounded.size b) (Rounded.ofNat p)) 0 =
      ((List.ofFn b).map fun q => (fin q : Num binary64)).foldl (· + ·) 0 := by
  rw [vec, List.map_ofFn]
  have e : ∀ (l : List (Num binary64)) (s : Num binary64),
      l.foldl (fun a b => a + pow (if p % 2 == 0 then b else Rounded.size b) (Rounded.ofNat p)) s =
      (l.map fun b => pow (if p % 2 == 0 then b else Rounded.size b) (Rounded.ofNat p)).foldl (· + ·) s :=
    fun l s => by rw [List.foldl_map]
  rw [e, List.map_ofFn]
  congr 2
  funext i
  have hp' : (Rounded.ofNat p : Num binary64) = fin p := binary64_nat hp
  have := h i
  show pow (if p % 2 == 0 then fin (x i) else Rounded.size (fin (x i))) (Rounded.ofNat p) = fin (b i)
  rw [hp', ← this]
  by_cases h2 : p % 2 = 0
  · simp only [h2, beq_self_eq_true, if_true]
  · simp only [h2, beq_iff_eq, if_false]
    rfl

/-- Powers with an exponent between zero and one bring numbers closer to one. -/
theorem rpow_near {a e : ℝ} (ha : 0 < a) (he0 : 0 ≤ e) (he1 : e ≤ 1) : |a ^ e - 1| ≤ |a - 1| := by
  rcases le_total 1 a with h | h
  · have h1 : 1 ≤ a ^ e := Real.one_le_rpow h he0
    have h2 : a ^ e ≤ a := by
      have := Real.rpow_le_rpow_of_exponent_le h he1
      rwa [Real.rpow_one] at this
    rw [abs_of_nonneg (by linarith), abs_of_nonneg (by linarith)]
    linarith
  · have h1 : a ^ e ≤ 1 := Real.rpow_le_one ha.le h he0
    have h2 : a ≤ a ^ e := by
      have := Real.rpow_le_rpow_of_exponent_ge ha h he1
      rwa [Real.rpow_one] at this
    rw [abs_of_nonpos (by linarith), abs_of_nonpos (by linarith)]
    linarith

theorem log_range {S : ℝ} (hlo : 1 / 2 ^ 970 ≤ S) (hhi : S ≤ 2 ^ 1022) : |Real.log S| ≤ 1024 := by
  have h2 : Real.log 2 ≤ 1 := by
    have := Real.log_le_sub_one_of_pos (show (0 : ℝ) < 2 by norm_num)
    linarith
  have h0 : (0 : ℝ) < 1 / 2 ^ 970 := by positivity
  have h3 := Real.log_le_log h0 hlo
  have h4 := Real.log_le_log (h0.trans_le hlo) hhi
  rw [one_div, Real.log_inv, Real.log_pow] at h3
  rw [Real.log_pow] at h4
  have h5 : 0 ≤ Real.log 2 := Real.log_nonneg (by norm_num)
  push_cast at h3 h4
  rw [abs_le]
  constructor <;> linarith

/-- Replacing the exponent by one that is nearly the same. -/
theorem exponent_near {S e f : ℝ} (hlo : 1 / 2 ^ 970 ≤ S) (hhi : S ≤ 2 ^ 1022) {ε : ℝ} (hε : |e - f| ≤ ε) (hε1 : ε ≤ 1 / 1024) :
    |S ^ e - S ^ f| ≤ 2048 * ε * S ^ f := by
  have h0 : (0 : ℝ) < S := lt_of_lt_of_le (by positivity) hlo
  have hl := log_range hlo hhi
  have e1 : S ^ e = S ^ f * Real.exp (Real.log S * (e - f)) := by
    rw [Real.rpow_def_of_pos h0, Real.rpow_def_of_pos h0, ← Real.exp_add]
    ring_nf
  have hf : 0 < S ^ f := Real.rpow_pos_of_pos h0 f
  have ht : |Real.log S * (e - f)| ≤ 1024 * ε := by
    rw [abs_mul]
    exact mul_le_mul hl hε (abs_nonneg _) (by norm_num)
  have := Real.abs_exp_sub_one_le (x := Real.log S * (e - f)) (ht.trans (by linarith))
  rw [e1, show S ^ f * Real.exp (Real.log S * (e - f)) - S ^ f = S ^ f * (Real.exp (Real.log S * (e - f)) - 1) by ring, abs_mul,
    abs_of_pos hf, mul_comm]
  refine mul_le_mul_of_nonneg_right ?_ hf.le
  linarith

theorem order_near {p : Nat} (hp : 4 ≤ p) (hp' : p < 2 ^ 32) :
    ∃ e : ℚ, (fin 1 / Rounded.ofNat p : Num binary64) = fin e ∧ |e - 1 / p| ≤ 1 / 2 ^ 52 * (1 / p) ∧ 0 < e ∧ e ≤ 1 := by
  have h4 : (4 : ℚ) ≤ p := by exact_mod_cast hp
  have h32 : (p : ℚ) ≤ 2 ^ 32 := by exact_mod_cast hp'.le
  have h0 : (0 : ℚ) < p := by linarith
  have i0 : (0 : ℚ) < 1 / p := by positivity
  have i1 : (1 : ℚ) / p ≤ 1 / 4 := one_div_le_one_div_of_le (by norm_num) h4
  have i2 : (1 : ℚ) / 2 ^ 32 ≤ 1 / p := one_div_le_one_div_of_le h0 h32
  obtain ⟨e, he⟩ := range_double (q := 1 / (p : ℚ)) (by
    rw [abs_of_pos i0]
    have : (1 : ℚ) ≤ 2 ^ 1023 := one_le_pow₀ (by norm_num)
    generalize (2 : ℚ) ^ 1023 = w at *
    linarith)
  have er := rounds_binary64.error _ _ he
  have hη : (1 : ℚ) / 2 ^ 1075 ≤ 1 / 2 ^ 100 :=
    one_div_le_one_div_of_le (by positivity) (pow_le_pow_right₀ (by norm_num) (by norm_num))
  rw [abs_of_pos i0] at er
  generalize (1 : ℚ) / 2 ^ 1075 = η at *
  have er2 : |e - 1 / p| ≤ 1 / 2 ^ 52 * (1 / p) := by
    refine er.trans ?_
    norm_num at hη i2 ⊢
    linarith
  obtain ⟨j1, j2⟩ := abs_le.mp er2
  refine ⟨e, ?_, er2, ?_, ?_⟩
  · have hq : (Rounded.ofNat p : Num binary64) = fin p := binary64_nat (hp'.trans (by norm_num))
    rw [hq]
    show Fl.div binary64 (.fin 1) (.fin p) = .fin e
    simp only [Fl.div, h0.ne', if_false]
    exact he
  · have : 1 / 2 ^ 52 * (1 / (p : ℚ)) ≤ 1 / 2 * (1 / p) := mul_le_mul_of_nonneg_right (by norm_num) i0.le
    linarith
  · norm_num at j2 i1
    linarith

/-- C225: the norms of greater orders. -/
theorem c225_power {pow : Num binary64 → Num binary64 → Num binary64} {δ : ℚ} (hδ : δ ≤ 1 / 8) (hw : PowerFunction pow δ) {p : Nat}
    (hp : 4 ≤ p) (hp' : p < 2 ^ 32) {n : Nat} (hn : n ≤ 2 ^ 40) (x : Fin n → ℚ) (hlo : 1 / 2 ^ 970 ≤ ∑ i, |x i| ^ p)
    (hhi : ∑ i, |x i| ^ p ≤ 2 ^ 1022) :
    ∃ r : ℚ, Rounded.normPow pow p (vec fun i => (fin (x i) : Num binary64)) = fin r ∧
      |(r : ℝ) - (∑ i, |(x i : ℝ)| ^ p) ^ (1 / p : ℝ)| ≤
        (3 * δ + n / 2 ^ 50 + 1 / (2 ^ 40 * p)) * (∑ i, |(x i : ℝ)| ^ p) ^ (1 / p : ℝ) := by
  have hδ0 : 0 ≤ δ := by
    have h1 : (1 : ℚ) / 2 ^ 980 ≤ 1 := by
      rw [div_le_one (by positivity)]
      exact one_le_pow₀ (by norm_num)
    obtain ⟨r, -, h⟩ := hw.part 1 1 h1 (one_le_pow₀ (by norm_num)) one_pos le_rfl
    have := (abs_nonneg _).trans h
    rw [Rat.cast_one, Real.one_rpow] at this
    have h2 : (0 : ℝ) ≤ δ := by linarith
    exact_mod_cast h2
  have hle : ∀ i, |x i| ^ p ≤ ∑ i, |x i| ^ p := fun i =>
    Finset.single_le_sum (f := fun i => |x i| ^ p) (fun j _ => by positivity) (Finset.mem_univ i)
  have habs : ∀ i, |(if p % 2 = 0 then x i else |x i|)| = |x i| := fun i => by
    split
    · rfl
    · exact abs_abs _
  choose b h1 h2 h3 h4 using fun i => hw.whole (if p % 2 = 0 then x i else |x i|) p (by
    split
    · exact .inr ‹_›
    · exact .inl (abs_nonneg _)) (by
    rw [habs]
    exact (hle i).trans hhi)
  simp only [habs] at h4
  obtain ⟨s, g1, g2, g3, g4⟩ := terms_near hn (t := b) (T := fun i => |x i| ^ p) hδ0 hδ (fun i => ⟨h1 i, h2 i⟩)
    (fun i => by positivity) h4 hlo hhi
  obtain ⟨e, e1, e2, e3, e4⟩ := order_near hp hp'
  obtain ⟨r, k1, k2⟩ := hw.part s e g2 g3 e3 e4
  refine ⟨r, ?_, ?_⟩
  · rw [Rounded.normPow, powers_vec (hp'.trans (by norm_num)) x b h3, g1, e1, k1]
  have hcast : ∑ i, |(x i : ℝ)| ^ p = ((∑ i, |x i| ^ p : ℚ) : ℝ) := by push_cast; rfl
  rw [hcast]
  clear h4 hle hcast
  generalize ∑ i, |x i| ^ p = S at *
  have hlo' : (1 : ℝ) / 2 ^ 970 ≤ S := by
    have : (((1 : ℚ) / 2 ^ 970 : ℚ) : ℝ) ≤ (S : ℝ) := by exact_mod_cast hlo
    push_cast at this
    exact this
  have hhi' : (S : ℝ) ≤ 2 ^ 1022 := by
    have : (S : ℝ) ≤ ((2 ^ 1022 : ℚ) : ℝ) := by exact_mod_cast hhi
    push_cast at this
    exact this
  have hS0 : (0 : ℝ) < S := lt_of_lt_of_le (by positivity) hlo'
  have hs0 : (0 : ℝ) < s := by
    have : (0 : ℚ) < s := lt_of_lt_of_le (by positivity) g2
    exact_mod_cast this
  have h5 : |(s : ℝ) - S| ≤ (δ + n / 2 ^ 51) * S := by
    have : ((|s - S| : ℚ) : ℝ) ≤ (((δ + n / 2 ^ 51) * S : ℚ) : ℝ) := by exact_mod_cast g4
    push_cast at this
    exact this
  have h6 : |(e : ℝ) - 1 / p| ≤ 1 / 2 ^ 52 * (1 / p) := by
    have : ((|e - 1 / p| : ℚ) : ℝ) ≤ ((1 / 2 ^ 52 * (1 / p) : ℚ) : ℝ) := by exact_mod_cast e2
    push_cast at this
    exact this
  have e3' : (0 : ℝ) ≤ e := by exact_mod_cast e3.le
  have e4' : (e : ℝ) ≤ 1 := by exact_mod_cast e4
  have hδ' : (δ : ℝ) ≤ 1 / 8 := by
    have : (δ : ℝ) ≤ ((1 / 8 : ℚ) : ℝ) := by exact_mod_cast hδ
    push_cast at this
    exact this
  have hδ0' : (0 : ℝ) ≤ δ := by exact_mod_cast hδ0
  have hp4 : (4 : ℝ) ≤ p := by exact_mod_cast hp
  have i0 : (0 : ℝ) < 1 / p := by positivity
  have i1 : (1 : ℝ) / p ≤ 1 / 4 := one_div_le_one_div_of_le (by norm_num) hp4
  have h7 := exponent_near hlo' hhi' h6 (by norm_num at i1 ⊢; linarith)
  clear hlo hhi g2 g3 hlo' hhi' g4
  have h8 : |(s : ℝ) ^ (e : ℝ) - (S : ℝ) ^ (e : ℝ)| ≤ (δ + n / 2 ^ 51) * (S : ℝ) ^ (e : ℝ) := by
    have q1 : (s : ℝ) ^ (e : ℝ) = (S : ℝ) ^ (e : ℝ) * ((s : ℝ) / S) ^ (e : ℝ) := by
      rw [← Real.mul_rpow hS0.le (div_pos hs0 hS0).le, mul_div_cancel₀ _ hS0.ne']
    have q2 := rpow_near (div_pos hs0 hS0) e3' e4'
    have q3 : |(s : ℝ) / S - 1| ≤ δ + n / 2 ^ 51 := by
      rw [div_sub_one hS0.ne', abs_div, abs_of_pos hS0, div_le_iff₀ hS0]
      exact h5
    have q4 : 0 < (S : ℝ) ^ (e : ℝ) := Real.rpow_pos_of_pos hS0 _
    rw [q1, show (S : ℝ) ^ (e : ℝ) * ((s : ℝ) / S) ^ (e : ℝ) - (S : ℝ) ^ (e : ℝ) = (S : ℝ) ^ (e : ℝ) * (((s : ℝ) / S) ^ (e : ℝ) - 1) by ring,
      abs_mul, abs_of_pos q4, mul_comm]
    exact mul_le_mul_of_nonneg_right (q2.trans q3) q4.le
  have hR0 : 0 < (S : ℝ) ^ (1 / p : ℝ) := Real.rpow_pos_of_pos hS0 _
  have hE0 : 0 < (S : ℝ) ^ (e : ℝ) := Real.rpow_pos_of_pos hS0 _
  have hn' : (n : ℝ) ≤ 2 ^ 40 := by exact_mod_cast hn
  have hn0 : (0 : ℝ) ≤ n := Nat.cast_nonneg n
  rw [show (1 : ℝ) / (2 ^ 40 * p) = 1 / 2 ^ 40 * (1 / p) by rw [one_div_mul_one_div]]
  generalize (S : ℝ) ^ (1 / p : ℝ) = R at *
  generalize (S : ℝ) ^ (e : ℝ) = E at *
  generalize (s : ℝ) ^ (e : ℝ) = F at *
  generalize (1 : ℝ) / p = i at *
  have hν : (n : ℝ) / 2 ^ 51 ≤ 1 / 8 := by
    rw [div_le_iff₀ (by norm_num)]
    norm_num at hn' ⊢
    linarith
  rw [show (n : ℝ) / 2 ^ 50 = 2 * (n / 2 ^ 51) by ring]
  have hν0 : (0 : ℝ) ≤ n / 2 ^ 51 := by positivity
  generalize (n : ℝ) / 2 ^ 51 = ν at *
  obtain ⟨a1, a2⟩ := abs_le.mp h7
  obtain ⟨b1, b2⟩ := abs_le.mp h8
  have hER : E ≤ 9 / 8 * R := by
    norm_num at a2
    nlinarith
  have hFE : F ≤ 5 / 4 * E := by nlinarith
  have t1 : |(r : ℝ) - R| ≤ δ * F + (δ + ν) * E + 2048 * (1 / 2 ^ 52 * i) * R := by
    have u1 := abs_add_le ((r : ℝ) - F) (F - E)
    have u2 := abs_add_le ((r : ℝ) - E) (E - R)
    rw [sub_add_sub_cancel] at u1 u2
    linarith
  refine t1.trans ?_
  have t2 : δ * F ≤ δ * (5 / 4 * (9 / 8 * R)) := mul_le_mul_of_nonneg_left (by linarith) hδ0'
  have t3 : (δ + ν) * E ≤ (δ + ν) * (9 / 8 * R) := mul_le_mul_of_nonneg_left hER (by positivity)
  have t4 : 0 ≤ δ * R := by positivity
  have t5 : 0 ≤ ν * R := by positivity
  have t6 : 0 ≤ i * R := by positivity
  norm_num
  nlinarith

/-! ### Functions with these errors -/

/-- There is a double close to any real number in the range. -/
theorem double_real {y : ℝ} (hlo : 1 / 2 ^ 980 ≤ y) (hhi : y ≤ 2 ^ 1023) :
    ∃ r : ℚ, 0 ≤ r ∧ binary64 r = .fin r ∧ |(r : ℝ) - y| ≤ 1 / 2 ^ 52 * y := by
  have hy0 : (0 : ℝ) < y := lt_of_lt_of_le (by positivity) hlo
  obtain ⟨z, hz1, hz2⟩ := exists_rat_btwn (show y < y * (1 + 1 / 2 ^ 60) by norm_num; linarith)
  have hz0 : (0 : ℚ) < z := by
    have : (0 : ℝ) < z := hy0.trans hz1
    exact_mod_cast this
  obtain ⟨r, hr⟩ := range_double (q := z) (by
    rw [abs_of_pos hz0]
    have : (z : ℝ) ≤ ((3 / 2 * 2 ^ 1023 : ℚ) : ℝ) := by
      push_cast
      generalize (2 : ℝ) ^ 1023 = w at *
      norm_num at hz2
      linarith
    exact_mod_cast this)
  have he := rounds_binary64.error _ _ hr
  rw [abs_of_pos hz0] at he
  have he' : |(r : ℝ) - z| ≤ 1 / 2 ^ 53 * z + 1 / 2 ^ 1075 := by
    have : ((|r - z| : ℚ) : ℝ) ≤ ((1 / 2 ^ 53 * z + 1 / 2 ^ 1075 : ℚ) : ℝ) := by exact_mod_cast he
    push_cast at this
    exact this
  have hη : (1 : ℝ) / 2 ^ 1075 = 1 / 2 ^ 980 * (1 / 2 ^ 95) := by
    rw [show (1075 : ℕ) = 980 + 95 from rfl, pow_add, one_div_mul_one_div]
  rw [hη] at he'
  clear hη he
  refine ⟨r, binary64_nonneg hz0.le hr, binary64_idem hr, ?_⟩
  generalize (1 : ℝ) / 2 ^ 980 = w at *
  obtain ⟨h1, h2⟩ := abs_le.mp he'
  norm_num at h1 h2 hz2
  rw [abs_le]
  norm_num
  constructor <;> linarith

theorem rpow_range {q e : ℝ} (hlo : 1 / 2 ^ 980 ≤ q) (hhi : q ≤ 2 ^ 1023) (he0 : 0 ≤ e) (he1 : e ≤ 1) :
    1 / 2 ^ 980 ≤ q ^ e ∧ q ^ e ≤ 2 ^ 1023 := by
  have hq0 : (0 : ℝ) < q := lt_of_lt_of_le (by positivity) hlo
  have hs : (1 : ℝ) / 2 ^ 980 ≤ 1 := by
    rw [div_le_one (by positivity)]
    exact one_le_pow₀ (by norm_num)
  have hl : (1 : ℝ) ≤ 2 ^ 1023 := one_le_pow₀ (by norm_num)
  rcases le_total 1 q with h | h
  · have h1 : 1 ≤ q ^ e := Real.one_le_rpow h he0
    have h2 := Real.rpow_le_rpow_of_exponent_le h he1
    rw [Real.rpow_one] at h2
    exact ⟨hs.trans h1, h2.trans hhi⟩
  · have h1 : q ^ e ≤ 1 := Real.rpow_le_one hq0.le h he0
    have h2 := Real.rpow_le_rpow_of_exponent_ge hq0 h he1
    rw [Real.rpow_one] at h2
    exact ⟨hlo.trans h2, h1.trans hl⟩

theorem range_real {q : ℚ} (hlo : 1 / 2 ^ 980 ≤ q) (hhi : q ≤ 2 ^ 1023) : (1 : ℝ) / 2 ^ 980 ≤ q ∧ (q : ℝ) ≤ 2 ^ 1023 := by
  constructor
  · have : (((1 : ℚ) / 2 ^ 980 : ℚ) : ℝ) ≤ (q : ℝ) := by exact_mod_cast hlo
    push_cast at this
    exact this
  · have : (q : ℝ) ≤ ((2 ^ 1023 : ℚ) : ℝ) := by exact_mod_cast hhi
    push_cast at this
    exact this

/-- C225: there are functions on doubles with such errors. -/
theorem c225_exists :
    (∃ cbrt, CubeRoot cbrt (1 / 2 ^ 50) ∧ ∀ q, ∃ r, cbrt (fin q) = fin r ∧ binary64 r = .fin r) ∧
    ∃ pow, PowerFunction pow (1 / 2 ^ 52) ∧ ∀ q e, ∃ r, pow (fin q) (fin e) = fin r ∧ binary64 r = .fin r := by
  have hz : binary64 0 = .fin 0 := by decide +kernel
  constructor
  · have h : ∀ q : ℚ, ∃ r, binary64 r = .fin r ∧ (1 / 2 ^ 980 ≤ q → q ≤ 2 ^ 1023 → 0 ≤ r ∧ |r ^ 3 - q| ≤ 1 / 2 ^ 50 * q) := fun q => by
      by_cases hq : 1 / 2 ^ 980 ≤ q ∧ q ≤ 2 ^ 1023
      · obtain ⟨l1, l2⟩ := range_real hq.1 hq.2
        have hq0 : (0 : ℝ) < q := lt_of_lt_of_le (by positivity) l1
        obtain ⟨m1, m2⟩ := rpow_range (e := 1 / 3) l1 l2 (by norm_num) (by norm_num)
        obtain ⟨r, r0, r1, r2⟩ := double_real m1 m2
        refine ⟨r, r1, fun _ _ => ⟨r0, ?_⟩⟩
        have hy : ((q : ℝ) ^ (1 / 3 : ℝ)) ^ 3 = q := by
          rw [← Real.rpow_natCast, ← Real.rpow_mul hq0.le]
          norm_num
        have hy0 : 0 < (q : ℝ) ^ (1 / 3 : ℝ) := Real.rpow_pos_of_pos hq0 _
        clear m1 m2 l1 l2 hq
        generalize (q : ℝ) ^ (1 / 3 : ℝ) = y at *
        have key : |(r : ℝ) ^ 3 - q| ≤ 1 / 2 ^ 50 * q := by
          rw [← hy]
          obtain ⟨t, ht⟩ : ∃ t : ℝ, (r : ℝ) = y * (1 + t) := ⟨r / y - 1, by field_simp; ring⟩
          have ht1 : |t| ≤ 1 / 2 ^ 52 := by
            rw [ht, show y * (1 + t) - y = t * y by ring, abs_mul, abs_of_pos hy0] at r2
            exact le_of_mul_le_mul_right r2 hy0
          rw [ht, show (y * (1 + t)) ^ 3 - y ^ 3 = (t * (3 + 3 * t + t * t)) * y ^ 3 by ring, abs_mul, abs_of_pos (pow_pos hy0 3)]
          refine mul_le_mul_of_nonneg_right ?_ (pow_pos hy0 3).le
          obtain ⟨t1, t2⟩ := abs_le.mp ht1
          have h4 : |3 + 3 * t + t * t| ≤ 4 := by
            rw [abs_le]
            norm_num at t1 t2
            constructor <;> nlinarith
          rw [abs_mul]
          calc |t| * |3 + 3 * t + t * t| ≤ 1 / 2 ^ 52 * 4 := mul_le_mul ht1 h4 (abs_nonneg _) (by norm_num)
            _ ≤ _ := by norm_num
        have : ((|r ^ 3 - q| : ℚ) : ℝ) ≤ ((1 / 2 ^ 50 * q : ℚ) : ℝ) := by
          push_cast
          exact key
        exact_mod_cast this
      · exact ⟨0, hz, fun h1 h2 => absurd ⟨h1, h2⟩ hq⟩
    choose f f1 f2 using h
    refine ⟨fun a => match a with | .fin q => fin (f q) | _ => .nan, ⟨fun q h1 h2 => ⟨f q, (f2 q h1 h2).1, rfl, (f2 q h1 h2).2⟩⟩,
      fun q => ⟨f q, rfl, f1 q⟩⟩
  · have h : ∀ q e : ℚ, ∃ r, binary64 r = .fin r ∧
        (∀ p : Nat, e = p → 0 ≤ q ∨ p % 2 = 0 → |q| ^ p ≤ 2 ^ 1022 → 0 ≤ r ∧ |r - |q| ^ p| ≤ 1 / 2 ^ 52 * |q| ^ p + 1 / 2 ^ 1073) ∧
        (1 / 2 ^ 980 ≤ q → q ≤ 2 ^ 1023 → 0 < e → e ≤ 1 → |(r : ℝ) - (q : ℝ) ^ (e : ℝ)| ≤ 1 / 2 ^ 52 * (q : ℝ) ^ (e : ℝ)) := fun q e => by
      by_cases hp : ∃ p : Nat, e = p ∧ (0 ≤ q ∨ p % 2 = 0) ∧ |q| ^ p ≤ 2 ^ 1022
      · obtain ⟨p, rfl, -, hp⟩ := hp
        have h0 : 0 ≤ |q| ^ p := by positivity
        obtain ⟨r, hr⟩ := range_double (q := |q| ^ p) (by
          rw [abs_of_nonneg h0]
          have : (2 : ℚ) ^ 1023 = 2 * 2 ^ 1022 := by rw [← pow_succ']
          have hb : (0 : ℚ) ≤ 2 ^ 1022 := by positivity
          rw [this]
          clear this
          generalize (2 : ℚ) ^ 1022 = w at *
          linarith)
        have he := rounds_binary64.error _ _ hr
        rw [abs_of_nonneg h0] at he
        refine ⟨r, binary64_idem hr, fun p' e' _ _ => ?_, fun h1 h2 h3 h4 => ?_⟩
        · obtain rfl : p = p' := by exact_mod_cast e'
          refine ⟨binary64_nonneg h0 hr, he.trans (add_le_add (mul_le_mul_of_nonneg_right (by norm_num) h0) ?_)⟩
          exact one_div_le_one_div_of_le (by positivity) (pow_le_pow_right₀ (by norm_num) (by norm_num))
        · obtain rfl : p = 1 := le_antisymm (by exact_mod_cast h4) (by exact_mod_cast h3)
          have hq0 : (0 : ℚ) < q := lt_of_lt_of_le (by positivity) h1
          rw [pow_one, abs_of_pos hq0] at he
          have hη : (1 : ℚ) / 2 ^ 1075 = 1 / 2 ^ 980 * (1 / 2 ^ 95) := by
            rw [show (1075 : ℕ) = 980 + 95 from rfl, pow_add, one_div_mul_one_div]
          rw [hη] at he
          have he2 : |r - q| ≤ 1 / 2 ^ 52 * q := by
            clear hη h2 hr hp
            generalize (1 : ℚ) / 2 ^ 980 = w at *
            norm_num at he ⊢
            linarith
          have : ((|r - q| : ℚ) : ℝ) ≤ ((1 / 2 ^ 52 * q : ℚ) : ℝ) := by exact_mod_cast he2
          push_cast at this
          rw [Nat.cast_one, Rat.cast_one, Real.rpow_one]
          exact this
      · by_cases hq : 1 / 2 ^ 980 ≤ q ∧ q ≤ 2 ^ 1023 ∧ 0 < e ∧ e ≤ 1
        · obtain ⟨q1, q2, q3, q4⟩ := hq
          obtain ⟨l1, l2⟩ := range_real q1 q2
          obtain ⟨m1, m2⟩ := rpow_range (e := e) l1 l2 (by exact_mod_cast q3.le) (by exact_mod_cast q4)
          obtain ⟨r, r0, r1, r2⟩ := double_real m1 m2
          exact ⟨r, r1, fun p e1 e2 e3 => absurd ⟨p, e1, e2, e3⟩ hp, fun _ _ _ _ => r2⟩
        · exact ⟨0, hz, fun p e1 e2 e3 => absurd ⟨p, e1, e2, e3⟩ hp, fun a b c d => absurd ⟨a, b, c, d⟩ hq⟩
    choose f f1 f2 f3 using h
    refine ⟨fun a b => match a, b with | .fin q, .fin e => fin (f q e) | _, _ => .nan, ⟨fun q p h1 h2 => ?_, fun q e h1 h2 h3 h4 => ?_⟩,
      fun q e => ⟨f q e, rfl, f1 q e⟩⟩
    · exact ⟨f q p, (f2 q p p rfl h1 h2).1, f1 q p, rfl, (f2 q p p rfl h1 h2).2⟩
    · refine ⟨f q e, rfl, ?_⟩
      push_cast
      exact f3 q e h1 h2 h3 h4

/-- The other hypotheses hold. -/
example : 1 / 2 ^ 970 ≤ ∑ i, |(![1 / 2 ^ 300, -3, 2 ^ 200] : Fin 3 → ℚ) i| ^ 3 ∧
    ∑ i, |(![1 / 2 ^ 300, -3, 2 ^ 200] : Fin 3 → ℚ) i| ^ 3 ≤ 2 ^ 1022 ∧
    1 / 2 ^ 970 ≤ ∑ i, |(![1 / 2 ^ 300, -3, 2 ^ 200] : Fin 3 → ℚ) i| ^ 5 ∧
    ∑ i, |(![1 / 2 ^ 300, -3, 2 ^ 200] : Fin 3 → ℚ) i| ^ 5 ≤ 2 ^ 1022 := by
  refine ⟨?_, ?_, ?_, ?_⟩ <;> decide +kernel

end Disa.Props
