import Verif.Scalar.Float
import Verif.Spec.Rounding
import Verif.Dense.Mat
import Verif.Sparse.Built
import Verif.Sparse.Mul
import Verif.Props.SparseArith
import Mathlib.Algebra.BigOperators.Fin
import Mathlib.Algebra.Order.BigOperators.Group.Finset

/-!
# Properties C100 and C101: rounding errors of products
-/

namespace Disa.Props

open Disa Spec Dense Num

variable {rnd : ℚ → Fl} {u η : ℚ}

theorem productError_step (hu : 0 ≤ u) (hη : 0 ≤ η) (n : Nat) {T a : ℚ} (ha : 0 ≤ a) :
    (1 + u) * productError u η n T + u * T + (2 * u + u ^ 2) * a + (2 + u) * η ≤ productError u η (n + 1) (T + a) := by
  unfold productError
  have h7 : (2 * u + u ^ 2) * a ≤ ((1 + u) ^ (n + 1 + 1) - 1) * a := by
    refine mul_le_mul_of_nonneg_right ?_ ha
    have : (1 + u) ^ 2 ≤ (1 + u) ^ (n + 1 + 1) := pow_le_pow_right₀ (by linarith) (by omega)
    nlinarith
  have h8 : (2 + u) * η ≤ (2 + u) * (1 + u) ^ (n + 1) * η := by
    have : (1 : ℚ) ≤ (1 + u) ^ (n + 1) := one_le_pow₀ (by linarith)
    have h0 : 0 ≤ (2 + u) * η := by positivity
    nlinarith
  push_cast
  calc _ ≤ (1 + u) * (((1 + u) ^ (n + 1) - 1) * T + n * (2 + u) * (1 + u) ^ n * η) + u * T +
        ((1 + u) ^ (n + 1 + 1) - 1) * a + (2 + u) * (1 + u) ^ (n + 1) * η := by linarith
    _ = _ := by ring

theorem productError_nonneg (hu : 0 ≤ u) (hη : 0 ≤ η) (n : Nat) {T : ℚ} (hT : 0 ≤ T) : 0 ≤ productError u η n T := by
  unfold productError
  have : (1 : ℚ) ≤ (1 + u) ^ (n + 1) := one_le_pow₀ (by linarith)
  have h1 : 0 ≤ ((1 + u) ^ (n + 1) - 1) * T := mul_nonneg (by linarith) hT
  have h2 : 0 ≤ n * (2 + u) * (1 + u) ^ n * η := by positivity
  linarith

theorem abs_sum_le (t : List (ℚ × ℚ)) : |(t.map fun p => p.1 * p.2).sum| ≤ (t.map fun p => |p.1 * p.2|).sum := by
  induction t with
  | nil => simp
  | cons x t ih =>
    rw [List.map_cons, List.sum_cons, List.map_cons, List.sum_cons]
    exact (abs_add_le _ _).trans (add_le_add le_rfl ih)

/-- The product of two numbers, added to a third. -/
theorem step_error (h : Rounds rnd u η) {s r a b S T : ℚ} {e : ℚ} (h1 : rnd (a * b) = .fin r) {q : ℚ}
    (h2 : rnd (s + r) = .fin q) (he : |s - S| ≤ e) (hT : |S| ≤ T) :
    |q - (S + a * b)| ≤ (1 + u) * e + u * T + (2 * u + u ^ 2) * |a * b| + (2 + u) * η := by
  have hu := h.u_nonneg
  have hη := h.η_nonneg
  have e1 := h.error _ _ h1
  have e2 := h.error _ _ h2
  have e3 : |s + r - (S + a * b)| ≤ e + (u * |a * b| + η) := by
    rw [show s + r - (S + a * b) = (s - S) + (r - a * b) by ring]
    exact (abs_add_le _ _).trans (add_le_add he e1)
  have e4 : |s + r| ≤ T + |a * b| + (e + (u * |a * b| + η)) := by
    rw [show s + r = S + a * b + (s + r - (S + a * b)) by ring]
    exact (abs_add_le _ _).trans (add_le_add ((abs_add_le _ _).trans (add_le_add hT le_rfl)) e3)
  have e5 : |q - (S + a * b)| ≤ (u * |s + r| + η) + (e + (u * |a * b| + η)) := by
    rw [show q - (S + a * b) = (q - (s + r)) + (s + r - (S + a * b)) by ring]
    exact (abs_add_le _ _).trans (add_le_add e2 e3)
  have e6 := mul_le_mul_of_nonneg_left e4 hu
  linarith

theorem sum_error (h : Rounds rnd u η) (l : List (Num rnd × Num rnd)) : ∀ (r : ℚ),
    l.foldl (fun s p => s + p.1 * p.2) 0 = fin r →
    ∃ t : List (ℚ × ℚ), l = t.map (fun p => (fin p.1, fin p.2)) ∧
      |r - (t.map fun p => p.1 * p.2).sum| ≤ productError u η t.length (t.map fun p => |p.1 * p.2|).sum := by
  have hu := h.u_nonneg
  have hη := h.η_nonneg
  induction l using List.reverseRecOn with
  | nil =>
    intro r hr
    have : (0 : ℚ) = r := fin_inj.mp hr
    subst this
    exact ⟨[], rfl, by simp [productError]⟩
  | append_singleton l p ih =>
    intro q hq
    rw [List.foldl_append, List.foldl_cons, List.foldl_nil] at hq
    obtain ⟨s, r, h1, h2, h3⟩ := add_fin hq
    obtain ⟨a, b, h4, h5, h6⟩ := mul_fin h2
    obtain ⟨t, ht, he⟩ := ih s h1
    refine ⟨t ++ [(a, b)], ?_, ?_⟩
    · rw [List.map_append, ← ht]
      simp only [List.map_cons, List.map_nil, ← h4, ← h5]
    · have hT := abs_sum_le t
      have := step_error h h6 h3 he hT
      simp only [List.map_append, List.map_cons, List.map_nil, List.sum_append, List.sum_cons, List.sum_nil, add_zero,
        List.length_append, List.length_cons, List.length_nil, Nat.zero_add]
      exact this.trans (productError_step hu hη _ (abs_nonneg _))

/-- Numbers up to `M` do not overflow. -/
def Range (rnd : ℚ → Fl) (M : ℚ) : Prop := ∀ q, |q| ≤ M → ∃ q', rnd q = .fin q'

theorem sum_finite (h : Rounds rnd u η) {M : ℚ} (hM : Range rnd M) (t : List (ℚ × ℚ)) :
    (t.map fun p => |p.1 * p.2|).sum + productError u η t.length (t.map fun p => |p.1 * p.2|).sum ≤ M →
    ∃ r, (t.map fun p => ((fin p.1 : Num rnd), (fin p.2 : Num rnd))).foldl (fun s p => s + p.1 * p.2) 0 = fin r := by
  have hu := h.u_nonneg
  have hη := h.η_nonneg
  induction t using List.reverseRecOn with
  | nil => exact fun _ => ⟨0, rfl⟩
  | append_singleton t p ih =>
    intro hb
    obtain ⟨a, b⟩ := p
    simp only [List.map_append, List.map_cons, List.map_nil, List.sum_append, List.sum_cons, List.sum_nil, add_zero,
      List.length_append, List.length_cons, List.length_nil, Nat.zero_add] at hb
    have hT0 : 0 ≤ (t.map fun p => |p.1 * p.2|).sum := (abs_nonneg _).trans (abs_sum_le t)
    have hs := productError_step hu hη t.length (T := (t.map fun p => |p.1 * p.2|).sum) (abs_nonneg (a * b))
    have hn := productError_nonneg hu hη t.length hT0
    have h1 : 0 ≤ u * productError u η t.length (t.map fun p => |p.1 * p.2|).sum := mul_nonneg hu hn
    have h2 : 0 ≤ u * (t.map fun p => |p.1 * p.2|).sum := mul_nonneg hu hT0
    have h3 : 0 ≤ u * |a * b| := mul_nonneg hu (abs_nonneg _)
    have h4 : 0 ≤ u ^ 2 * |a * b| := mul_nonneg (by positivity) (abs_nonneg _)
    have h5 : 0 ≤ u * η := mul_nonneg hu hη
    have h6 := abs_nonneg (a * b)
    obtain ⟨s, hs1⟩ := ih (by linarith)
    obtain ⟨t', ht, he⟩ := sum_error h _ s hs1
    obtain rfl : t = t' := by
      have hinj : Function.Injective fun p : ℚ × ℚ => ((fin p.1 : Num rnd), (fin p.2 : Num rnd)) := by
        rintro ⟨p1, p2⟩ ⟨q1, q2⟩ he
        obtain ⟨e1, e2⟩ := Prod.mk.inj he
        have e1 : p1 = q1 := fin_inj.mp e1
        have e2 : p2 = q2 := fin_inj.mp e2
        rw [e1, e2]
      exact List.map_injective_iff.mpr hinj ht
    obtain ⟨r, hr⟩ := hM (a * b) (by linarith)
    have e1 := h.error _ _ hr
    have hsum := abs_sum_le t
    obtain ⟨q, hq⟩ := hM (s + r) (by
      have : |s + r| ≤ (|s - (t.map fun p => p.1 * p.2).sum| + |r - a * b|) + (|(t.map fun p => p.1 * p.2).sum| + |a * b|) := by
        rw [show s + r = ((s - (t.map fun p => p.1 * p.2).sum) + (r - a * b)) + ((t.map fun p => p.1 * p.2).sum + a * b) by ring]
        exact (abs_add_le _ _).trans (add_le_add (abs_add_le _ _) (abs_add_le _ _))
      linarith)
    refine ⟨q, ?_⟩
    rw [List.map_append, List.foldl_append, hs1, List.map_cons, List.map_nil, List.foldl_cons, List.foldl_nil]
    have e : (fin a : Num rnd) * fin b = fin r := hr
    show (fin s : Num rnd) + (fin a * fin b) = fin q
    rw [e]
    exact hq

/-! ### C100 -/

/-- C100: if the inner product of two vectors is finite then so are the elements, and it is near to the exact product. -/
theorem c100_dot (h : Rounds rnd u η) {n : Nat} (x y : Fin n → Num rnd) (r : ℚ) (hr : dot (vec x) (vec y) = .ok (fin r)) :
    ∃ p q : Fin n → ℚ, (∀ i, x i = fin (p i)) ∧ (∀ i, y i = fin (q i)) ∧
      |r - ∑ i, p i * q i| ≤ productError u η n (∑ i, |p i * q i|) := by
  unfold dot innerProduct at hr
  simp only [vec_length, beq_self_eq_true, assert_true, Out.ok_bind, Nat.le_refl, if_true, Out.ok.injEq] at hr
  obtain ⟨t, ht, he⟩ := sum_error h _ r hr
  have hl : t.length = n := by
    have := congrArg List.length ht
    simpa using this.symm
  have hget : ∀ i : Fin n, (x i, y i) = (fin (t[i.1]'(by omega)).1, fin (t[i.1]'(by omega)).2) := by
    intro i
    have h1 : ((vec x).zip (vec y))[i.1]? = (t.map (fun p => ((fin p.1 : Num rnd), (fin p.2 : Num rnd))))[i.1]? := by rw [ht]
    rw [List.getElem?_eq_getElem (by simp), List.getElem?_eq_getElem (by simp; omega), Option.some.injEq] at h1
    simpa [vec] using h1
  refine ⟨fun i => (t[i.1]'(by omega)).1, fun i => (t[i.1]'(by omega)).2, fun i => (Prod.mk.inj (hget i)).1,
    fun i => (Prod.mk.inj (hget i)).2, ?_⟩
  have hs : ∀ f : ℚ × ℚ → ℚ, (t.map f).sum = ∑ i : Fin n, f (t[i.1]'(by omega)) := by
    intro f
    subst hl
    rw [← List.sum_ofFn]
    congr 1
    apply List.ext_getElem
    · simp
    · intro i h1 h2
      simp
  rw [hs, hs] at he
  simpa only [hl] using he

/-- C100: it is finite if the terms are small enough. -/
theorem c100_finite (h : Rounds rnd u η) {M : ℚ} (hM : Range rnd M) {n : Nat} (p q : Fin n → ℚ)
    (hb : ∑ i, |p i * q i| + productError u η n (∑ i, |p i * q i|) ≤ M) :
    ∃ r, dot (vec fun i => (fin (p i) : Num rnd)) (vec fun i => (fin (q i) : Num rnd)) = .ok (fin r) := by
  have hs : ∑ i, |p i * q i| = ((List.ofFn fun i => (p i, q i)).map fun p => |p.1 * p.2|).sum := by
    rw [List.map_ofFn, List.sum_ofFn]
    rfl
  obtain ⟨r, hr⟩ := sum_finite h hM (List.ofFn fun i => (p i, q i)) (by rw [← hs, List.length_ofFn]; exact hb)
  refine ⟨r, ?_⟩
  unfold dot innerProduct
  simp only [vec_length, beq_self_eq_true, assert_true, Out.ok_bind, Nat.le_refl, if_true, Out.ok.injEq]
  rw [← hr]
  congr 1
  apply List.ext_getElem
  · simp
  · intro i h1 h2
    simp [vec]

theorem nearestEven_le {x : ℚ} {k : ℤ} (h : x ≤ k) : nearestEven x ≤ k := by
  have h1 : ⌊x⌋ ≤ k := by
    have := Int.floor_le x
    exact_mod_cast this.trans h
  have h2 : 0 < x - ⌊x⌋ → ⌊x⌋ + 1 ≤ k := by
    intro h0
    have : (⌊x⌋ : ℚ) < k := by linarith
    exact_mod_cast this
  unfold nearestEven
  split
  · exact h1
  · rename_i h3
    have h4 := h2 (by linarith)
    split
    · exact h4
    · split
      · exact h1
      · exact h4

theorem nearestEven_ge {x : ℚ} {k : ℤ} (h : (k : ℚ) ≤ x) : k ≤ nearestEven x := by
  have h1 : k ≤ ⌊x⌋ := Int.le_floor.mpr h
  unfold nearestEven
  split
  · exact h1
  · split
    · omega
    · split
      · exact h1
      · omega

/-- C100: rounding to nearest even with 53 bits has a relative error of at most 2⁻⁵³, and an absolute one of at most 2⁻¹⁰⁷⁵ for
numbers that are too small. -/
theorem c100_binary64 : Rounds binary64 (1 / 2 ^ 53) (1 / 2 ^ 1075) := rounds_binary64

/-- C100: doubles round numbers up to the largest double to a double. -/
theorem c100_range : Range binary64 ((2 - 1 / 2 ^ 52) * 2 ^ 1023) := by
  intro q hq
  have h2 : (0 : ℚ) < 2 := by norm_num
  have hmax : ((2 - 1 / 2 ^ 52) * 2 ^ 1023 : ℚ) = (2 ^ 53 - 1) * 2 ^ (971 : ℤ) := by
    rw [show (971 : ℤ) = ((971 : ℕ) : ℤ) from rfl, zpow_natCast, show (1023 : ℕ) = 52 + 971 from rfl, pow_add,
      show (53 : ℕ) = 52 + 1 from rfl, pow_add]
    field_simp
  have hlt : ((2 - 1 / 2 ^ 52) * 2 ^ 1023 : ℚ) < 2 ^ (1024 : ℤ) := by
    rw [show (1024 : ℤ) = ((1024 : ℕ) : ℤ) from rfl, zpow_natCast, pow_succ 2 1023, mul_comm _ (2 : ℚ)]
    have : (0 : ℚ) < 2 ^ 1023 := by positivity
    have h3 : (0 : ℚ) < 1 / 2 ^ 52 := by positivity
    exact mul_lt_mul_of_pos_right (by linarith) this
  by_cases hq0 : q = 0
  · exact ⟨0, by subst hq0; decide +kernel⟩
  have hpos : 0 < |q| := abs_pos.mpr hq0
  have he : lastDigit q ≤ 971 := by
    unfold lastDigit
    have : Int.log 2 |q| < 1024 := by
      rw [← Int.lt_zpow_iff_log_lt (by norm_num) hpos]
      exact_mod_cast hq.trans_lt hlt
    omega
  have hE : (0 : ℚ) < 2 ^ lastDigit q := zpow_pos h2 _
  -- the largest double is a multiple of the last digit
  obtain ⟨d, hd⟩ := Int.eq_ofNat_of_zero_le (show 0 ≤ 971 - lastDigit q by omega)
  have hK : ((2 - 1 / 2 ^ 52) * 2 ^ 1023 : ℚ) = (((2 ^ 53 - 1) * 2 ^ d : ℤ) : ℚ) * 2 ^ lastDigit q := by
    rw [hmax, show (971 : ℤ) = d + lastDigit q by omega, zpow_add₀ (by norm_num), zpow_natCast]
    push_cast
    ring
  rw [hK] at hq
  generalize ((2 ^ 53 - 1) * 2 ^ d : ℤ) = k at *
  have hn : |(nearestEven (q / 2 ^ lastDigit q) : ℚ)| ≤ k := by
    have h1 : |q / 2 ^ lastDigit q| ≤ k := by
      rw [abs_div, abs_of_pos hE, div_le_iff₀ hE]
      exact hq
    obtain ⟨h3, h4⟩ := abs_le.mp h1
    rw [abs_le]
    constructor
    · exact_mod_cast nearestEven_ge (k := -k) (by push_cast; exact h3)
    · exact_mod_cast nearestEven_le h4
  unfold binary64
  rw [if_pos]
  · exact ⟨_, rfl⟩
  · rw [abs_mul, abs_of_pos hE]
    calc _ ≤ (k : ℚ) * 2 ^ lastDigit q := mul_le_mul_of_nonneg_right hn hE.le
      _ < _ := by rw [← hK, ← zpow_natCast]; exact hlt

/-! ### C101 -/

/-- C101: the same for each element of the product of a sparse matrix and a vector, where only the elements of the row count. -/
theorem c101_sparse (h : Rounds rnd u η) (m : Sparse (Num rnd)) (hm : Built false m) (static : Bool) (x y : List (Num rnd))
    (hy : m.mulVec static x = .ok y) (i : Nat) (r : ℚ) (hr : y[i]? = some (fin r)) :
    ∃ t : List (Nat × ℚ × ℚ), elements m i = .ok (t.map fun e => (e.1, fin e.2.1)) ∧
      (∀ e ∈ t, x[e.1]? = some (fin e.2.2)) ∧
      |r - (t.map fun e => e.2.1 * e.2.2).sum| ≤ productError u η t.length (t.map fun e => |e.2.1 * e.2.2|).sum := by
  obtain ⟨L, h1, _, _, h4⟩ := Sparse.inv_built hm
  have hsz : m.colSize = x.length ∧ (static = false ∨ x.length = 0 ∨ L.length = x.length) := by
    by_contra hc
    rw [c36_sizes m x static (by
      rw [h1.sizeRow]
      by_cases h5 : m.colSize = x.length
      · right
        have h6 : ¬ (static = false ∨ x.length = 0 ∨ L.length = x.length) := fun h6 => hc ⟨h5, h6⟩
        push Not at h6
        exact ⟨by simpa using h6.1, h6.2⟩
      · exact .inl h5)] at hy
    cases hy
  rw [h1.mulVec (h4 rfl) hsz.1 hsz.2, Out.ok.injEq] at hy
  subst hy
  rw [List.getElem?_map, Option.map_eq_some_iff] at hr
  obtain ⟨i', hi', hr⟩ := hr
  obtain ⟨hi, rfl⟩ := List.getElem?_eq_some_iff.mp hi'
  rw [List.getElem_range] at hr
  rw [List.length_range] at hi
  have hf : Sparse.dotL (row L i) x = ((row L i).map fun e => (e.2, x.getD e.1 0)).foldl (fun s p => s + p.1 * p.2) 0 := by
    unfold Sparse.dotL
    rw [List.foldl_map]
  rw [hf] at hr
  obtain ⟨t, ht, he⟩ := sum_error h _ r hr
  have hfin : ∀ e ∈ row L i, e.2 = fin (Num.val e.2) ∧ x.getD e.1 0 = fin (Num.val (x.getD e.1 0)) := by
    intro e hem
    have := List.mem_map_of_mem (f := fun e : Nat × Num rnd => (e.2, x.getD e.1 0)) hem
    rw [ht, List.mem_map] at this
    obtain ⟨p, -, hp⟩ := this
    obtain ⟨e1, e2⟩ := Prod.mk.inj hp
    rw [← e1, ← e2]
    exact ⟨rfl, rfl⟩
  have htv : t = (row L i).map fun e => (Num.val e.2, Num.val (x.getD e.1 0)) := by
    have := congrArg (List.map fun p : Num rnd × Num rnd => (Num.val p.1, Num.val p.2)) ht
    rw [List.map_map, List.map_map] at this
    have e : ((fun p : Num rnd × Num rnd => (Num.val p.1, Num.val p.2)) ∘ fun p : ℚ × ℚ => ((fin p.1 : Num rnd), (fin p.2 : Num rnd))) = id := rfl
    rw [e, List.map_id] at this
    exact this.symm
  refine ⟨(row L i).map fun e => (e.1, Num.val e.2, Num.val (x.getD e.1 0)), ?_, ?_, ?_⟩
  · rw [Sparse.elements_ok h1 hi, List.map_map, Out.ok.injEq]
    symm
    conv_rhs => rw [← List.map_id (row L i)]
    apply List.map_congr_left
    intro e hem
    show (e.1, fin (Num.val e.2)) = e
    rw [← (hfin e hem).1]
  · intro e hem
    rw [List.mem_map] at hem
    obtain ⟨e', hem, rfl⟩ := hem
    have hlt : e'.1 < x.length := by rw [← hsz.1]; exact h4 rfl i e' hem
    show x[e'.1]? = some (fin (Num.val (x.getD e'.1 0)))
    rw [← (hfin e' hem).2]
    simp [hlt]
  · rw [htv] at he
    simpa only [List.map_map, Function.comp_def, List.length_map] using he

/-- The hypotheses hold for doubles, with results that are not exact. -/
example : (⟨[0, 2, 3], [0, 1, 1], [.fin (1 / 2), .fin 3, .fin 5], 2⟩ : Sparse (Num binary64)).mulVec false
    [.fin (2 ^ 53 + 2), .fin (1 / 3)] = .ok [.fin (2 ^ 52 + 2), .fin (7505999378950827 / 2 ^ 52)] := by
  decide +kernel

end Disa.Props
