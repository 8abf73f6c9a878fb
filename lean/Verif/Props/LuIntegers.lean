import Verif.Props.LuParts
import Verif.Props.IntsScalar

/-!
# Property C204: systems of integers with factors of integers are solved without rounding
-/

namespace Disa.Props

open Disa Spec Dense Num Lu

/-! ### Operations on integers -/

theorem int_sub {a b : ℤ} (h : |a - b| < 2 ^ 53) : (fin a : Num binary64) - fin b = fin ((a - b : ℤ) : ℚ) := by
  have := double_int h
  show binary64 ((a : ℚ) + -b) = .fin _
  rw [← sub_eq_add_neg, ← Int.cast_sub]
  exact this

theorem int_mul {a b : ℤ} (h : |a * b| < 2 ^ 53) : (fin a : Num binary64) * fin b = fin ((a * b : ℤ) : ℚ) := by
  have := double_int h
  show binary64 ((a : ℚ) * b) = .fin _
  rw [← Int.cast_mul]
  exact this

theorem int_div {a b : ℤ} (hb : b ≠ 0) (h : |a| < 2 ^ 53) : (fin ((a * b : ℤ) : ℚ) : Num binary64) / fin b = fin (a : ℚ) := by
  have hb' : (b : ℚ) ≠ 0 := by exact_mod_cast hb
  show Fl.div binary64 (.fin ((a * b : ℤ) : ℚ)) (.fin (b : ℚ)) = .fin (a : ℚ)
  have e : (((a * b : ℤ) : ℚ)) / b = a := by
    push_cast
    field_simp
  simp only [Fl.div, hb', if_false, e]
  exact double_int h

variable {n : Nat}

/-- The terms from `a` on, without the next `m` ones. -/
def rest (f : Fin n → ℤ) (a m : Nat) : ℤ := ∑ k : Fin n, if a ≤ k.1 ∧ k.1 < a + m then 0 else f k

theorem rest_zero (f : Fin n → ℤ) (a : Nat) : rest f a 0 = ∑ k, f k := by
  unfold rest
  refine Finset.sum_congr rfl fun k _ => ?_
  rw [if_neg (by omega)]

theorem rest_succ (f : Fin n → ℤ) (a m : Nat) (h : a + m < n) : rest f a (m + 1) = rest f a m - f ⟨a + m, h⟩ := by
  unfold rest
  rw [eq_sub_iff_add_eq, ← Finset.sum_erase_add _ _ (Finset.mem_univ (⟨a + m, h⟩ : Fin n)),
    ← Finset.sum_erase_add (Finset.univ) (fun k : Fin n => if a ≤ k.1 ∧ k.1 < a + m then 0 else f k) (Finset.mem_univ (⟨a + m, h⟩ : Fin n))]
  rw [if_pos (by simp), if_neg (by simp), add_zero]
  congr 1
  refine Finset.sum_congr rfl fun k hk => ?_
  have : k.1 ≠ a + m := fun e => (Finset.mem_erase.mp hk).1 (Fin.ext e)
  by_cases hc : a ≤ k.1 ∧ k.1 < a + m
  · rw [if_pos hc, if_pos (by omega)]
  · rw [if_neg hc, if_neg (by omega)]

theorem rest_abs (f : Fin n → ℤ) (a m : Nat) : |rest f a m| ≤ ∑ k, |f k| := by
  unfold rest
  refine (Finset.abs_sum_le_sum_abs _ _).trans (Finset.sum_le_sum fun k _ => ?_)
  split
  · simp
  · exact le_rfl

/-- A sum of integers from which terms are taken one by one. -/
theorem less_int (f : Fin n → ℤ) (hf : ∑ k, |f k| < 2 ^ 53) (a m : Nat) (h : a + m ≤ n) :
    less (fin ((∑ k, f k : ℤ) : ℚ) : Num binary64) (fun k => fin (f k : ℚ)) a m = fin (rest f a m : ℚ) := by
  induction m with
  | zero => rw [rest_zero]; rfl
  | succ m ih =>
    rw [less, dif_pos (by omega), ih (by omega), rest_succ f a m (by omega)]
    refine int_sub ?_
    rw [← rest_succ f a m (by omega)]
    exact (rest_abs f a _).trans_lt hf

theorem one_abs (f : Fin n → ℤ) (k : Fin n) : |f k| ≤ ∑ k, |f k| :=
  Finset.single_le_sum (f := fun k => |f k|) (fun _ _ => abs_nonneg _) (Finset.mem_univ k)

/-! ### The property -/

/-- The factors in one matrix. -/
def packed (L U : Fin n → Fin n → ℤ) (r c : Fin n) : ℤ := if c < r then L r c else U r c

/-- What is left of the product of the factors after `i` steps. -/
def leftOver (L U : Fin n → Fin n → ℤ) (i : Nat) (r c : Fin n) : ℤ :=
  if c < r ∧ c.1 < i then L r c else rest (fun k => L r k * U k c) 0 (min i r.1)

section

variable {L U : Fin n → Fin n → ℤ}

theorem leftOver_end (h1 : ∀ r, L r r = 1) (h0 : ∀ r c, r < c → L r c = 0) : leftOver L U n = packed L U := by
  funext r c
  unfold leftOver packed
  by_cases hc : c < r
  · rw [if_pos ⟨hc, c.2⟩, if_pos hc]
  · rw [if_neg (by tauto), if_neg hc]
    unfold rest
    rw [Finset.sum_eq_single r]
    · rw [if_neg (by simp)]; simp only [h1, one_mul]
    · intro k _ hk
      split
      · rfl
      · rename_i hk'
        have hrk : r < k := by
          have : k.1 ≠ r.1 := fun e => hk (Fin.ext e)
          have := r.2
          show r.1 < k.1
          omega
        simp only [h0 r k hrk, zero_mul]
    · simp

theorem leftOver_diag (h1 : ∀ r, L r r = 1) (h0 : ∀ r c, r < c → L r c = 0) (i c : Fin n) (hc : i ≤ c) : leftOver L U i.1 i c = U i c := by
  have := congrFun (congrFun (leftOver_end (U := U) h1 h0) i) c
  unfold packed at this
  rw [if_neg (not_lt.mpr hc)] at this
  rw [← this]
  unfold leftOver
  rw [if_neg (fun h => absurd h.1 (not_lt.mpr hc)), if_neg (fun h => absurd h.1 (not_lt.mpr hc)),
    show min i.1 i.1 = i.1 by omega, show min n i.1 = i.1 by have := i.2; omega]

theorem leftOver_pivot (h0' : ∀ r c, c < r → U r c = 0) {i r : Fin n} (hr : i < r) : leftOver L U i.1 r i = L r i * U i i := by
  have hr' : i.1 < r.1 := hr
  unfold leftOver
  rw [if_neg (by omega), show min i.1 r.1 = i.1 by omega]
  unfold rest
  rw [Finset.sum_eq_single i]
  · rw [if_neg (by simp)]
  · intro k _ hk
    split
    · rfl
    · have hik : i < k := by
        have : k.1 ≠ i.1 := fun e => hk (Fin.ext e)
        show i.1 < k.1
        omega
      simp only [h0' k i hik, mul_zero]
  · simp

theorem leftOver_step (h1 : ∀ r, L r r = 1) (h0 : ∀ r c, r < c → L r c = 0) (h0' : ∀ r c, c < r → U r c = 0) (hU : ∀ i, U i i ≠ 0)
    (hb : ∀ r c, ∑ k, |L r k * U k c| < 2 ^ 53) (i : Fin n) :
    elim (fun r c => (fin (leftOver L U i.1 r c : ℚ) : Num binary64)) i = fun r c => fin (leftOver L U (i.1 + 1) r c : ℚ) := by
  funext r c
  have hL : ∀ r c, |L r c| < 2 ^ 53 := by
    intro r c
    refine lt_of_le_of_lt ?_ (hb r c)
    refine le_trans ?_ (one_abs (fun k => L r k * U k c) c)
    rw [abs_mul]
    have : 1 ≤ |U c c| := Int.one_le_abs (hU c)
    nlinarith [abs_nonneg (L r c)]
  unfold elim
  by_cases hr : i < r
  · have hr' : i.1 < r.1 := hr
    simp only [if_pos hr]
    rw [leftOver_pivot h0' hr, leftOver_diag h1 h0 i i le_rfl, int_div (hU i) (hL r i)]
    by_cases hc : c = i
    · subst hc
      rw [if_pos rfl]
      unfold leftOver
      rw [if_pos ⟨hr, by omega⟩]
    · rw [if_neg hc]
      by_cases hci : i < c
      · have hci' : i.1 < c.1 := hci
        rw [if_pos hci, leftOver_diag h1 h0 i c hci.le, int_mul ((one_abs (fun k => L r k * U k c) i).trans_lt (hb r c))]
        have e : leftOver L U i.1 r c - L r i * U i c = leftOver L U (i.1 + 1) r c := by
          unfold leftOver
          rw [if_neg (by omega), if_neg (by omega), show min i.1 r.1 = i.1 by omega, show min (i.1 + 1) r.1 = i.1 + 1 by omega,
            rest_succ _ _ _ (by have := i.2; omega)]
          have : (⟨0 + i.1, by omega⟩ : Fin n) = i := Fin.ext (by simp)
          rw [this]
        rw [← e]
        refine int_sub ?_
        rw [e]
        unfold leftOver
        rw [if_neg (by omega)]
        exact (rest_abs _ _ _).trans_lt (hb r c)
      · have hci' : c.1 < i.1 := by
          have : c.1 ≠ i.1 := fun e => hc (Fin.ext e)
          have : ¬ i.1 < c.1 := hci
          omega
        rw [if_neg hci]
        have hcr : c < r := by
          show c.1 < r.1
          omega
        unfold leftOver
        rw [if_pos ⟨hcr, hci'⟩, if_pos ⟨hcr, by omega⟩]
  · have hr' : r.1 ≤ i.1 := not_lt.mp hr
    rw [if_neg hr]
    have e : leftOver L U i.1 r c = leftOver L U (i.1 + 1) r c := by
      unfold leftOver
      rw [show min i.1 r.1 = r.1 by omega, show min (i.1 + 1) r.1 = r.1 by omega]
      by_cases hcr : c < r
      · have : c.1 < r.1 := hcr
        rw [if_pos ⟨hcr, by omega⟩, if_pos ⟨hcr, by omega⟩]
      · rw [if_neg (by tauto), if_neg (by tauto)]
    simp only [e]

end

/-- C204: a product of integer factors is factorised into these factors. -/
theorem c204_factors (s : Lu (Num binary64)) {t : ℚ} (ht : 0 < t) (hs : s.tol = fin t) (L U : Fin n → Fin n → ℤ)
    (h1 : ∀ r, L r r = 1) (h0 : ∀ r c, r < c → L r c = 0) (h0' : ∀ r c, c < r → U r c = 0) (hU : ∀ i, t ≤ |U i i|)
    (hb : ∀ r c, ∑ k, |L r k * U k c| < 2 ^ 53) :
    factorise (Num.arith binary64) false s (mat fun r c => (fin ((∑ k, L r k * U k c : ℤ) : ℚ) : Num binary64)) =
      .ok (⟨true, s.tol, mat fun r c => fin (packed L U r c : ℚ), s.piv⟩, true) := by
  have hU0 : ∀ i, U i i ≠ 0 := by
    intro i e
    have := hU i
    rw [e] at this
    simp at this
    linarith
  obtain ⟨t', h2, rfl⟩ := loop_inv (n := n) (body := factoriseBody (Num.arith binary64) false s.tol)
    (s := (mat fun r c => (fin ((∑ k, L r k * U k c : ℤ) : ℚ) : Num binary64), s.piv, true))
    (fun i t' => t' = (mat fun r c => (fin (leftOver L U i r c : ℚ) : Num binary64), s.piv, true))
    (by
      congr 2
      funext r c
      unfold leftOver
      rw [if_neg (by omega), Nat.zero_min, rest_zero]) (by
      rintro i t' hi rfl
      refine ⟨_, ?_, rfl⟩
      have hsmall : (Num.arith binary64).lt ((Num.arith binary64).abs (fin (leftOver L U i ⟨i, hi⟩ ⟨i, hi⟩ : ℚ))) s.tol = false := by
        have := leftOver_diag (U := U) h1 h0 ⟨i, hi⟩ ⟨i, hi⟩ le_rfl
        simp only at this
        rw [this, hs]
        show Fl.lt (Fl.abs (.fin _)) (.fin t) = false
        simp only [Fl.lt, Fl.abs, decide_eq_false_iff_not, not_lt]
        exact_mod_cast hU ⟨i, hi⟩
      unfold factoriseBody
      simp only [if_true, Bool.false_eq_true, if_false, show ∀ (N : List (List (Num binary64))) (st : List Nat), (pure (N, st) : Out (List (List (Num binary64)) × List Nat)) = .ok (N, st) from fun _ _ => rfl, Out.ok_bind, rd2_mat _ hi hi, hsmall, mat_length]
      have := eliminate_ok (fun r c => (fin (leftOver L U i r c : ℚ) : Num binary64)) ⟨i, hi⟩
      simp only at this
      rw [this, leftOver_step h1 h0 h0' hU0 hb ⟨i, hi⟩]
      rfl)
  unfold factorise
  rw [mat_length]
  simp only [Bool.false_eq_true, if_false]
  rw [h2, leftOver_end h1 h0]
  rfl

/-- The values between the sweeps. -/
theorem forward_int (L U : Fin n → Fin n → ℤ) (h1 : ∀ r, L r r = 1) (h0 : ∀ r c, r < c → L r c = 0) (x : Fin n → ℤ)
    (hsum : ∀ r, ∑ k, |L r k * ∑ c, U k c * x c| < 2 ^ 53) (y : Fin n → Num binary64)
    (hy : ∀ r, y r = less (fin ((∑ c, (∑ k, L r k * U k c) * x c : ℤ) : ℚ)) (fun c => fin (packed L U r c : ℚ) * y c) 0 r.1) (r : Fin n) :
    y r = fin ((∑ c, U r c * x c : ℤ) : ℚ) := by
  induction hr : r.1 using Nat.strong_induction_on generalizing r with
  | _ m ih =>
    have e1 : (∑ c, (∑ k, L r k * U k c) * x c : ℤ) = ∑ k, L r k * ∑ c, U k c * x c := by
      simp only [Finset.sum_mul, Finset.mul_sum]
      rw [Finset.sum_comm]
      exact Finset.sum_congr rfl fun _ _ => Finset.sum_congr rfl fun _ _ => mul_assoc _ _ _
    rw [hy r, e1, less_congr (g := fun k => fin ((L r k * ∑ c, U k c * x c : ℤ) : ℚ)) fun k _ hk => ?_]
    · rw [less_int _ (hsum r) 0 r.1 (by have := r.2; omega)]
      congr 2
      unfold rest
      rw [Finset.sum_eq_single r]
      · rw [if_neg (by simp)]; simp only [h1, one_mul]
      · intro k _ hk
        split
        · rfl
        · rename_i hk'
          have hrk : r < k := by
            have : k.1 ≠ r.1 := fun e => hk (Fin.ext e)
            show r.1 < k.1
            omega
          simp only [h0 r k hrk, zero_mul]
      · simp
    · have hk' : k < r := by
        show k.1 < r.1
        omega
      rw [ih k.1 (by omega) k rfl]
      simp only [packed, if_pos hk']
      exact int_mul ((one_abs (fun k => L r k * ∑ c, U k c * x c) k).trans_lt (hsum r))

/-- C204: and a solution of integers is found without rounding. -/
theorem c204_solve (s : Lu (Num binary64)) {t : ℚ} (ht : 0 < t) (hs : s.tol = fin t) (L U : Fin n → Fin n → ℤ)
    (h1 : ∀ r, L r r = 1) (h0 : ∀ r c, r < c → L r c = 0) (h0' : ∀ r c, c < r → U r c = 0) (hU : ∀ i, t ≤ |U i i|)
    (hb : ∀ r c, ∑ k, |L r k * U k c| < 2 ^ 53) (x : Fin n → ℤ) (hx : ∀ r, ∑ k, |L r k| * ∑ c, |U k c * x c| < 2 ^ 53)
    (x0 : List (Num binary64)) :
    ∃ s', factorise (Num.arith binary64) false s (mat fun r c => (fin ((∑ k, L r k * U k c : ℤ) : ℚ) : Num binary64)) =
        .ok (s', true) ∧
      Lu.solve false s' x0 (some (vec fun r => (fin ((∑ c, (∑ k, L r k * U k c) * x c : ℤ) : ℚ) : Num binary64))) =
        .ok (vec (fun r => (fin (x r : ℚ) : Num binary64)), true, 1) := by
  have hU0 : ∀ i, U i i ≠ 0 := by
    intro i e
    have := hU i
    rw [e] at this
    simp at this
    linarith
  have hf := c204_factors s ht hs L U h1 h0 h0' hU hb
  refine ⟨_, hf, ?_⟩
  obtain ⟨p, -, hp, hsweep⟩ := solve_sweeps false s _ ht hs _ hf _ rfl
  obtain rfl := hp rfl
  obtain ⟨y, z, e, hy, hz⟩ := hsweep (fun r => (fin ((∑ c, (∑ k, L r k * U k c) * x c : ℤ) : ℚ) : Num binary64)) x0
  rw [e]
  simp only [Equiv.Perm.coe_one, id_eq] at hy
  -- the values between the sweeps
  have hrow : ∀ k, ∑ c, |U k c * x c| < 2 ^ 53 := by
    intro k
    refine lt_of_le_of_lt ?_ (hx k)
    have := Finset.single_le_sum (f := fun j => |L k j| * ∑ c, |U j c * x c|)
      (fun j _ => mul_nonneg (abs_nonneg _) (Finset.sum_nonneg fun _ _ => abs_nonneg _)) (Finset.mem_univ k)
    simpa [h1] using this
  have hsum : ∀ r, ∑ k, |L r k * ∑ c, U k c * x c| < 2 ^ 53 := by
    intro r
    refine lt_of_le_of_lt (Finset.sum_le_sum fun k _ => ?_) (hx r)
    rw [abs_mul]
    exact mul_le_mul_of_nonneg_left (Finset.abs_sum_le_sum_abs _ _) (abs_nonneg _)
  have hy' : ∀ r, y r = fin ((∑ c, U r c * x c : ℤ) : ℚ) := forward_int L U h1 h0 x hsum y hy
  have hz' : ∀ r, z r = fin (x r : ℚ) := by
    intro r
    induction hr : n - r.1 using Nat.strong_induction_on generalizing r with
    | _ m ih =>
      have e2 : packed L U r r = U r r := by simp [packed]
      rw [hz r, hy' r, e2, less_congr (g := fun c => fin ((U r c * x c : ℤ) : ℚ)) fun c hc _ => ?_]
      · rw [less_int _ (hrow r) (r.1 + 1) (n - (r.1 + 1)) (by have := r.2; omega)]
        have e3 : rest (fun c => U r c * x c) (r.1 + 1) (n - (r.1 + 1)) = x r * U r r := by
          unfold rest
          rw [Finset.sum_eq_single r]
          · rw [if_neg (by omega), mul_comm]
          · intro c _ hc
            split
            · rfl
            · rename_i hc'
              have hcr : c < r := by
                have : c.1 ≠ r.1 := fun e => hc (Fin.ext e)
                have := c.2
                show c.1 < r.1
                omega
              simp only [h0' r c hcr, zero_mul]
          · simp
        rw [e3]
        refine int_div (hU0 r) (lt_of_le_of_lt ?_ (hrow r))
        refine le_trans ?_ (one_abs (fun c => U r c * x c) r)
        rw [abs_mul]
        have : 1 ≤ |U r r| := Int.one_le_abs (hU0 r)
        nlinarith [abs_nonneg (x r)]
      · have hc' : ¬ c < r := by
          intro h
          have : c.1 < r.1 := h
          omega
        rw [ih (n - c.1) (by have := c.2; have := r.2; omega) c rfl]
        simp only [packed, if_neg hc']
        exact int_mul ((one_abs (fun c => U r c * x c) c).trans_lt (hrow r))
  congr 2
  exact congrArg vec (funext hz')

/-- Factors of the example below. -/
def lowerOf (r c : Fin 3) : ℤ := ([[1, 0, 0], [2, 1, 0], [-3, 5, 1]].getD r.1 []).getD c.1 0

/-- Factors of the example below. -/
def upperOf (r c : Fin 3) : ℤ := ([[7, 1, -2], [0, -3, 4], [0, 0, 11]].getD r.1 []).getD c.1 0

example : (∀ r, lowerOf r r = 1) ∧ (∀ r c, r < c → lowerOf r c = 0) ∧ (∀ r c, c < r → upperOf r c = 0) ∧
    (∀ i, (64 * (1 / 2 ^ 52) : ℚ) ≤ |upperOf i i|) ∧ (∀ r c, ∑ k, |lowerOf r k * upperOf k c| < 2 ^ 53) ∧
    (∀ r, ∑ k, |lowerOf r k| * ∑ c, |upperOf k c * ([123456789, -987654321, 555] : List ℤ).getD c.1 0| < 2 ^ 53) ∧
    freshDouble.tol = fin (64 * (1 / 2 ^ 52)) := by
  decide +kernel

/-- C204: with pivoting the quotients are no integers and the solution is rounded. -/
theorem c204_pivoting : ∃ s s',
    factorise (Num.arith binary64) false freshDouble [[fin 1, fin 0], [fin 3, fin 1]] = .ok (s, true) ∧
    Lu.solve false s [] (some [fin 1, fin 4]) = .ok ([fin 1, fin 1], true, 1) ∧
    factorise (Num.arith binary64) true freshDouble [[fin 1, fin 0], [fin 3, fin 1]] = .ok (s', true) ∧
    Lu.solve true s' [] (some [fin 1, fin 4]) = .ok ([fin 1, fin (1 - 1 / 2 ^ 52)], true, 1) :=
  ⟨⟨true, freshDouble.tol, [[fin 1, fin 0], [fin 3, fin 1]], []⟩,
    ⟨true, freshDouble.tol, [[fin 3, fin 1], [fin (6004799503160661 / 18014398509481984), fin (-6004799503160661 / 18014398509481984)]],
      [1, 0]⟩, by decide +kernel⟩

end Disa.Props
