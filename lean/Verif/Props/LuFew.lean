import Verif.Props.DegreeBand
import Verif.Props.LuAccurate
import Verif.Props.LuFill

/-!
# Property C211: the errors of the direct solver by the number of elements in the rows of the factors
-/

namespace Disa.Props

open Disa Spec Dense Num Lu

/-- Each row of the factors has at most `β` elements that are not zero on each side of the diagonal. -/
def Few {n : Nat} (β : Nat) (M : Fin n → Fin n → ℚ) : Prop :=
  ∀ r : Fin n, (Finset.univ.filter fun k => k < r ∧ M r k ≠ 0).card ≤ β ∧
    (Finset.univ.filter fun c => r < c ∧ M r c ≠ 0).card ≤ β

/-- Terms that are zero add no error. -/
theorem less_error_few {n : Nat} {v : Num binary64} (hv : IsDouble v) (f : Fin n → ℚ) (g : Fin n → Num binary64) (a m : Nat)
    (ham : a + m ≤ n) (q : ℚ) (hq : less v (fun c => fin (f c) * g c) a m = fin q) {β : Nat}
    (hβ : (Finset.univ.filter fun c : Fin n => a ≤ c.1 ∧ c.1 < a + m ∧ f c ≠ 0).card ≤ β) :
    |Num.val v - Lu.psum (fun c => f c * Num.val (g c)) a m - q| ≤
      (gain u64 ^ β - 1) * (Lu.psum (fun c => |f c * Num.val (g c)|) a m + |q|) + small u64 η64 β := by
  have h := rounds_binary64
  have h1 : u64 < 1 := by norm_num
  have hu : (0 : ℚ) ≤ u64 := by norm_num
  have hη : (0 : ℚ) ≤ η64 := by positivity
  induction m generalizing q β with
  | zero =>
    have hv : v = fin q := hq
    subst hv
    rw [Lu.psum_zero, Lu.psum_zero, Num.val_fin, sub_zero, sub_self, abs_zero, zero_add]
    have t1 : 1 ≤ gain u64 ^ β := one_le_pow₀ (gain_spec hu h1).1
    have t2 := small_nonneg hu h1 hη β
    have := mul_nonneg (sub_nonneg.mpr t1) (abs_nonneg q)
    linarith
  | succ m ih =>
    have hlt : a + m < n := by omega
    have hq' := hq
    rw [less, dif_pos hlt] at hq
    obtain ⟨s, p, e1, e2, e3⟩ := sub_fin hq
    obtain ⟨x, y, e4, e5, e6⟩ := mul_fin e2
    obtain rfl := fin_inj.mp e4
    rw [Lu.psum_succ _ _ _ hlt, Lu.psum_succ _ _ _ hlt, e5, Num.val_fin]
    by_cases hf : f ⟨a + m, hlt⟩ = 0
    · obtain rfl : s = q := by
        rw [hf, fin_zero_times (e5 ▸ ⟨y, rfl⟩), (less_double hv ⟨s, e1⟩).less_zero, e1] at hq
        exact fin_inj.mp hq
      rw [hf, zero_mul, abs_zero, add_zero, add_zero]
      exact ih (by omega) s e1 ((Finset.card_le_card (Finset.monotone_filter_right _ fun k _ hk => ⟨hk.1, by omega, hk.2.2⟩)).trans hβ)
    · obtain ⟨β, rfl⟩ : ∃ b, β = b + 1 := by
        refine ⟨β - 1, ?_⟩
        have : 0 < β := lt_of_lt_of_le (Finset.card_pos.mpr ⟨⟨a + m, hlt⟩, by simp [hf]⟩) hβ
        omega
      have hc : (Finset.univ.filter fun c : Fin n => a ≤ c.1 ∧ c.1 < a + m ∧ f c ≠ 0).card ≤ β := by
        have hlt' := Finset.card_lt_card (s := Finset.univ.filter fun c : Fin n => a ≤ c.1 ∧ c.1 < a + m ∧ f c ≠ 0)
          (t := Finset.univ.filter fun c : Fin n => a ≤ c.1 ∧ c.1 < a + (m + 1) ∧ f c ≠ 0) (by
            rw [Finset.ssubset_iff_of_subset (Finset.monotone_filter_right _ fun k _ hk => ⟨hk.1, by omega, hk.2.2⟩)]
            exact ⟨⟨a + m, hlt⟩, by simp [hf], by simp⟩)
        omega
      refine (chain_error h h1 β e6 e3 (ih (by omega) s e1 hc) (psum_nonneg (fun c => abs_nonneg _) _ _)).trans ?_
      exact add_le_add le_rfl (small_succ hu h1 hη β)

/-- C211: without pivoting, the errors of the direct solver are those of `β + 1` operations if the rows of the factors have no more than
`β` elements besides zeros on each side of the diagonal, wherever they are. -/
theorem c211_few (s s' : Lu (Num binary64)) {t : ℚ} (ht : 0 < t) (hs : s.tol = fin t) {n β : Nat} (B : Fin n → Fin n → ℚ)
    (hB : ∀ r c, binary64 (B r c) = .fin (B r c))
    (hf : factorise (Num.arith binary64) false s (mat fun r c => (fin (B r c) : Num binary64)) = .ok (s', true))
    (M : Fin n → Fin n → ℚ) (hM : s'.lu = mat fun r c => (fin (M r c) : Num binary64)) (hfew : Few β M) :
    (∀ r c, |B r c - ∑ k, lowerPart M r k * upperPart M k c| ≤
      relError u64 (β + 1) * (∑ k, |lowerPart M r k| * |upperPart M k c|) + absError u64 η64 (β + 1) * (1 + |M c c|)) ∧
    ∀ (d x : Fin n → ℚ) (x0 : List (Num binary64)), (∀ r, binary64 (d r) = .fin (d r)) →
      Lu.solve false s' x0 (some (vec fun r => (fin (d r) : Num binary64))) =
        .ok (vec (fun r => (fin (x r) : Num binary64)), true, 1) →
      ∀ r, |d r - ∑ c, B r c * x c| ≤
        (3 * relError u64 (β + 1) + relError u64 (β + 1) ^ 2) * (∑ k, |lowerPart M r k| * ∑ c, |upperPart M k c| * |x c|) +
        absError u64 η64 (β + 1) * (1 + (1 + relError u64 (β + 1)) * (∑ k, |lowerPart M r k| * (1 + |M k k|)) +
          ∑ c, (1 + |M c c|) * |x c|) := by
  have h := rounds_binary64
  have h1 : u64 < 1 := by norm_num
  have hu : (0 : ℚ) ≤ u64 := by norm_num
  have hη : (0 : ℚ) ≤ η64 := by positivity
  have hd0 : ∀ k, M k k ≠ 0 := by
    obtain ⟨p, M', st, ok, e1, e2⟩ := factorise_rounded h h1 false s ht hs fun r c => (fin (B r c) : Num binary64)
    rw [hf] at e1
    simp only [Out.ok.injEq, Prod.mk.injEq] at e1
    obtain ⟨rfl, rfl⟩ := e1
    obtain rfl : M' = fun r c => fin (M r c) := mat_inj.mp hM
    intro k
    have := (e2 rfl).diag k k.2
    rw [hs] at this
    exact ne_zero_of_accepted ht this rfl
  have hc := factorise_closed (Num.arith binary64) s s' _ _ hf hM
  have hlow : ∀ r : Fin n, (Finset.univ.filter fun k : Fin n => 0 ≤ k.1 ∧ k.1 < 0 + r.1 ∧ M r k ≠ 0).card ≤ β := fun r =>
    (Finset.card_le_card (Finset.monotone_filter_right _ fun k _ hk => ⟨show k.1 < r.1 by omega, hk.2.2⟩)).trans (hfew r).1
  have hBd : ∀ r c, IsDouble (fin (B r c)) := fun r c => ⟨_, rfl, hB r c⟩
  have hwide : ∀ {m : Nat} {T a v : ℚ}, m ≤ β + 1 → 0 ≤ T → v ≤ (gain u64 ^ m - 1) * T + small u64 η64 m →
      v ≤ relError u64 (β + 1) * T + absError u64 η64 (β + 1) := by
    intro m T a v hm hT hv
    rw [relError_eq, absError_eq]
    have t1 := mul_le_mul_of_nonneg_right (sub_le_sub_right (gain_mono hm) 1) hT
    have t2 := small_mono hu h1 hη hm
    linarith
  have hprod : ∀ r c, |B r c - ∑ k, lowerPart M r k * upperPart M k c| ≤
      relError u64 (β + 1) * (∑ k, |lowerPart M r k| * |upperPart M k c|) + absError u64 η64 (β + 1) * (1 + |M c c|) := by
    intro r c
    rw [product_abs]
    have hcc := abs_nonneg (M c c)
    have ha0 : 0 ≤ absError u64 η64 (β + 1) := by rw [absError_eq]; exact small_nonneg hu h1 hη _
    by_cases hrc : r ≤ c
    · have hrc' : r.1 ≤ c.1 := hrc
      have e := (hc r c).2 hrc
      have i3 := less_error_few (hBd r c) (M r) (fun k => fin (M k c)) 0 r.1 (by have := r.2; omega) _ e.symm (hlow r)
      simp only [Num.val_fin] at i3
      rw [product_upper M hrc, product_upper _ hrc, ← sub_sub]
      simp only [abs_mul] at i3 ⊢
      have hT : 0 ≤ Lu.psum (fun k => |M r k| * |M k c|) 0 r.1 + |M r c| :=
        add_nonneg (psum_nonneg (fun k => mul_nonneg (abs_nonneg _) (abs_nonneg _)) _ _) (abs_nonneg _)
      have := hwide (a := 0) (by omega) hT i3
      nlinarith
    · have hcr : c < r := not_le.mp hrc
      have hcr' : c.1 < r.1 := hcr
      have e := (hc r c).1 hcr
      obtain ⟨q, f1, f2⟩ := div_fin (hd0 c) e.symm
      have i3 := less_error_few (hBd r c) (M r) (fun k => fin (M k c)) 0 c.1 (by have := c.2; omega) _ f1
        (le_trans (Finset.card_le_card (Finset.monotone_filter_right _ fun k _ hk => ⟨hk.1, by omega, hk.2.2⟩)) (hlow r))
      simp only [Num.val_fin] at i3
      have i4 := quot_error h h1 β (hd0 c) f2 i3 (psum_nonneg (fun c => abs_nonneg _) _ _)
      rw [product_lower M hcr, product_lower _ hcr]
      simp only [abs_mul] at i4 ⊢
      have hT : 0 ≤ Lu.psum (fun k => |M r k| * |M k c|) 0 c.1 + |M r c| * |M c c| :=
        add_nonneg (psum_nonneg (fun k => mul_nonneg (abs_nonneg _) (abs_nonneg _)) _ _) (mul_nonneg (abs_nonneg _) (abs_nonneg _))
      exact widen hu h1 hη le_rfl hT hcc i4
  refine ⟨hprod, ?_⟩
  intro d x x0 hdd hx
  obtain ⟨p, -, hp, hsweep⟩ := solve_sweeps false s s' ht hs _ hf _ hM
  obtain ⟨y, x', e3, hy, hx'⟩ := hsweep (fun r => (fin (d r) : Num binary64)) x0
  obtain rfl := hp rfl
  rw [e3] at hx
  simp only [Out.ok.injEq, Prod.mk.injEq, and_true] at hx
  obtain rfl := vec_inj.mp hx
  simp only [Equiv.Perm.coe_one, id_eq] at hy
  have hyd : ∀ r, IsDouble (y r) := by
    intro r
    obtain ⟨q, f1, -⟩ := div_fin (hd0 r) (hx' r).symm
    have hfin : IsFin (y r) := less_finite (l := 0) ⟨q, f1⟩ (Nat.zero_le _)
    rw [hy r] at hfin ⊢
    exact less_double ⟨_, rfl, hdd r⟩ hfin
  have hyv : ∀ r, y r = fin (Num.val (y r)) := fun r => by
    obtain ⟨q, hq⟩ := (hyd r).isFin
    rw [hq]
    rfl
  have hback : ∀ r, |Num.val (y r) - ∑ c, upperPart M r c * x c| ≤
      relError u64 (β + 1) * (∑ c, |upperPart M r c| * |x c|) + absError u64 η64 (β + 1) * (1 + |M r r|) := by
    intro r
    obtain ⟨q, f1, f2⟩ := div_fin (hd0 r) (hx' r).symm
    have i3 := less_error_few (hyd r) (M r) (fun c => fin (x c)) (r.1 + 1) (n - (r.1 + 1)) (by have := r.2; omega) q f1
      (le_trans (Finset.card_le_card (Finset.monotone_filter_right _ fun k _ hk => ⟨show r.1 < k.1 by omega, hk.2.2⟩)) (hfew r).2)
    simp only [Num.val_fin] at i3
    have i4 := quot_error h h1 β (hd0 r) f2 i3 (psum_nonneg (fun c => abs_nonneg _) _ _)
    rw [sum_upper, mul_comm (M r r)]
    have q2 : ∑ c, |upperPart M r c| * |x c| = Lu.psum (fun c => |M r c * x c|) (r.1 + 1) (n - (r.1 + 1)) + |x r * M r r| := by
      have := sum_upper (fun r c => |M r c|) (fun c => |x c|) r
      rw [abs_mul, mul_comm |x r|]
      refine Eq.trans ?_ (this.trans ?_)
      · refine Finset.sum_congr rfl fun c _ => ?_
        unfold upperPart
        split
        · rfl
        · simp
      · simp only [abs_mul]
    rw [q2]
    have hT : 0 ≤ Lu.psum (fun c => |M r c * x c|) (r.1 + 1) (n - (r.1 + 1)) + |x r * M r r| :=
      add_nonneg (psum_nonneg (fun c => abs_nonneg _) _ _) (abs_nonneg _)
    exact widen hu h1 hη le_rfl hT (abs_nonneg _) i4
  have hfor : ∀ r, |d r - ∑ k, lowerPart M r k * Num.val (y k)| ≤
      relError u64 (β + 1) * (∑ k, |lowerPart M r k| * |Num.val (y k)|) + absError u64 η64 (β + 1) := by
    intro r
    have i3 := less_error_few ⟨_, rfl, hdd r⟩ (M r) y 0 r.1 (by have := r.2; omega) _ ((hy r).symm.trans (hyv r)) (hlow r)
    simp only [Num.val_fin] at i3
    rw [sum_lower, ← sub_sub]
    have q2 : ∑ k, |lowerPart M r k| * |Num.val (y k)| = Lu.psum (fun c => |M r c * Num.val (y c)|) 0 r.1 + |Num.val (y r)| := by
      have := sum_lower (fun r c => |M r c|) (fun c => |Num.val (y c)|) r
      refine Eq.trans ?_ (this.trans ?_)
      · refine Finset.sum_congr rfl fun c _ => ?_
        unfold lowerPart
        split
        · rfl
        · split <;> simp
      · simp only [abs_mul]
    rw [q2]
    have hT : 0 ≤ Lu.psum (fun c => |M r c * Num.val (y c)|) 0 r.1 + |Num.val (y r)| :=
      add_nonneg (psum_nonneg (fun c => abs_nonneg _) _ _) (abs_nonneg _)
    exact hwide (a := 0) (by omega) hT i3
  intro r
  have hε : 0 ≤ relError u64 (β + 1) := by
    rw [relError_eq]
    have : 1 ≤ gain u64 ^ (β + 1) := one_le_pow₀ (gain_spec (u := u64) (by norm_num) (by norm_num)).1
    linarith
  have := combine (B := B) (L := lowerPart M) (U := upperPart M) (b := d) (x := x)
    (y := fun k => Num.val (y k)) hε (fun r c => by rw [upper_diag]; exact hprod r c) hfor
    (fun k => by rw [upper_diag]; exact hback k) r
  simpa only [upper_diag] using this

/-- C211: the residual of a finite solution. -/
theorem c211_residual (s s' : Lu (Num binary64)) {t : ℚ} (ht : 0 < t) (hs : s.tol = fin t) {n β : Nat} (hb : β < 2 ^ 52)
    (B : Fin n → Fin n → ℚ) (hB : ∀ r c, binary64 (B r c) = .fin (B r c))
    (hf : factorise (Num.arith binary64) false s (mat fun r c => (fin (B r c) : Num binary64)) = .ok (s', true))
    (M : Fin n → Fin n → ℚ) (hM : s'.lu = mat fun r c => (fin (M r c) : Num binary64)) (hfew : Few β M) (d x : Fin n → ℚ) (x0 : List (Num binary64))
    (hd : ∀ r, binary64 (d r) = .fin (d r))
    (hx : Lu.solve false s' x0 (some (vec fun r => (fin (d r) : Num binary64))) =
      .ok (vec (fun r => (fin (x r) : Num binary64)), true, 1)) (r : Fin n) :
    |d r - ∑ c, B r c * x c| ≤ ((β + 1 : Nat) : ℚ) / 2 ^ 50 * (∑ k, |lowerPart M r k| * ∑ c, |upperPart M k c| * |x c|) +
      6 * ((β + 1 : Nat) : ℚ) / 2 ^ 1075 * (1 + 2 * (∑ k, |lowerPart M r k| * (1 + |M k k|)) + ∑ c, (1 + |M c c|) * |x c|) := by
  refine ((c211_few s s' ht hs B hB hf M hM hfew).2 d x x0 hd hx r).trans ?_
  have hn : β + 1 ≤ 2 ^ 52 := hb
  generalize β + 1 = m at hn ⊢
  have hn' : (m : ℚ) ≤ 2 ^ 52 := by exact_mod_cast hn
  have e1 := c102_relError hn
  have e0 : 0 ≤ relError (1 / 2 ^ 53) m := by
    have : (1 : ℚ) ≤ (1 / (1 - 1 / 2 ^ 53)) ^ m := one_le_pow₀ (by norm_num)
    unfold relError
    linarith
  have e2 : relError (1 / 2 ^ 53) m ≤ 1 := by
    refine e1.trans ?_
    rw [div_le_one (by positivity)]
    exact hn'
  have e3 := c102_absError hn
  have g1 : 3 * relError (1 / 2 ^ 53) m + relError (1 / 2 ^ 53) m ^ 2 ≤ m / 2 ^ 50 := by
    have : relError (1 / 2 ^ 53) m ^ 2 ≤ relError (1 / 2 ^ 53) m := by nlinarith
    have q : (m : ℚ) / 2 ^ 50 = 4 * (m / 2 ^ 52) := by ring
    rw [q]
    linarith
  have g2 : 1 + relError (1 / 2 ^ 53) m ≤ 2 := by linarith
  have w1 : 0 ≤ ∑ k, |lowerPart M r k| * ∑ c, |upperPart M k c| * |x c| :=
    Finset.sum_nonneg fun k _ => mul_nonneg (abs_nonneg _) (Finset.sum_nonneg fun c _ => mul_nonneg (abs_nonneg _) (abs_nonneg _))
  have w2 : 0 ≤ ∑ k, |lowerPart M r k| * (1 + |M k k|) :=
    Finset.sum_nonneg fun k _ => mul_nonneg (abs_nonneg _) (add_nonneg zero_le_one (abs_nonneg _))
  have w3 : 0 ≤ ∑ c, (1 + |M c c|) * |x c| :=
    Finset.sum_nonneg fun k _ => mul_nonneg (add_nonneg zero_le_one (abs_nonneg _)) (abs_nonneg _)
  have w4 : (0 : ℚ) ≤ 6 * m / 2 ^ 1075 := by positivity
  refine add_le_add (mul_le_mul_of_nonneg_right g1 w1) ?_
  refine mul_le_mul e3 (by gcongr) ?_ w4
  exact add_nonneg (add_nonneg zero_le_one (mul_nonneg (add_nonneg zero_le_one e0) w2)) w3

/-! ### Dominant matrices -/

theorem lower_few {n : Nat} {M : Fin n → Fin n → ℚ} {r k : Fin n} (h : ¬ (k = r ∨ k < r ∧ M r k ≠ 0)) : lowerPart M r k = 0 := by
  unfold lowerPart
  push Not at h
  split
  · rename_i hk
    exact h.2 hk
  · rw [if_neg h.1]

theorem few_sum {n β : Nat} {r : Fin n} {p : Fin n → Prop} [DecidablePred p] (hp : (Finset.univ.filter fun k => k < r ∧ p k).card ≤ β)
    {f : Fin n → ℚ} {T : ℚ} (h0 : ∀ k, ¬ (k = r ∨ k < r ∧ p k) → f k = 0) (hT : 0 ≤ T) (hf : ∀ k, k ≤ r → f k ≤ T) :
    ∑ k, f k ≤ ((β + 1 : Nat) : ℚ) * T := by
  have e : ∑ k, f k = ∑ k ∈ insert r (Finset.univ.filter fun k => k < r ∧ p k), f k := by
    refine (Finset.sum_subset (Finset.subset_univ _) fun k _ hk => h0 k fun hx => hk ?_).symm
    rcases hx with rfl | hx
    · exact Finset.mem_insert_self _ _
    · exact Finset.mem_insert_of_mem (Finset.mem_filter.mpr ⟨Finset.mem_univ _, hx⟩)
  rw [e]
  refine (Finset.sum_le_card_nsmul _ _ T fun k hk => hf k ?_).trans ?_
  · rcases Finset.mem_insert.mp hk with rfl | hk
    · exact le_rfl
    · exact (Finset.mem_filter.mp hk).2.1.le
  · rw [nsmul_eq_mul]
    refine mul_le_mul_of_nonneg_right ?_ hT
    exact_mod_cast (Finset.card_insert_le _ _).trans (Nat.add_le_add_right hp 1)

/-- The sums of the residual for the factors of a dominant matrix. -/
theorem few_sums {n β : Nat} {M : Fin n → Fin n → ℚ} (hM : Few β M) {t A X : ℚ} (ht : 0 < t)
    (hU : ∀ r, t ≤ |M r r| ∧ |M r r| ≤ 2 * A ∧ ∑ c ∈ columns n (r.1 + 1), |M r c| ≤ |M r r|)
    (hL : ∀ r k, k < r → |M r k| * |M k k| ≤ 5 / 4 * (2 * A)) {x : Fin n → ℚ} (hx : ∀ c, |x c| ≤ X) (r : Fin n) :
    ∑ k, |lowerPart M r k| * ∑ c, |upperPart M k c| * |x c| ≤ ((β + 1 : Nat) : ℚ) * (5 * A * X) ∧
    ∑ k, |lowerPart M r k| * (1 + |M k k|) ≤ ((β + 1 : Nat) : ℚ) * (5 / 2 * A * (1 / t + 1)) ∧
    ∑ c, (1 + |M c c|) * |x c| ≤ n * ((1 + 2 * A) * X) := by
  have hX : 0 ≤ X := (abs_nonneg _).trans (hx r)
  have hA : 0 ≤ A := by linarith [abs_nonneg (M r r), (hU r).2.1]
  have hp := fun {r k : Fin n} => lower_pivot (r := r) (k := k) hA (fun r => (hU r).2.1) hL
  refine ⟨few_sum (hM r).1 (fun k hk => by rw [lower_few hk, abs_zero, zero_mul]) (by positivity) fun k hk => ?_,
    few_sum (hM r).1 (fun k hk => by rw [lower_few hk, abs_zero, zero_mul]) (by positivity) fun k hk => ?_, ?_⟩
  · have h1 : ∑ c, |upperPart M k c| * |x c| ≤ 2 * |M k k| * X := by
      calc _ ≤ ∑ c, |upperPart M k c| * X := Finset.sum_le_sum fun c _ => mul_le_mul_of_nonneg_left (hx c) (abs_nonneg _)
        _ = (∑ c, |upperPart M k c|) * X := by rw [Finset.sum_mul]
        _ ≤ _ := mul_le_mul_of_nonneg_right (upper_sum M (fun r => (hU r).2.2) k) hX
    calc _ ≤ |lowerPart M r k| * (2 * |M k k| * X) := mul_le_mul_of_nonneg_left h1 (abs_nonneg _)
      _ = 2 * X * (|lowerPart M r k| * |M k k|) := by ring
      _ ≤ 2 * X * (5 / 2 * A) := mul_le_mul_of_nonneg_left (hp hk) (by positivity)
      _ = _ := by ring
  · have h1 : |lowerPart M r k| ≤ 5 / 2 * A * (1 / t) := by
      have h2 := (mul_le_mul_of_nonneg_left (hU k).1 (abs_nonneg (lowerPart M r k))).trans (hp hk)
      rw [mul_one_div, le_div_iff₀ ht]
      exact h2
    have h3 := hp hk
    rw [mul_add, mul_one, mul_add, mul_one]
    exact add_le_add h1 h3
  · calc _ ≤ ∑ _c : Fin n, (1 + 2 * A) * X := Finset.sum_le_sum fun c _ =>
          mul_le_mul (by linarith [(hU c).2.1]) (hx c) (abs_nonneg _) (by linarith)
      _ = _ := by rw [Finset.sum_const, nsmul_eq_mul, Finset.card_univ, Fintype.card_fin]

/-- C211: finite solutions of a dominant system. -/
theorem c211_accurate {n β : Nat} (hb : β < 2 ^ 52) {t A S : ℚ} (ht : 1 / 2 ^ 100 ≤ t) (hA : A ≤ 2 ^ 900) (B : Fin n → Fin n → ℚ)
    (hB : ∀ r c, binary64 (B r c) = .fin (B r c)) (hrow : ∀ r, ∑ c, |B r c| ≤ A)
    (hdom : ∀ r, S + ∑ c ∈ Finset.univ.erase r, |B r c| ≤ |B r r|) (hS : t + n * A / 2 ^ 49 ≤ S) (s : Lu (Num binary64))
    (hs : s.tol = fin t) (hβ : ∀ (s' : Lu (Num binary64)) (M : Fin n → Fin n → ℚ),
      factorise (Num.arith binary64) false s (mat fun r c => (fin (B r c) : Num binary64)) = .ok (s', true) →
      s'.lu = mat (fun r c => (fin (M r c) : Num binary64)) → Few β M) :
    ∃ s', factorise (Num.arith binary64) false s (mat fun r c => (fin (B r c) : Num binary64)) = .ok (s', true) ∧
    ∀ (d x : Fin n → ℚ) (x0 : List (Num binary64)) (X : ℚ), (∀ r, binary64 (d r) = .fin (d r)) →
      Lu.solve false s' x0 (some (vec fun r => (fin (d r) : Num binary64))) =
        .ok (vec (fun r => (fin (x r) : Num binary64)), true, 1) → (∀ c, |x c| ≤ X) →
      (∀ r, |d r - ∑ c, B r c * x c| ≤ ((β + 1 : Nat) : ℚ) ^ 2 * A * (6 * X / 2 ^ 50 + 1 / 2 ^ 900)) ∧
      ∀ y, Solves B y d → ∀ r, |x r - y r| ≤ ((β + 1 : Nat) : ℚ) ^ 2 * A * (6 * X / 2 ^ 50 + 1 / 2 ^ 900) / S := by
  have ht0 : 0 < t := lt_of_lt_of_le (by positivity) ht
  obtain ⟨M, h1, h2, hg, h3⟩ := factorise_heavy64 ht hA hrow hdom hS s hs
  have h2 := heavy_pivots ht0 (fun r => (h2 r).1) hg
  refine ⟨_, h1, fun d x x0 X hd hx hX => ?_⟩
  have hres : ∀ r, |d r - ∑ c, B r c * x c| ≤ ((β + 1 : Nat) : ℚ) ^ 2 * A * (6 * X / 2 ^ 50 + 1 / 2 ^ 900) := by
    intro r
    have hn0 : 0 < n := r.pos
    obtain ⟨htS, hSA, hn⟩ := heavy_size hn0 ht0 hrow hdom hS
    have hX0 : 0 ≤ X := (abs_nonneg _).trans (hX r)
    obtain ⟨k1, k2, k3⟩ := few_sums (hβ _ M h1 rfl) ht0 h2 h3 hX r
    refine (c211_residual s _ ht0 hs hb B hB h1 M rfl (hβ _ M h1 rfl) d x x0 hd hx r).trans ?_
    have hm : (1 : ℚ) ≤ ((β + 1 : Nat) : ℚ) := by exact_mod_cast Nat.le_add_left 1 β
    generalize ((β + 1 : Nat) : ℚ) = m at *
    refine le_trans ?_ (heavy_constants hm hn ht (htS.trans hSA) hX0)
    have g1 : (0 : ℚ) ≤ m / 2 ^ 50 := by positivity
    have g2 : (0 : ℚ) ≤ 6 * m / 2 ^ 1075 := by positivity
    exact add_le_add (mul_le_mul_of_nonneg_left k1 g1)
      (mul_le_mul_of_nonneg_left (add_le_add (add_le_add le_rfl (mul_le_mul_of_nonneg_left k2 (by norm_num))) k3) g2)
  refine ⟨hres, fun y hy r => ?_⟩
  have hn0 : 0 < n := r.pos
  exact dominant_error (ht0.trans_le (heavy_size hn0 ht0 hrow hdom hS).1) hdom hy hres r

/-- C211: a dominant system whose numbers are at most 2^400 in size. -/
theorem c211_solved {n β : Nat} (hb : β < 2 ^ 52) {t A S : ℚ} (ht : 1 / 2 ^ 100 ≤ t) (hA : A ≤ 2 ^ 400) (B : Fin n → Fin n → ℚ)
    (hB : ∀ r c, binary64 (B r c) = .fin (B r c)) (hrow : ∀ r, ∑ c, |B r c| ≤ A)
    (hdom : ∀ r, S + ∑ c ∈ Finset.univ.erase r, |B r c| ≤ |B r r|) (hS : t + n * A / 2 ^ 47 ≤ S) (s : Lu (Num binary64))
    (hs : s.tol = fin t) (hβ : ∀ (s' : Lu (Num binary64)) (M : Fin n → Fin n → ℚ),
      factorise (Num.arith binary64) false s (mat fun r c => (fin (B r c) : Num binary64)) = .ok (s', true) →
      s'.lu = mat (fun r c => (fin (M r c) : Num binary64)) → Few β M) :
    ∃ s', factorise (Num.arith binary64) false s (mat fun r c => (fin (B r c) : Num binary64)) = .ok (s', true) ∧
    ∀ (d : Fin n → ℚ) (D : ℚ) (x0 : List (Num binary64)), (∀ r, binary64 (d r) = .fin (d r)) → (∀ r, |d r| ≤ D) → D ≤ 2 ^ 400 →
      ∃ x : Fin n → ℚ, Lu.solve false s' x0 (some (vec fun r => (fin (d r) : Num binary64))) =
        .ok (vec (fun r => (fin (x r) : Num binary64)), true, 1) ∧
      (∀ r, |x r| ≤ 8 * (D + A / 2 ^ 900) / S) ∧
      ∀ y, Solves B y d → ∀ r, |x r - y r| ≤ ((β + 1 : Nat) : ℚ) ^ 2 * (A / S) * (D / S / 2 ^ 44 + 1 / 2 ^ 440) := by
  have ht0 : 0 < t := lt_of_lt_of_le (by positivity) ht
  have hA9 : A ≤ 2 ^ 900 := hA.trans (pow_le_pow_right₀ (by norm_num) (by norm_num))
  have hS9 : t + n * A / 2 ^ 49 ≤ S := by
    rcases Nat.eq_zero_or_pos n with rfl | hn0
    · simpa using hS
    · have h1 : 0 ≤ ∑ c, |B ⟨0, hn0⟩ c| := Finset.sum_nonneg fun _ _ => abs_nonneg _
      have h2 : 0 ≤ n * A := mul_nonneg (by positivity) (h1.trans (hrow _))
      have h3 : n * A / 2 ^ 49 ≤ n * A / 2 ^ 47 := div_le_div_of_nonneg_left h2 (by positivity) (by norm_num)
      linarith
  obtain ⟨M, h1, h2, hg, -⟩ := factorise_heavy64 ht hA9 hrow hdom hS9 s hs
  obtain ⟨s', k1, k2⟩ := c211_accurate hb ht hA9 B hB hrow hdom hS9 s hs hβ
  rw [h1] at k1
  obtain rfl := (Prod.mk.inj (Out.ok.inj k1)).1
  refine ⟨_, h1, fun d D x0 hd hdD hD => ?_⟩
  obtain ⟨y, w, l1, l2, l3⟩ := solve_any false
    { s with factorised := true, lu := mat (fun r c => (fin (M r c) : Num binary64)) }
    (fun r c => (fin (M r c) : Num binary64)) rfl rfl 1 (by simp) (fun _ => rfl) (fun r => (fin (d r) : Num binary64)) x0
  have hfin : ∀ r, ∃ q, w r = fin q ∧ |q| ≤ 8 * (D + A / 2 ^ 900) / S := by
    intro r
    obtain ⟨htS, hSA, -⟩ := heavy_size r.pos ht0 hrow hdom hS9
    refine heavy_finite ht hA hD htS hSA ?_ (fun r => (h2 r).1) (fun r => (h2 r).2) hg hdD l2 l3 r
    have : n * A / 2 ^ 47 ≤ S := by linarith
    rw [div_le_iff₀ (by positivity)] at this
    linarith
  choose x hx using hfin
  have e : w = fun r => fin (x r) := funext fun r => (hx r).1
  rw [e] at l1
  refine ⟨x, l1, fun r => (hx r).2, fun z hz r => ?_⟩
  refine ((k2 d x x0 _ hd l1 fun c => (hx c).2).2 z hz r).trans ?_
  obtain ⟨htS, hSA, -⟩ := heavy_size r.pos ht0 hrow hdom hS9
  have hS0 : 0 < S := ht0.trans_le htS
  rw [div_eq_mul_one_div A (2 ^ 900)]
  refine solved_constants hS0 (hS0.le.trans hSA) ((abs_nonneg _).trans (hdD r)) ?_
  have hAS : A / S ≤ 2 ^ 400 * 2 ^ 100 := by
    have hS1 : 1 ≤ 2 ^ 100 * S := by
      have := mul_le_mul_of_nonneg_left (ht.trans htS) (show (0 : ℚ) ≤ 2 ^ 100 by positivity)
      rwa [mul_one_div_cancel (by positivity)] at this
    rw [div_le_iff₀ hS0, mul_assoc]
    calc A ≤ 2 ^ 400 * 1 := by rw [mul_one]; exact hA
      _ ≤ _ := mul_le_mul_of_nonneg_left hS1 (by positivity)
  have e9 : (2 : ℚ) ^ 400 * 2 ^ 100 * (1 / 2 ^ 900) = 1 / 2 ^ 400 := by
    rw [show (900 : ℕ) = 400 + 100 + 400 from rfl, pow_add, pow_add]
    field_simp
  have a1 : A / S * (1 / 2 ^ 900) ≤ 1 / 2 ^ 400 := by
    rw [← e9]
    exact mul_le_mul_of_nonneg_right hAS (by positivity)
  have a2 : (1 : ℚ) / 2 ^ 900 ≤ 1 / 2 ^ 441 :=
    one_div_le_one_div_of_le (by positivity) (pow_le_pow_right₀ (by norm_num) (by norm_num))
  have a3 : (1 : ℚ) / 2 ^ 441 = 1 / 2 ^ 400 * (1 / 2 ^ 41) := by
    rw [show (441 : ℕ) = 400 + 41 from rfl, pow_add, one_div_mul_one_div]
  have a4 : (1 : ℚ) / 2 ^ 440 = 1 / 2 ^ 400 * (1 / 2 ^ 40) := by
    rw [show (440 : ℕ) = 400 + 40 from rfl, pow_add, one_div_mul_one_div]
  have a5 : (0 : ℚ) < 1 / 2 ^ 400 := by positivity
  rw [a3] at a2
  rw [a4]
  clear e9 hAS
  generalize A / S * (1 / 2 ^ 900) = v at *
  generalize (1 : ℚ) / 2 ^ 900 = v' at *
  generalize (1 : ℚ) / 2 ^ 400 = v'' at *
  clear hA9 hA hD
  linarith

/-! ### Graphs without fill-in -/

/-- The factors along a graph have no more elements in a row than the vertex has neighbours. -/
theorem few_of_along {g : Graph} (h : Reachable false g) {M : Fin g.sizeVertex → Fin g.sizeVertex → ℚ} (hM : Along g M) {β : Nat}
    (hdeg : ∀ v, v < g.sizeVertex → (around g v).card ≤ β) : Few β M := by
  intro r
  have key : ∀ s : Finset (Fin g.sizeVertex), (∀ c ∈ s, r ≠ c ∧ M r c ≠ 0) → s.card ≤ β := by
    intro s hs
    refine (Finset.card_le_card_of_injOn (fun c => c.1) (fun c hc => ?_) fun a _ b _ e => Fin.ext e).trans (hdeg r r.2)
    obtain ⟨h1, h2⟩ := hs c hc
    exact (mem_around h).mpr (along_adj hM h1 h2)
  refine ⟨key _ fun c hc => ?_, key _ fun c hc => ?_⟩
  · obtain ⟨-, h1, h2⟩ := Finset.mem_filter.mp hc
    exact ⟨h1.ne', h2⟩
  · obtain ⟨-, h1, h2⟩ := Finset.mem_filter.mp hc
    exact ⟨h1.ne, h2⟩

theorem around_le {g : Graph} (h : Reachable false g) {β : Nat} (hdeg : ∀ v d, g.degree v = .ok d → d ≤ β) {v : Nat}
    (hv : v < g.sizeVertex) : (around g v).card ≤ β := by
  obtain ⟨L, hr, -⟩ := Graph.reach_rep h
  have hd := hr.degree (v := v) (by rw [← hr.sizeVertex]; exact hv)
  rw [degree_around h hd]
  exact hdeg v _ hd

/-- What C211 says of a finite solution of a system of doubles along the edges of `g`. -/
def SmallResidual (g : Graph) (β : Nat) : Prop :=
  ∀ B : Fin g.sizeVertex → Fin g.sizeVertex → ℚ, (∀ r c, binary64 (B r c) = .fin (B r c)) → Along g B →
    ∀ (s s' : Lu (Num binary64)) (t : ℚ), 0 < t → s.tol = fin t →
    factorise (Num.arith binary64) false s (mat fun r c => (fin (B r c) : Num binary64)) = .ok (s', true) →
    ∀ M : Fin g.sizeVertex → Fin g.sizeVertex → ℚ, s'.lu = mat (fun r c => (fin (M r c) : Num binary64)) →
    ∀ (d x : Fin g.sizeVertex → ℚ) (x0 : List (Num binary64)), (∀ r, binary64 (d r) = .fin (d r)) →
    Lu.solve false s' x0 (some (vec fun r => (fin (d r) : Num binary64))) =
      .ok (vec (fun r => (fin (x r) : Num binary64)), true, 1) →
    ∀ r, |d r - ∑ c, B r c * x c| ≤ ((β + 1 : Nat) : ℚ) / 2 ^ 50 * (∑ k, |lowerPart M r k| * ∑ c, |upperPart M k c| * |x c|) +
      6 * ((β + 1 : Nat) : ℚ) / 2 ^ 1075 * (1 + 2 * (∑ k, |lowerPart M r k| * (1 + |M k k|)) + ∑ c, (1 + |M c c|) * |x c|)

theorem joined_residual {g : Graph} (h : Reachable false g) (hj : LaterJoined g) {β : Nat} (hb : β < 2 ^ 52)
    (hdeg : ∀ v, v < g.sizeVertex → (around g v).card ≤ β) : SmallResidual g β :=
  fun B hB hA s s' _ ht hs hf M hM d x x0 hd hx r =>
    c211_residual s s' ht hs hb B hB hf M hM
      (few_of_along h (c210_no_fill g h hj s s' ht hs B hA hf M hM) hdeg) d x x0 hd hx r

/-- C211: if the later neighbours of every vertex are neighbours of each other, the largest degree takes the place of the number of
unknowns. -/
theorem c211_joined (g : Graph) (h : Reachable false g) (hj : LaterJoined g) (β : Nat) (hb : β < 2 ^ 52)
    (hdeg : ∀ v d, g.degree v = .ok d → d ≤ β) : SmallResidual g β :=
  joined_residual h hj hb fun _ hv => around_le h hdeg hv

/-- A tree after `cuthill_mckee_reverse`. -/
theorem tree_reordered (sort : List (Nat × Nat) → List (Nat × Nat)) (hsort : DegreeSort sort) (g : Graph) (h : Reachable false g)
    (ht : Tree g) (root : Nat) (hroot : root < g.sizeVertex ∨ root = sizeMax ∧ 1 < g.sizeVertex) (β : Nat)
    (hdeg : ∀ v d, g.degree v = .ok d → d ≤ β) :
    ∃ q g', g.cuthillMckeeReverse sort root = .ok q ∧ g.reorder q = .ok (g', g) ∧ Reachable false g' ∧ LaterJoined g' ∧
      ∀ v, v < g'.sizeVertex → (around g' v).card ≤ β := by
  obtain ⟨p, -, q, g', hp, -, -, h1, h2, h3⟩ := c193_cuthill_mckee sort hsort g h ht root hroot
  obtain ⟨q', k1, k2, -⟩ := (c20_reverse sort hsort g h root).1 p hp
  obtain rfl : q' = q := Out.ok.inj (k1.symm.trans h1)
  obtain ⟨g1, m1, m2, m3, m4⟩ := reorder_spec h k2
  obtain rfl : g1 = g' := congrArg Prod.fst (Out.ok.inj (m1.symm.trans h2))
  refine ⟨q', g1, h1, h2, m2, after_joined m2 h3, fun v hv => ?_⟩
  obtain ⟨w, hw⟩ := perm_surj k2 (i := v) (by omega)
  rw [around_reorder h m2 k2 m4 m3 hw]
  exact around_le h hdeg (perm_lt k2 hw).1

/-- C211: so for every tree after `cuthill_mckee_reverse`. -/
theorem c211_tree (sort : List (Nat × Nat) → List (Nat × Nat)) (hsort : DegreeSort sort) (g : Graph) (h : Reachable false g)
    (ht : Tree g) (root : Nat) (hroot : root < g.sizeVertex ∨ root = sizeMax ∧ 1 < g.sizeVertex) (β : Nat) (hb : β < 2 ^ 52)
    (hdeg : ∀ v d, g.degree v = .ok d → d ≤ β) :
    ∃ q g', g.cuthillMckeeReverse sort root = .ok q ∧ g.reorder q = .ok (g', g) ∧ SmallResidual g' β := by
  obtain ⟨q, g', h1, h2, h3, h4, h5⟩ := tree_reordered sort hsort g h ht root hroot β hdeg
  exact ⟨q, g', h1, h2, joined_residual h3 h4 hb h5⟩

/-- C211: dominant systems on a tree after `cuthill_mckee_reverse` are solved with errors that the largest degree bounds. -/
theorem c211_tree_solved (sort : List (Nat × Nat) → List (Nat × Nat)) (hsort : DegreeSort sort) (g : Graph) (h : Reachable false g)
    (htree : Tree g) (root : Nat) (hroot : root < g.sizeVertex ∨ root = sizeMax ∧ 1 < g.sizeVertex) (β : Nat) (hb : β < 2 ^ 52)
    (hdeg : ∀ v d, g.degree v = .ok d → d ≤ β) :
    ∃ q g', g.cuthillMckeeReverse sort root = .ok q ∧ g.reorder q = .ok (g', g) ∧
    ∀ (B : Fin g'.sizeVertex → Fin g'.sizeVertex → ℚ) (t A S : ℚ), 1 / 2 ^ 100 ≤ t → A ≤ 2 ^ 400 →
    (∀ r c, binary64 (B r c) = .fin (B r c)) → Along g' B → (∀ r, ∑ c, |B r c| ≤ A) →
    (∀ r, S + ∑ c ∈ Finset.univ.erase r, |B r c| ≤ |B r r|) →
    t + g'.sizeVertex * A / 2 ^ 47 ≤ S → ∀ s : Lu (Num binary64), s.tol = fin t →
    ∃ s', factorise (Num.arith binary64) false s (mat fun r c => (fin (B r c) : Num binary64)) = .ok (s', true) ∧
    ∀ (d : Fin g'.sizeVertex → ℚ) (D : ℚ) (x0 : List (Num binary64)), (∀ r, binary64 (d r) = .fin (d r)) → (∀ r, |d r| ≤ D) →
      D ≤ 2 ^ 400 →
      ∃ x : Fin g'.sizeVertex → ℚ, Lu.solve false s' x0 (some (vec fun r => (fin (d r) : Num binary64))) =
        .ok (vec (fun r => (fin (x r) : Num binary64)), true, 1) ∧
      (∀ r, |x r| ≤ 8 * (D + A / 2 ^ 900) / S) ∧
      ∀ y, Solves B y d → ∀ r, |x r - y r| ≤ ((β + 1 : Nat) : ℚ) ^ 2 * (A / S) * (D / S / 2 ^ 44 + 1 / 2 ^ 440) := by
  obtain ⟨q, g', h1, h2, h3, h4, h5⟩ := tree_reordered sort hsort g h htree root hroot β hdeg
  refine ⟨q, g', h1, h2, fun B t A S ht hA hB hal hrow hdom hS s hs => ?_⟩
  exact c211_solved hb ht hA B hB hrow hdom hS s hs fun s' M hf hM =>
    few_of_along h3 (c210_no_fill g' h3 h4 s s' (lt_of_lt_of_le (by positivity) ht) hs B hal hf M hM) h5

/-- The path 0 - 2 - 3 - 1 numbered from its ends. -/
def pathEnds (r c : Fin 4) : ℚ := ([[2, 0, -1, 0], [0, 2, 0, -1], [-1, 0, 5 / 2, -1], [0, -1, -1, 3]].getD r.1 []).getD c.1 0

def pathFactors (r c : Fin 4) : ℚ :=
  ([[2, 0, -1, 0], [0, 2, 0, -1], [-1 / 2, 0, 2, -1], [0, -1 / 2, -1 / 2, 2]].getD r.1 []).getD c.1 0

example : ∃ s', factorise (Num.arith binary64) false freshDouble (mat fun r c => (fin (pathEnds r c) : Num binary64)) = .ok (s', true) ∧
    s'.lu = mat (fun r c => (fin (pathFactors r c) : Num binary64)) ∧ Few 2 pathFactors ∧
    Lu.solve false s' [fin 0, fin 0, fin 0, fin 0] (some [fin 1, fin 0, fin 0, fin 0]) =
      .ok ([fin (21 / 32), fin (1 / 16), fin (5 / 16), fin (1 / 8)], true, 1) :=
  ⟨⟨true, freshDouble.tol, mat (fun r c => (fin (pathFactors r c) : Num binary64)), []⟩, by decide +kernel, rfl,
    by unfold Few; decide +kernel, by decide +kernel⟩

example : (∀ r c, binary64 (pathEnds r c) = .fin (pathEnds r c)) ∧ (∀ r, ∑ c, |pathEnds r c| ≤ 5) ∧
    (∀ r, 1 / 2 + ∑ c ∈ Finset.univ.erase r, |pathEnds r c| ≤ |pathEnds r r|) ∧
    (64 * (1 / 2 ^ 52) : ℚ) + (4 : Nat) * 5 / 2 ^ 47 ≤ 1 / 2 ∧ (1 / 2 ^ 100 : ℚ) ≤ 64 * (1 / 2 ^ 52) :=
  ⟨by decide +kernel, by decide +kernel, by decide +kernel, by norm_num, by norm_num⟩

/-- The hypotheses on trees hold for a vertex with three branches. -/
example : Reachable false branches ∧ Tree branches ∧ 2 < branches.sizeVertex ∧ (∀ v d, branches.degree v = .ok d → d ≤ 3) ∧
    DegreeSort (List.insertionSort fun a b => a.2 ≤ b.2) := by
  refine ⟨branches_reachable, branches_tree, by decide, fun v d hd => ?_, insertionSort_degreeSort⟩
  have h : ∀ v : Fin 6, ∃ k ∈ [1, 2, 3], branches.degree v = .ok k := by decide +kernel
  obtain ⟨L, hr, -⟩ := Graph.reach_rep branches_reachable
  have hv := (degree_row hr hd).1
  rw [← hr.sizeVertex] at hv
  obtain ⟨k, hk, e⟩ := h ⟨v, hv⟩
  obtain rfl : d = k := Out.ok.inj (hd.symm.trans e)
  simp at hk
  omega

end Disa.Props
