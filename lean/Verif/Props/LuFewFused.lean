import Verif.Props.LuFew
import Verif.Props.LuFillFused

/-!
# Property C236: with fused operations, the errors of the direct solver by the number of elements in the rows of the factors
-/

namespace Disa.Props

open Disa Spec Dense Num Lu Fused

variable {fuse : Hist → Hist → Hist → Bool} {n : Nat}

/-- Terms that are zero add no error. -/
theorem less_fused_few {v : Fused binary64 fuse} (hv : IsDouble v.get) (f g : Fin n → Fused binary64 fuse) (a m : Nat)
    (ham : a + m ≤ n) (h : (less v (fun c => f c * g c) a m).IsFin) {β : Nat}
    (hβ : (Finset.univ.filter fun c : Fin n => a ≤ c.1 ∧ c.1 < a + m ∧ (f c).val ≠ 0).card ≤ β) :
    |v.val - Lu.psum (fun c => (f c).val * (g c).val) a m - (less v (fun c => f c * g c) a m).val| ≤
      (gain u64 ^ β - 1) * (Lu.psum (fun c => |(f c).val * (g c).val|) a m + |(less v (fun c => f c * g c) a m).val|) +
        small u64 η64 β := by
  have hr := rounds_binary64
  have h1 : u64 < 1 := by norm_num
  have hu : (0 : ℚ) ≤ u64 := by norm_num
  have hη : (0 : ℚ) ≤ η64 := by positivity
  induction m generalizing β with
  | zero =>
    rw [Lu.psum_zero, Lu.psum_zero, sub_zero, less, sub_self, abs_zero, zero_add]
    have t1 : 1 ≤ gain u64 ^ β := one_le_pow₀ (gain_spec hu h1).1
    have t2 := small_nonneg hu h1 hη β
    have := mul_nonneg (sub_nonneg.mpr t1) (abs_nonneg v.val)
    linarith
  | succ m ih =>
    have hlt : a + m < n := by omega
    have hd : less v (fun c => f c * g c) a (m + 1) = less v (fun c => f c * g c) a m - f ⟨a + m, hlt⟩ * g ⟨a + m, hlt⟩ := by
      conv_lhs => unfold less
      rw [dif_pos hlt]
    rw [hd] at h ⊢
    obtain ⟨e1, e2, e3, p, e4, e5⟩ := sub_mul_fin hr h
    rw [Lu.psum_succ _ _ _ hlt, Lu.psum_succ _ _ _ hlt]
    by_cases hf : (f ⟨a + m, hlt⟩).val = 0
    · have hz : ZeroTerm (f ⟨a + m, hlt⟩) (g ⟨a + m, hlt⟩) := .inl ⟨by rw [e2, hf], e3⟩
      have hs : (less v (fun c => f c * g c) a m - f ⟨a + m, hlt⟩ * g ⟨a + m, hlt⟩).val = (less v (fun c => f c * g c) a m).val := by
        conv_lhs => unfold Fused.val
        rw [sub_zeroF (less_doubleF hv e1) hz]
        rfl
      rw [hs, hf, zero_mul, abs_zero, add_zero, add_zero]
      exact ih (by omega) e1
        ((Finset.card_le_card (Finset.monotone_filter_right _ fun k _ hk => ⟨hk.1, by omega, hk.2.2⟩)).trans hβ)
    · obtain ⟨β, rfl⟩ : ∃ b, β = b + 1 := by
        refine ⟨β - 1, ?_⟩
        have : 0 < β := lt_of_lt_of_le (Finset.card_pos.mpr ⟨⟨a + m, hlt⟩, by simp [hf]⟩) hβ
        omega
      have hc : (Finset.univ.filter fun c : Fin n => a ≤ c.1 ∧ c.1 < a + m ∧ (f c).val ≠ 0).card ≤ β := by
        have hlt' := Finset.card_lt_card (s := Finset.univ.filter fun c : Fin n => a ≤ c.1 ∧ c.1 < a + m ∧ (f c).val ≠ 0)
          (t := Finset.univ.filter fun c : Fin n => a ≤ c.1 ∧ c.1 < a + (m + 1) ∧ (f c).val ≠ 0) (by
            rw [Finset.ssubset_iff_of_subset (Finset.monotone_filter_right _ fun k _ hk => ⟨hk.1, by omega, hk.2.2⟩)]
            exact ⟨⟨a + m, hlt⟩, by simp [hf], by simp⟩)
        omega
      refine (chain_near hr h1 β e4 e5 (ih (by omega) e1 hc) (psum_nonneg (fun c => abs_nonneg _) _ _)).trans ?_
      exact add_le_add le_rfl (small_succ hu h1 hη β)

/-- C236: without pivoting and whichever products are fused, the errors of the direct solver are those of `β + 1` operations if the rows
of the factors have no more than `β` elements besides zeros on each side of the diagonal, wherever they are. -/
theorem c236_few (s s' : Lu (Fused binary64 fuse)) {t : ℚ} (ht : 0 < t) (hs : s.tol.get = .fin t) {β : Nat}
    (A : Fin n → Fin n → Fused binary64 fuse) (B : Fin n → Fin n → ℚ) (hA : ∀ r c, (A r c).get = .fin (B r c))
    (hB : ∀ r c, binary64 (B r c) = .fin (B r c))
    (hf : factorise (Fused.arith binary64 fuse) false s (mat A) = .ok (s', true)) (N : Fin n → Fin n → Fused binary64 fuse)
    (hN : s'.lu = mat N) (M : Fin n → Fin n → ℚ) (hM : ∀ r c, (N r c).get = .fin (M r c)) (hfew : Few β M) :
    (∀ r c, |B r c - ∑ k, lowerPart M r k * upperPart M k c| ≤
      relError u64 (β + 1) * (∑ k, |lowerPart M r k| * |upperPart M k c|) + absError u64 η64 (β + 1) * (1 + |M c c|)) ∧
    ∀ (b X : Fin n → Fused binary64 fuse) (d x : Fin n → ℚ) (x0 : List (Fused binary64 fuse)), (∀ r, (b r).get = .fin (d r)) →
      (∀ r, binary64 (d r) = .fin (d r)) → Lu.solve false s' x0 (some (vec b)) = .ok (vec X, true, 1) →
      (∀ r, (X r).get = .fin (x r)) →
      ∀ r, |d r - ∑ c, B r c * x c| ≤
        (3 * relError u64 (β + 1) + relError u64 (β + 1) ^ 2) * (∑ k, |lowerPart M r k| * ∑ c, |upperPart M k c| * |x c|) +
        absError u64 η64 (β + 1) * (1 + (1 + relError u64 (β + 1)) * (∑ k, |lowerPart M r k| * (1 + |M k k|)) +
          ∑ c, (1 + |M c c|) * |x c|) := by
  have h := rounds_binary64
  have h1 : u64 < 1 := by norm_num
  have hu : (0 : ℚ) ≤ u64 := by norm_num
  have hη : (0 : ℚ) ≤ η64 := by positivity
  have hNf : ∀ r c, (N r c).IsFin := fun r c => (isFin_of (hM r c)).1
  have hMv : ∀ r c, (N r c).val = M r c := fun r c => (isFin_of (hM r c)).2
  have hAv : ∀ r c, (A r c).val = B r c := fun r c => (isFin_of (hA r c)).2
  obtain ⟨p, N', st, ok, e1, e2⟩ := factorise_fused h h1 false s ht hs A
  have hf' := hf
  rw [hf] at e1
  simp only [Out.ok.injEq, Prod.mk.injEq] at e1
  obtain ⟨rfl, rfl⟩ := e1
  have hR := e2 rfl
  obtain rfl : N' = N := mat_inj.mp hN
  have hd0 : ∀ k, M k k ≠ 0 := pivots_fused ht hs hf' rfl hM
  have hc := factorise_closed (Fused.arith binary64 fuse) s _ A N' hf' rfl
  have hBd : ∀ r c, IsDouble (A r c).get := fun r c => ⟨_, hA r c, hB r c⟩
  have hlow : ∀ r : Fin n, (Finset.univ.filter fun k : Fin n => 0 ≤ k.1 ∧ k.1 < 0 + r.1 ∧ (N' r k).val ≠ 0).card ≤ β := fun r => by
    simp only [hMv]
    exact (Finset.card_le_card (Finset.monotone_filter_right _ fun k _ hk => ⟨show k.1 < r.1 by omega, hk.2.2⟩)).trans (hfew r).1
  have hwide : ∀ {m : Nat} {T v : ℚ}, m ≤ β + 1 → 0 ≤ T → v ≤ (gain u64 ^ m - 1) * T + small u64 η64 m →
      v ≤ relError u64 (β + 1) * T + absError u64 η64 (β + 1) := by
    intro m T v hm hT hv
    rw [relError_eq, absError_eq]
    have t1 := mul_le_mul_of_nonneg_right (sub_le_sub_right (gain_mono hm) 1) hT
    have t2 := small_mono hu h1 hη hm
    linarith
  have hprod : ∀ r c, |B r c - ∑ k, lowerPart M r k * upperPart M k c| ≤
      relError u64 (β + 1) * (∑ k, |lowerPart M r k| * |upperPart M k c|) + absError u64 η64 (β + 1) * (1 + |M c c|) := by
    intro r c
    rw [product_abs]
    have hcc := abs_nonneg (M c c)
    have ha0 : 0 ≤ absError u64 η64 (β + 1) := by rw [absError_eq]; exact small_nonneg hu h1 hη _
    by_cases hrc : r ≤ c
    · have hrc' : r.1 ≤ c.1 := hrc
      have e := (hc r c).2 hrc
      have hfin := hNf r c
      have hval := hMv r c
      rw [e] at hfin hval
      have i3 := less_fused_few (hBd r c) (fun k => N' r k) (fun k => N' k c) 0 r.1 (by have := r.2; omega) hfin (hlow r)
      rw [hval] at i3
      simp only [hMv, hAv] at i3
      rw [product_upper M hrc, product_upper _ hrc, ← sub_sub]
      simp only [abs_mul] at i3 ⊢
      have hT : 0 ≤ Lu.psum (fun k => |M r k| * |M k c|) 0 r.1 + |M r c| :=
        add_nonneg (psum_nonneg (fun k => mul_nonneg (abs_nonneg _) (abs_nonneg _)) _ _) (abs_nonneg _)
      have := hwide (by omega) hT i3
      nlinarith
    · have hcr : c < r := not_le.mp hrc
      have hcr' : c.1 < r.1 := hcr
      have e := (hc r c).1 hcr
      have hq := hNf r c
      rw [e] at hq
      obtain ⟨f1, f2⟩ := div_isFin (hNf c c) (by rw [hMv]; exact hd0 c) hq
      rw [← e, hMv, hMv] at f2
      have i3 := less_fused_few (hBd r c) (fun k => N' r k) (fun k => N' k c) 0 c.1 (by have := c.2; omega) f1
        (le_trans (Finset.card_le_card (Finset.monotone_filter_right _ fun k _ hk => ⟨hk.1, by omega, hk.2.2⟩)) (hlow r))
      simp only [hMv, hAv] at i3
      have i4 := quot_error h h1 β (hd0 c) f2 i3 (psum_nonneg (fun c => abs_nonneg _) _ _)
      rw [product_lower M hcr, product_lower _ hcr]
      simp only [abs_mul] at i4 ⊢
      have hT : 0 ≤ Lu.psum (fun k => |M r k| * |M k c|) 0 c.1 + |M r c| * |M c c| :=
        add_nonneg (psum_nonneg (fun k => mul_nonneg (abs_nonneg _) (abs_nonneg _)) _ _) (mul_nonneg (abs_nonneg _) (abs_nonneg _))
      exact widen hu h1 hη le_rfl hT hcc i4
  refine ⟨hprod, ?_⟩
  intro b X d x x0 hb hdd hx hxx
  obtain ⟨y, x', e3, hy, hx'⟩ := solve_any false { s with factorised := true, lu := mat N', piv := st } N' rfl rfl p hR.pivots
    (fun hp => (hR.none hp).2) b x0
  obtain rfl := (hR.none rfl).2
  rw [e3] at hx
  simp only [Out.ok.injEq, Prod.mk.injEq, and_true] at hx
  obtain rfl := vec_inj.mp hx
  simp only [Equiv.Perm.coe_one, id_eq] at hy
  have hxf : ∀ r, (x' r).IsFin := fun r => (isFin_of (hxx r)).1
  have hxv : ∀ r, (x' r).val = x r := fun r => (isFin_of (hxx r)).2
  have hbv : ∀ r, (b r).val = d r := fun r => (isFin_of (hb r)).2
  have hquot : ∀ r, (less (y r) (fun c => N' r c * x' c) (r.1 + 1) (n - (r.1 + 1))).IsFin ∧
      binary64 ((less (y r) (fun c => N' r c * x' c) (r.1 + 1) (n - (r.1 + 1))).val / M r r) = .fin (x r) := fun r => by
    have hq := hxf r
    rw [hx' r] at hq
    obtain ⟨f1, f2⟩ := div_isFin (hNf r r) (by rw [hMv]; exact hd0 r) hq
    rw [← hx' r, hxv, hMv] at f2
    exact ⟨f1, f2⟩
  have hyf : ∀ r, (y r).IsFin := fun r => less_finiteF (l := 0) (hquot r).1 (Nat.zero_le _)
  have hyd : ∀ r, IsDouble (y r).get := by
    intro r
    have hfin := hyf r
    rw [hy r] at hfin ⊢
    exact less_doubleF ⟨_, hb r, hdd r⟩ hfin
  have hback : ∀ r, |(y r).val - ∑ c, upperPart M r c * x c| ≤
      relError u64 (β + 1) * (∑ c, |upperPart M r c| * |x c|) + absError u64 η64 (β + 1) * (1 + |M r r|) := by
    intro r
    obtain ⟨f1, f2⟩ := hquot r
    have i3 := less_fused_few (hyd r) (fun c => N' r c) x' (r.1 + 1) (n - (r.1 + 1)) (by have := r.2; omega) f1 (β := β) (by
      simp only [hMv]
      exact (Finset.card_le_card (Finset.monotone_filter_right _ fun k _ hk => ⟨show r.1 < k.1 by omega, hk.2.2⟩)).trans (hfew r).2)
    simp only [hMv, hxv] at i3
    have i4 := quot_error h h1 β (hd0 r) f2 i3 (psum_nonneg (fun c => abs_nonneg _) _ _)
    rw [sum_upper, mul_comm (M r r)]
    have q2 : ∑ c, |upperPart M r c| * |x c| = Lu.psum (fun c => |M r c * x c|) (r.1 + 1) (n - (r.1 + 1)) + |x r * M r r| := by
      have := sum_upper (fun r c => |M r c|) (fun c => |x c|) r
      rw [abs_mul, mul_comm |x r|]
      refine Eq.trans ?_ (this.trans ?_)
      · refine Finset.sum_congr rfl fun c _ => ?_
        unfold upperPart
        split
        · rfl
        · simp
      · simp only [abs_mul]
    rw [q2]
    have hT : 0 ≤ Lu.psum (fun c => |M r c * x c|) (r.1 + 1) (n - (r.1 + 1)) + |x r * M r r| :=
      add_nonneg (psum_nonneg (fun c => abs_nonneg _) _ _) (abs_nonneg _)
    exact widen hu h1 hη le_rfl hT (abs_nonneg _) i4
  have hfor : ∀ r, |d r - ∑ k, lowerPart M r k * (y k).val| ≤
      relError u64 (β + 1) * (∑ k, |lowerPart M r k| * |(y k).val|) + absError u64 η64 (β + 1) := by
    intro r
    have hfin := hyf r
    have hval : (y r).val = (less (b r) (fun c => N' r c * y c) 0 r.1).val := by rw [← hy r]
    rw [hy r] at hfin
    have i3 := less_fused_few (v := b r) ⟨_, hb r, hdd r⟩ (fun c => N' r c) y 0 r.1 (by have := r.2; omega) hfin (hlow r)
    rw [← hval] at i3
    simp only [hMv, hbv] at i3
    rw [sum_lower, ← sub_sub]
    have q2 : ∑ k, |lowerPart M r k| * |(y k).val| = Lu.psum (fun c => |M r c * (y c).val|) 0 r.1 + |(y r).val| := by
      have := sum_lower (fun r c => |M r c|) (fun c => |(y c).val|) r
      refine Eq.trans ?_ (this.trans ?_)
      · refine Finset.sum_congr rfl fun c _ => ?_
        unfold lowerPart
        split
        · rfl
        · split <;> simp
      · simp only [abs_mul]
    rw [q2]
    have hT : 0 ≤ Lu.psum (fun c => |M r c * (y c).val|) 0 r.1 + |(y r).val| :=
      add_nonneg (psum_nonneg (fun c => abs_nonneg _) _ _) (abs_nonneg _)
    exact hwide (by omega) hT i3
  intro r
  have hε : 0 ≤ relError u64 (β + 1) := by
    rw [relError_eq]
    have : 1 ≤ gain u64 ^ (β + 1) := one_le_pow₀ (gain_spec (u := u64) (by norm_num) (by norm_num)).1
    linarith
  have := combine (B := B) (L := lowerPart M) (U := upperPart M) (b := d) (x := x)
    (y := fun k => (y k).val) hε (fun r c => by rw [upper_diag]; exact hprod r c) hfor
    (fun k => by rw [upper_diag]; exact hback k) r
  simpa only [upper_diag] using this

/-- C236: the residual of a finite solution. -/
theorem c236_residual (s s' : Lu (Fused binary64 fuse)) {t : ℚ} (ht : 0 < t) (hs : s.tol.get = .fin t) {β : Nat} (hβ : β < 2 ^ 52)
    (A : Fin n → Fin n → Fused binary64 fuse) (B : Fin n → Fin n → ℚ) (hA : ∀ r c, (A r c).get = .fin (B r c))
    (hB : ∀ r c, binary64 (B r c) = .fin (B r c))
    (hf : factorise (Fused.arith binary64 fuse) false s (mat A) = .ok (s', true)) (N : Fin n → Fin n → Fused binary64 fuse)
    (hN : s'.lu = mat N) (M : Fin n → Fin n → ℚ) (hM : ∀ r c, (N r c).get = .fin (M r c)) (hfew : Few β M)
    (b X : Fin n → Fused binary64 fuse) (d x : Fin n → ℚ) (x0 : List (Fused binary64 fuse)) (hb : ∀ r, (b r).get = .fin (d r))
    (hd : ∀ r, binary64 (d r) = .fin (d r)) (hX : Lu.solve false s' x0 (some (vec b)) = .ok (vec X, true, 1))
    (hx : ∀ r, (X r).get = .fin (x r)) (r : Fin n) :
    |d r - ∑ c, B r c * x c| ≤ ((β + 1 : Nat) : ℚ) / 2 ^ 50 * (∑ k, |lowerPart M r k| * ∑ c, |upperPart M k c| * |x c|) +
      6 * ((β + 1 : Nat) : ℚ) / 2 ^ 1075 * (1 + 2 * (∑ k, |lowerPart M r k| * (1 + |M k k|)) + ∑ c, (1 + |M c c|) * |x c|) :=
  ((c236_few s s' ht hs A B hA hB hf N hN M hM hfew).2 b X d x x0 hb hd hX hx r).trans (residual_constants hβ
    (Finset.sum_nonneg fun k _ => mul_nonneg (abs_nonneg _) (Finset.sum_nonneg fun c _ => mul_nonneg (abs_nonneg _) (abs_nonneg _)))
    (Finset.sum_nonneg fun k _ => mul_nonneg (abs_nonneg _) (add_nonneg zero_le_one (abs_nonneg _)))
    (Finset.sum_nonneg fun k _ => mul_nonneg (add_nonneg zero_le_one (abs_nonneg _)) (abs_nonneg _)))

/-! ### Dominant matrices -/

/-- C236: finite solutions of a dominant system. -/
theorem c236_accurate {β : Nat} (hβ : β < 2 ^ 52) {t A S : ℚ} (ht : 1 / 2 ^ 100 ≤ t) (hA : A ≤ 2 ^ 900)
    (N : Fin n → Fin n → Fused binary64 fuse) (B : Fin n → Fin n → ℚ) (hB : ∀ r c, (N r c).get = .fin (B r c))
    (hBd : ∀ r c, binary64 (B r c) = .fin (B r c)) (hrow : ∀ r, ∑ c, |B r c| ≤ A)
    (hdom : ∀ r, S + ∑ c ∈ Finset.univ.erase r, |B r c| ≤ |B r r|) (hS : t + n * A / 2 ^ 49 ≤ S) (s : Lu (Fused binary64 fuse))
    (hs : s.tol.get = .fin t) (hfew : ∀ (s' : Lu (Fused binary64 fuse)) (N' : Fin n → Fin n → Fused binary64 fuse) (M : Fin n → Fin n → ℚ),
      factorise (Fused.arith binary64 fuse) false s (mat N) = .ok (s', true) → s'.lu = mat N' → (∀ r c, (N' r c).get = .fin (M r c)) →
      Few β M) :
    ∃ s', factorise (Fused.arith binary64 fuse) false s (mat N) = .ok (s', true) ∧
    ∀ (b : Fin n → Fused binary64 fuse) (d : Fin n → ℚ) (x0 : List (Fused binary64 fuse)) (W : Fin n → Fused binary64 fuse)
      (x : Fin n → ℚ) (X : ℚ), (∀ r, (b r).get = .fin (d r)) → (∀ r, binary64 (d r) = .fin (d r)) →
      Lu.solve false s' x0 (some (vec b)) = .ok (vec W, true, 1) → (∀ r, (W r).get = .fin (x r)) → (∀ c, |x c| ≤ X) →
      (∀ r, |d r - ∑ c, B r c * x c| ≤ ((β + 1 : Nat) : ℚ) ^ 2 * A * (6 * X / 2 ^ 50 + 1 / 2 ^ 900)) ∧
      ∀ y, Solves B y d → ∀ r, |x r - y r| ≤ ((β + 1 : Nat) : ℚ) ^ 2 * A * (6 * X / 2 ^ 50 + 1 / 2 ^ 900) / S := by
  have ht0 : 0 < t := lt_of_lt_of_le (by positivity) ht
  obtain ⟨N', M, h1, h1', h2, hg, h3⟩ := factorise_works64 (works_fused fine_binary64) ht hA hrow hdom hS hB s hs
  have h2 := heavy_pivots ht0 (fun r => (h2 r).1) hg
  refine ⟨_, h1, fun b d x0 W x X hb hd hW hx hX => ?_⟩
  have hF := hfew _ N' M h1 rfl h1'
  have hres : ∀ r, |d r - ∑ c, B r c * x c| ≤ ((β + 1 : Nat) : ℚ) ^ 2 * A * (6 * X / 2 ^ 50 + 1 / 2 ^ 900) := by
    intro r
    have hn0 : 0 < n := r.pos
    obtain ⟨htS, hSA, hn⟩ := heavy_size hn0 ht0 hrow hdom hS
    have hX0 : 0 ≤ X := (abs_nonneg _).trans (hX r)
    obtain ⟨k1, k2, k3⟩ := few_sums hF ht0 h2 h3 hX r
    refine (c236_residual s _ ht0 hs hβ N B hB hBd h1 N' rfl M h1' hF b W d x x0 hb hd hW hx r).trans ?_
    have hm : (1 : ℚ) ≤ ((β + 1 : Nat) : ℚ) := by exact_mod_cast Nat.le_add_left 1 β
    generalize ((β + 1 : Nat) : ℚ) = m at *
    refine le_trans ?_ (heavy_constants hm hn ht (htS.trans hSA) hX0)
    have g1 : (0 : ℚ) ≤ m / 2 ^ 50 := by positivity
    have g2 : (0 : ℚ) ≤ 6 * m / 2 ^ 1075 := by positivity
    exact add_le_add (mul_le_mul_of_nonneg_left k1 g1)
      (mul_le_mul_of_nonneg_left (add_le_add (add_le_add le_rfl (mul_le_mul_of_nonneg_left k2 (by norm_num))) k3) g2)
  refine ⟨hres, fun y hy r => ?_⟩
  have hn0 : 0 < n := r.pos
  exact dominant_error (ht0.trans_le (heavy_size hn0 ht0 hrow hdom hS).1) hdom hy hres r

/-- C236: a dominant system whose numbers are at most 2^400 in size. -/
theorem c236_solved {β : Nat} (hβ : β < 2 ^ 52) {t A S : ℚ} (ht : 1 / 2 ^ 100 ≤ t) (hA : A ≤ 2 ^ 400)
    (N : Fin n → Fin n → Fused binary64 fuse) (B : Fin n → Fin n → ℚ) (hB : ∀ r c, (N r c).get = .fin (B r c))
    (hBd : ∀ r c, binary64 (B r c) = .fin (B r c)) (hrow : ∀ r, ∑ c, |B r c| ≤ A)
    (hdom : ∀ r, S + ∑ c ∈ Finset.univ.erase r, |B r c| ≤ |B r r|) (hS : t + n * A / 2 ^ 47 ≤ S) (s : Lu (Fused binary64 fuse))
    (hs : s.tol.get = .fin t) (hfew : ∀ (s' : Lu (Fused binary64 fuse)) (N' : Fin n → Fin n → Fused binary64 fuse) (M : Fin n → Fin n → ℚ),
      factorise (Fused.arith binary64 fuse) false s (mat N) = .ok (s', true) → s'.lu = mat N' → (∀ r c, (N' r c).get = .fin (M r c)) →
      Few β M) :
    ∃ s', factorise (Fused.arith binary64 fuse) false s (mat N) = .ok (s', true) ∧
    ∀ (b : Fin n → Fused binary64 fuse) (d : Fin n → ℚ) (D : ℚ) (x0 : List (Fused binary64 fuse)), (∀ r, (b r).get = .fin (d r)) →
      (∀ r, binary64 (d r) = .fin (d r)) → (∀ r, |d r| ≤ D) → D ≤ 2 ^ 400 →
      ∃ (W : Fin n → Fused binary64 fuse) (x : Fin n → ℚ), Lu.solve false s' x0 (some (vec b)) = .ok (vec W, true, 1) ∧
      (∀ r, (W r).get = .fin (x r)) ∧ (∀ r, |x r| ≤ 8 * (D + A / 2 ^ 900) / S) ∧
      ∀ y, Solves B y d → ∀ r, |x r - y r| ≤ ((β + 1 : Nat) : ℚ) ^ 2 * (A / S) * (D / S / 2 ^ 44 + 1 / 2 ^ 440) := by
  have ht0 : 0 < t := lt_of_lt_of_le (by positivity) ht
  have hA9 : A ≤ 2 ^ 900 := hA.trans (pow_le_pow_right₀ (by norm_num) (by norm_num))
  have hS9 : t + n * A / 2 ^ 49 ≤ S := by
    rcases Nat.eq_zero_or_pos n with rfl | hn0
    · simpa using hS
    · have h1 : 0 ≤ ∑ c, |B ⟨0, hn0⟩ c| := Finset.sum_nonneg fun _ _ => abs_nonneg _
      have h2 : 0 ≤ n * A := mul_nonneg (by positivity) (h1.trans (hrow _))
      have h3 : n * A / 2 ^ 49 ≤ n * A / 2 ^ 47 := div_le_div_of_nonneg_left h2 (by positivity) (by norm_num)
      linarith
  obtain ⟨s1, m1, m2⟩ := c223_solved ht hA N B hB hrow hdom hS s hs
  obtain ⟨s', k1, k2⟩ := c236_accurate hβ ht hA9 N B hB hBd hrow hdom hS9 s hs hfew
  rw [m1] at k1
  obtain rfl := (Prod.mk.inj (Out.ok.inj k1)).1
  refine ⟨_, m1, fun b d D x0 hb hd hdD hD => ?_⟩
  obtain ⟨W, x, l1, l2, l3, -⟩ := m2 b d D x0 hb hdD hD
  refine ⟨W, x, l1, l2, l3, fun z hz r => ?_⟩
  refine ((k2 b d x0 W x _ hb hd l1 l2 l3).2 z hz r).trans ?_
  obtain ⟨htS, hSA, -⟩ := heavy_size r.pos ht0 hrow hdom hS9
  have hS0 : 0 < S := ht0.trans_le htS
  rw [div_eq_mul_one_div A (2 ^ 900)]
  exact solved_constants hS0 (hS0.le.trans hSA) ((abs_nonneg _).trans (hdD r)) (small_constants ht htS hA)

/-! ### Graphs without fill-in -/

/-- What C236 says of a finite solution of a system of doubles along the edges of `g`. -/
def SmallResidualF (fuse : Hist → Hist → Hist → Bool) (g : Graph) (β : Nat) : Prop :=
  ∀ (A : Fin g.sizeVertex → Fin g.sizeVertex → Fused binary64 fuse) (B : Fin g.sizeVertex → Fin g.sizeVertex → ℚ),
    (∀ r c, (A r c).get = .fin (B r c)) → (∀ r c, binary64 (B r c) = .fin (B r c)) → Along g B →
    ∀ (s s' : Lu (Fused binary64 fuse)) (t : ℚ), 0 < t → s.tol.get = .fin t →
    factorise (Fused.arith binary64 fuse) false s (mat A) = .ok (s', true) →
    ∀ (N : Fin g.sizeVertex → Fin g.sizeVertex → Fused binary64 fuse) (M : Fin g.sizeVertex → Fin g.sizeVertex → ℚ), s'.lu = mat N →
    (∀ r c, (N r c).get = .fin (M r c)) →
    ∀ (b X : Fin g.sizeVertex → Fused binary64 fuse) (d x : Fin g.sizeVertex → ℚ) (x0 : List (Fused binary64 fuse)),
    (∀ r, (b r).get = .fin (d r)) → (∀ r, binary64 (d r) = .fin (d r)) →
    Lu.solve false s' x0 (some (vec b)) = .ok (vec X, true, 1) → (∀ r, (X r).get = .fin (x r)) →
    ∀ r, |d r - ∑ c, B r c * x c| ≤ ((β + 1 : Nat) : ℚ) / 2 ^ 50 * (∑ k, |lowerPart M r k| * ∑ c, |upperPart M k c| * |x c|) +
      6 * ((β + 1 : Nat) : ℚ) / 2 ^ 1075 * (1 + 2 * (∑ k, |lowerPart M r k| * (1 + |M k k|)) + ∑ c, (1 + |M c c|) * |x c|)

theorem joined_residualF {g : Graph} (h : Reachable false g) (hj : LaterJoined g) {β : Nat} (hβ : β < 2 ^ 52)
    (hdeg : ∀ v, v < g.sizeVertex → (around g v).card ≤ β) : SmallResidualF fuse g β :=
  fun A B hA hB hL s s' _ ht hs hf N M hN hM b X d x x0 hb hd hX hx r =>
    c236_residual s s' ht hs hβ A B hA hB hf N hN M hM
      (few_of_along h (c235_no_fill g h hj s s' ht hs A B hA hL hf N hN M hM) hdeg) b X d x x0 hb hd hX hx r

/-- C236: if the later neighbours of every vertex are neighbours of each other, the largest degree takes the place of the number of
unknowns. -/
theorem c236_joined (g : Graph) (h : Reachable false g) (hj : LaterJoined g) (β : Nat) (hβ : β < 2 ^ 52)
    (hdeg : ∀ v d, g.degree v = .ok d → d ≤ β) : SmallResidualF fuse g β :=
  joined_residualF h hj hβ fun _ hv => around_le h hdeg hv

/-- C236: so for every tree after `cuthill_mckee_reverse`. -/
theorem c236_tree (sort : List (Nat × Nat) → List (Nat × Nat)) (hsort : DegreeSort sort) (g : Graph) (h : Reachable false g)
    (ht : Tree g) (root : Nat) (hroot : root < g.sizeVertex ∨ root = sizeMax ∧ 1 < g.sizeVertex) (β : Nat) (hβ : β < 2 ^ 52)
    (hdeg : ∀ v d, g.degree v = .ok d → d ≤ β) :
    ∃ q g', g.cuthillMckeeReverse sort root = .ok q ∧ g.reorder q = .ok (g', g) ∧ SmallResidualF fuse g' β := by
  obtain ⟨q, g', h1, h2, h3, h4, h5⟩ := tree_reordered sort hsort g h ht root hroot β hdeg
  exact ⟨q, g', h1, h2, joined_residualF h3 h4 hβ h5⟩

/-- C236: dominant systems on a tree after `cuthill_mckee_reverse` are solved with errors that the largest degree bounds. -/
theorem c236_tree_solved (sort : List (Nat × Nat) → List (Nat × Nat)) (hsort : DegreeSort sort) (g : Graph) (h : Reachable false g)
    (htree : Tree g) (root : Nat) (hroot : root < g.sizeVertex ∨ root = sizeMax ∧ 1 < g.sizeVertex) (β : Nat) (hβ : β < 2 ^ 52)
    (hdeg : ∀ v d, g.degree v = .ok d → d ≤ β) :
    ∃ q g', g.cuthillMckeeReverse sort root = .ok q ∧ g.reorder q = .ok (g', g) ∧
    ∀ (N : Fin g'.sizeVertex → Fin g'.sizeVertex → Fused binary64 fuse) (B : Fin g'.sizeVertex → Fin g'.sizeVertex → ℚ) (t A S : ℚ),
    1 / 2 ^ 100 ≤ t → A ≤ 2 ^ 400 → (∀ r c, (N r c).get = .fin (B r c)) → (∀ r c, binary64 (B r c) = .fin (B r c)) → Along g' B →
    (∀ r, ∑ c, |B r c| ≤ A) → (∀ r, S + ∑ c ∈ Finset.univ.erase r, |B r c| ≤ |B r r|) →
    t + g'.sizeVertex * A / 2 ^ 47 ≤ S → ∀ s : Lu (Fused binary64 fuse), s.tol.get = .fin t →
    ∃ s', factorise (Fused.arith binary64 fuse) false s (mat N) = .ok (s', true) ∧
    ∀ (b : Fin g'.sizeVertex → Fused binary64 fuse) (d : Fin g'.sizeVertex → ℚ) (D : ℚ) (x0 : List (Fused binary64 fuse)),
      (∀ r, (b r).get = .fin (d r)) → (∀ r, binary64 (d r) = .fin (d r)) → (∀ r, |d r| ≤ D) → D ≤ 2 ^ 400 →
      ∃ (W : Fin g'.sizeVertex → Fused binary64 fuse) (x : Fin g'.sizeVertex → ℚ),
      Lu.solve false s' x0 (some (vec b)) = .ok (vec W, true, 1) ∧
      (∀ r, (W r).get = .fin (x r)) ∧ (∀ r, |x r| ≤ 8 * (D + A / 2 ^ 900) / S) ∧
      ∀ y, Solves B y d → ∀ r, |x r - y r| ≤ ((β + 1 : Nat) : ℚ) ^ 2 * (A / S) * (D / S / 2 ^ 44 + 1 / 2 ^ 440) := by
  obtain ⟨q, g', h1, h2, h3, h4, h5⟩ := tree_reordered sort hsort g h htree root hroot β hdeg
  refine ⟨q, g', h1, h2, fun N B t A S ht hA hB hBd hal hrow hdom hS s hs => ?_⟩
  exact c236_solved hβ ht hA N B hB hBd hrow hdom hS s hs fun s' N' M hf hN hM =>
    few_of_along h3 (c235_no_fill g' h3 h4 s s' (lt_of_lt_of_le (by positivity) ht) hs N B hB hal hf N' hN M hM) h5

/-- The star of C235 whose centre comes last: two elements in the last row of the factors, one in the others. -/
def starLast (r c : Fin 3) : ℚ := ([[3, 0, 1], [0, 3, 1], [1, 1, 3]].getD r.1 []).getD c.1 0

def starFactors (r c : Fin 3) : ℚ :=
  ([[3, 0, 1], [0, 3, 1], [6004799503160661 / 2 ^ 54, 6004799503160661 / 2 ^ 54, 2627099782632789 / 2 ^ 50]].getD r.1 []).getD c.1 0

/-- The hypotheses hold, with every product fused. -/
example : (factorise (Fused.arith binary64 fun _ _ _ => true) false ⟨false, (Fused.arith binary64 _).tol, [], []⟩
        (mat fun r c : Fin 3 => inp (3 * r.1 + c.1) (starLast r c)) >>= fun r => do
      let s ← Lu.solve false r.1 [] (some [inp 9 1, inp 10 0, inp 11 0])
      pure (r.1.lu.map fun l => l.map Fused.get, r.2, s.1.map Fused.get, s.2)) =
    .ok (mat fun r c => Fl.fin (starFactors r c), true,
      [.fin (857828500451523 / 2 ^ 51), .fin (6862628003612185 / 2 ^ 57), .fin (-5146971002709139 / 2 ^ 55)], true, 1) ∧ Few 2 starFactors ∧
    (∀ r c, binary64 (starLast r c) = .fin (starLast r c)) ∧ (∀ r, ∑ c, |starLast r c| ≤ 5) ∧
    (∀ r, 1 + ∑ c ∈ Finset.univ.erase r, |starLast r c| ≤ |starLast r r|) ∧
    (64 * (1 / 2 ^ 52) : ℚ) + (3 : Nat) * 5 / 2 ^ 47 ≤ 1 ∧ (1 / 2 ^ 100 : ℚ) ≤ 64 * (1 / 2 ^ 52) :=
  ⟨by decide +kernel, by unfold Few; decide +kernel, by decide +kernel, by decide +kernel, by decide +kernel, by norm_num, by norm_num⟩

end Disa.Props
